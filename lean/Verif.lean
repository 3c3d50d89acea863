import Verif.Tree.Assoc
import Verif.Tree.Model
import Verif.Tree.WF
import Verif.Tree.SearchLemmas
import Verif.Tree.ChainLemmas
import Verif.Tree.Consolidate
import Verif.Tree.ChainSearch
import Verif.Tree.ChainOps
import Verif.Tree.HeadOps
import Verif.Spec.Chain
import Verif.Tree.SpecLemmas
import Verif.Mem.Frame
import Verif.Mem.Prov
import Verif.Mem.System
import Verif.Mem.Inv
import Verif.Mem.Steps
import Verif.Mem.Couple
import Verif.Mem.Start
import Verif.Mem.Exec
import Verif.Props.Chain
import Verif.Util.Model
import Verif.Props.Util
import Verif.MapTable.Model
import Verif.MapTable.Inv
import Verif.Props.MapTable
import Verif.Spec.Map
import Verif.Conc.Prog
import Verif.Conc.Code
import Verif.Conc.Ghost
import Verif.Conc.Logical
import Verif.Conc.Pages
import Verif.Conc.Steps
import Verif.Conc.Steps2
import Verif.Conc.Search
import Verif.Conc.SmoSteps
import Verif.Conc.Smo
import Verif.Conc.Ops
import Verif.Tree.Scan
import Verif.Conc.ScanSpec
import Verif.Conc.System
import Verif.Conc.Sound
import Verif.Spec.Linear
import Verif.Spec.Reach
import Verif.Spec.Quiet
import Verif.Conc.Init
import Verif.Conc.Exec
import Verif.Conc.Flags
import Verif.Props.Conc
import Verif.Props.Structure
import Verif.Props.Races
import Verif.Props.Escape
import Verif.Props.Scan
import Verif.Bulk.Model
import Verif.Bulk.Layers
import Verif.Bulk.Levels
import Verif.Bulk.Join
import Verif.Bulk.Ghost
import Verif.Bulk.Resize
import Verif.Spec.Bulk
import Verif.Conc.Solo
import Verif.Props.Bulk
import Verif.Props.Layout
import Verif.Spec.Seq
import Verif.Props.Seq
import Verif.Tree.KeyBuffer
import Verif.Tree.SortArray
import Verif.Props.KeyBuffer
import Verif.Props.Roots
import Verif.Props.Stat
import Verif.Props.Levels
import Verif.Iter.Model
import Verif.Props.Iter
import Verif.Gc.Model
import Verif.Gc.Inv
import Verif.Props.Gc
import Verif.Gc.Kinds
import Verif.Props.Kinds
import Verif.Tree.Exact
import Verif.Conc.SeqLogic
import Verif.Conc.SeqInv
import Verif.Conc.SeqSteps
import Verif.Conc.SeqSearch
import Verif.Conc.SeqSmo
import Verif.Conc.TotLogic
import Verif.Conc.TotSearch
import Verif.Conc.TotPot
import Verif.Conc.TotSmo
import Verif.Conc.TotMerge
import Verif.Conc.SeqOps
import Verif.Conc.SeqInit
import Verif.Conc.SeqRun
import Verif.Props.SeqFull
import Verif.Conc.TotOps
import Verif.Spec.Calls
import Verif.Conc.Fuel
import Verif.Conc.Session
import Verif.Conc.SessionExec
import Verif.Props.SeqTotal
import Verif.Props.Spurious
import Verif.Conc.Sure
import Verif.Conc.Owes
import Verif.Conc.Waits
import Verif.Conc.Settle
import Verif.Conc.QuietScan
import Verif.Conc.QuietIndex
import Verif.Conc.QuietWrite
import Verif.Conc.QuietOrder
import Verif.Props.Waits
import Verif.Props.Settle
import Verif.Props.QuietScan
import Verif.Props.QuietIndex
import Verif.Props.QuietWrite
import Verif.Props.QuietOrder
import Verif.Props.StatRest
import Verif.Props.Memory
import Verif.Props.VarLen
import Verif.Props.SortArray
import Verif.Weak.Model
import Verif.Weak.Ids
import Verif.Weak.Known
import Verif.Weak.Inv
import Verif.Weak.Start
import Verif.Weak.Exec
import Verif.Weak.Words
import Verif.Weak.Mono
import Verif.Weak.Sc
import Verif.Props.Weak
import Verif.Keys.Model
import Verif.Keys.Stable
import Verif.Props.Keys
import Verif.Layout.Chain
import Verif.Layout.Img
import Verif.Layout.Sim
import Verif.Layout.Cons
import Verif.Layout.Search
import Verif.Layout.SearchSim
import Verif.Layout.DeltaImg
import Verif.Bytes.Prog
import Verif.Bytes.Sim
import Verif.Bytes.Pids
import Verif.Bytes.System
import Verif.Bytes.Run
import Verif.Bytes.VarLay
import Verif.Bytes.VarSim
import Verif.Bytes.Exec
import Verif.Bytes.Strings
import Verif.Props.Bytes
import Verif.Props.BytesSafe
import Verif.Fix.Model
import Verif.Fix.Search
import Verif.Fix.Img
import Verif.Fix.Sim
import Verif.Fix.Cons
import Verif.Fix.SearchSim
import Verif.Fix.DeltaImg
import Verif.Fix.FixLay
import Verif.Fix.FixSim
import Verif.Fix.Strings
import Verif.Fix.Bulk
import Verif.Fix.BulkSim
import Verif.Fix.BulkEnds
import Verif.Fix.Start
import Verif.Props.FixBytes
import Verif.Props.FixPages
import Verif.Props.FixBulk
import Verif.Bytes.VarBulk
import Verif.Props.VarBulk
import Verif.Bytes.VarBulkSim
import Verif.Bytes.VarBulkEnds
import Verif.Props.VarLoad
import Verif.Bytes.Session
import Verif.Bytes.Solo
import Verif.Bytes.SoloSim
import Verif.Bytes.StrSpec
import Verif.Bytes.SoloTree
import Verif.Bytes.SessionExec
import Verif.Props.BytesSolo
import Verif.Spec.Child
import Verif.Props.IndexCons
import Verif.Props.IndexBytes
import Verif.Bytes.QuietTree
import Verif.Props.QuietBytes
import Verif.Spec.Apart
import Verif.Conc.Readers
import Verif.Props.WritesApart
import Verif.Conc.Exclusive
import Verif.Props.Exclusive
import Verif.Bytes.Readers
import Verif.Bytes.Exclusive
import Verif.Bytes.ActExec
import Verif.Props.LockBytes
import Verif.Props.VarFew
import Verif.Props.LoadReads
