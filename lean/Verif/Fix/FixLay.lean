import Verif.Fix.Search
import Verif.Bytes.VarLay

/-!
# The layout for fixed-length data (model)

`Lay` made of the pages and delta records of `Verif/Fix`.
-/

namespace BwTree.Fix

open Layout (Mem BCh)
open Bytes (Lay LSmo childRes pidBytes pidOf)

/-- What consolidation leaves: `TryConsolidate`, `bw_tree.hpp` 1227-1259. -/
def smoRes : BSMO → LSmo FNode
  | .one false nd => .consolidate nd
  | .one true nd => .merge nd
  | .two l r => .split l r

/-- The fixed-length layout.  The pointer in a merge delta is a reference to the node, so the bytes of
the pointer are any; the word of an index-delete delta holds `kNullPtr` first.  Records have no
metadata (`kMetaLen` is zero, `bw_tree.hpp` 595). -/
def fixLay (P : FPar) : Lay where
  C := BChain
  N := FNode
  D := FRec × BRef
  isLeaf := fun b => !b.inner
  isRemoved := fun b => match b with | .removed _ => true | _ => false
  needWait := fun b =>
    b.isDelta && (decide (P.maxDelta ≤ b.cnt) || decide ((P.c.page : Int) < b.size))
  needCons := fun b => b.isDelta && (decide (P.thr ≤ b.cnt) || decide ((P.c.page : Int) < b.size))
  child := fun k cl b => childRes (bChildStep P P.pid k cl b)
  validate := bValidate P.lt
  check := bKeyCheck P P.pay
  read := bRead P P.pay
  mergeStep := fun k sib b => (bMergeCheck P k sib b, sib)
  leftmost := fun b => (b.leftmostChild P.c P.pid).map pidOf
  empty := fun m => FNode.init P.c m false
  base := .base
  mark := .removed
  cons := fun m m' b => (bTryConsolidate P m m' false b).map smoRes
  scan := fun m bb eb b => bScanOut P P.pay m bb eb b
  low := fun nd => if nd.hasLow then some nd.low else none
  high := fun nd => if nd.hasHigh then some nd.high else none
  inner := fun nd => nd.inner
  cnt := fun nd => nd.pg.cnt
  setNext := fun nd p => { nd with next := p }
  diff := fun nd => nd.nodeDiff P.c
  entLen := fun inner k => P.plen inner + k.length
  put := fun m k v => (FRec.put P m k v, .none)
  del := fun m k => (FRec.del P m k, .none)
  entry := fun m nd p => (FRec.entry P m true nd.asRec (pidBytes P.pid p), .none)
  idxDel := fun m nd w => (FRec.idxDel P m nd.asRec (pidBytes P.pid 0), .word w)
  mergeD := fun m nd => (FRec.entry P m nd.inner nd.asRec (m.read 0 P.pid), .node nd)
  root := fun m p d => FNode.newRoot P.c m (pidBytes P.pid p) d.1
  push := fun ty d b diff => .push ty d.1 d.2 b diff

end BwTree.Fix
