import Verif.Conc.Code
import Verif.Bulk.Model

/-!
# Threads (model)

Any number of threads call the public operations.  A step of the system is a call, one atomic
access of one thread to shared memory, or a return.
-/

namespace BwTree

variable {K V : Type} [LinearOrder K]

/-- What a program of a thread finally yields: the visible result and, for an unfinished scan, the
page, key and end bound with which the iterator continues. -/
abbrev Out (K V : Type) := Spec.Ret K V × Option (PID × K × Spec.Bound K)

/-- The result of a node visit as the caller sees it. -/
def visitOut (e : Spec.Bound K) (x : List (K × V) × Option (K × PID)) : Out K V :=
  (.page x.1 (x.2.map Prod.fst), x.2.map fun y => (y.2, y.1, e))

/-- A thread: idle, or executing a call. -/
inductive TSt (K V : Type) where
  | idle
  | run (call : Spec.Call K V) (prog : Prog K V (Out K V))

/-- State of the system.  `it t` is the iterator thread `t` holds (the node buffer of scans is
thread-local, `bw_tree.hpp` 213-215, so a thread has at most one usable iterator).  `mark` is an
auxiliary record: the thread that put the last removal mark on a page, and the head it replaced;
nothing depends on it. -/
structure Sys (K V : Type) where
  sh : Sh K V
  th : Nat → TSt K V
  it : Nat → Option (PID × K × Spec.Bound K)
  mark : PID → Option (Nat × Chain K V)

/-- A removal mark. -/
def isMark : Option (Chain K V) → Bool
  | some c => c.isRemoved
  | none => false

/-- Record who put a removal mark and on what. -/
def newMark (t : Nat) (sh sh' : Sh K V) (mark : PID → Option (Nat × Chain K V)) :
    PID → Option (Nat × Chain K V) :=
  fun p => if isMark (sh'.mt p) && !isMark (sh.mt p) then (sh.mt p).map (fun c => (t, c)) else mark p

/-- One step of the system; the label is the visible event.  `f` bounds the number of steps of the
called program and is arbitrary. -/
inductive SysStep (cfg : Cfg K) : Sys K V → Option (Spec.Event K V) → Sys K V → Prop
  /-- call of `Read`, `Write`, `Insert`, `Update` or `Delete`. -/
  | op (S : Sys K V) (t f : Nat) (o : Spec.Op K V) : S.th t = .idle →
      SysStep cfg S (some (.inv t (.op o)))
        { S with th := upd S.th t (.run (.op o) ((runOp cfg f o).bind fun r => .ret (.res r, none))) }
  /-- call of `Scan`. -/
  | scan (S : Sys K V) (t f : Nat) (b e : Spec.Bound K) : S.th t = .idle →
      SysStep cfg S (some (.inv t (.visit b e)))
        { S with th := upd S.th t (.run (.visit b e)
            ((scanFirst cfg f b e).bind fun x => .ret (visitOut e x))) }
  /-- `HasRecord` of an iterator whose node is used up and not the last one. -/
  | next (S : Sys K V) (t f : Nat) (p : PID) (k : K) (e : Spec.Bound K) : S.th t = .idle →
      S.it t = some (p, k, e) →
      SysStep cfg S (some (.inv t (.visit (some (k, true)) e)))
        { S with th := upd S.th t (.run (.visit (some (k, true)) e)
            ((scanNext cfg f p k e).bind fun x => .ret (visitOut e x))) }
  /-- an access to shared memory. -/
  | step (S : Sys K V) (t : Nat) (c : Spec.Call K V) (p p' : Prog K V (Out K V)) (sh' : Sh K V) :
      S.th t = .run c p → AStep S.sh p sh' p' →
      SysStep cfg S none
        { S with sh := sh', th := upd S.th t (.run c p'), mark := newMark t S.sh sh' S.mark }
  /-- return of a point operation. -/
  | retOp (S : Sys K V) (t : Nat) (o : Spec.Op K V) (r : Out K V) :
      S.th t = .run (.op o) (.ret r) →
      SysStep cfg S (some (.ret t (.op o) r.1)) { S with th := upd S.th t .idle }
  /-- return of a node visit. -/
  | retVisit (S : Sys K V) (t : Nat) (b e : Spec.Bound K) (r : Out K V) :
      S.th t = .run (.visit b e) (.ret r) →
      SysStep cfg S (some (.ret t (.visit b e) r.1))
        { S with th := upd S.th t .idle, it := upd S.it t r.2 }

/-- Executions and their histories. -/
inductive Run (cfg : Cfg K) (S₀ : Sys K V) : List (Spec.Event K V) → Sys K V → Prop
  | nil : Run cfg S₀ [] S₀
  | tau {h : List (Spec.Event K V)} {S S' : Sys K V} : Run cfg S₀ h S → SysStep cfg S none S' →
      Run cfg S₀ h S'
  | event {h : List (Spec.Event K V)} {S S' : Sys K V} {e : Spec.Event K V} : Run cfg S₀ h S →
      SysStep cfg S (some e) S' → Run cfg S₀ (h ++ [e]) S'

/-- The system at the start: all threads idle. -/
def Sys.start (sh : Sh K V) : Sys K V :=
  { sh := sh, th := fun _ => .idle, it := fun _ => none, mark := fun _ => none }

/-- The empty leaf the constructor creates, `bw_tree.hpp` 109-112 (`fixlen/node.hpp` 72-77). -/
def emptyLeaf (cfg : Cfg K) : Node K V :=
  { inner := false, low := none, high := none, next := 0, recs := [], size := cfg.hdr }

/-- Shared memory after the constructor, `bw_tree.hpp` 102-115: page 1 is the root (page IDs start
at 1, `mapping_table.hpp` 71-77). -/
def initSh (cfg : Cfg K) : Sh K V :=
  { mt := upd (fun _ => none) 1 (some (.base (emptyLeaf cfg))), root := 1, cells := fun _ => 0,
    npid := 2, ncell := 0 }

/-- The states in which a tree may be handed to the threads, with the map it represents. -/
inductive Init (cfg : Cfg K) : (K → Option V) → Sh K V → Prop
  /-- The constructor, `bw_tree.hpp` 102-115. -/
  | empty : Init cfg (fun _ => none) (initSh cfg)
  /-- `Bulkload` into a new tree, `bw_tree.hpp` 471-548, of sorted entries without duplicates
  (466-467), in the layout for fixed-length keys, or of so few entries that one leaf takes them all. -/
  | bulk {ids : Nat → Nat → PID} {threads : Nat} {es : List (K × V)} {T : Tbl K V} {root npid : PID}
      (fix : (∀ k, cfg.klen k = 0) ∨ ∃ n, T root = some n ∧ n.inner = false) (inj : IdsInj ids)
      (fresh : ∀ t i, 1 < ids t i) (ne : es ≠ [])
      (sorted : es.Pairwise fun x y => x.1 < y.1) (run : bulkload cfg ids threads es = some (T, root))
      (bound : ∀ p n, T p = some n → p < npid) : Init cfg (Spec.ofList es) (bulkSh T root npid)

/-- The states an execution may reach. -/
def Reachable (cfg : Cfg K) (m : K → Option V) (S : Sys K V) : Prop :=
  ∃ sh h, Init cfg m sh ∧ Run cfg (Sys.start sh) h S

end BwTree
