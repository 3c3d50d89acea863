import Mathlib.Data.List.Basic
import Mathlib.Data.List.Nodup

/-!
# Life of delta records and nodes: allocation, publication, replacement, retirement, reuse (model)

An object is a piece of memory obtained from `GetRecPage` or `GetNodePage` (`bw_tree.hpp` 649-673).
The model forgets the contents of objects, except which other objects are reached from them, and
keeps who holds which pointer.  It contains every place of the code at which a pointer enters or
leaves the mapping table or is handed to the garbage collector.

The steps may be taken in any order by any number of threads, which is more than the code does, with
two exceptions that are proved about the code elsewhere: the unconditional store of a split
replaces the chain the thread has consolidated (`C06`), and page IDs given out by the mapping table
are new (`C25`).

The garbage collector is the external library `memory-manager`; the model assumes what epoch-based
reclamation provides: an object is freed only when every guard has been taken after it was retired
(`Act.free`).  Memory is sequentially consistent.
-/

namespace BwTree.Gc

/-- An address. -/
abbrev Obj := Nat

/-- Where an object is. -/
inductive Loc where
  /-- not allocated -/
  | free
  /-- allocated, known only to thread `t` (including `tls_delta_page_` 1700 and `tls_node` 1183) -/
  | priv (t : Nat)
  /-- the consolidated node of a removal in progress on page `p` (`removed_node`, 1434-1502) -/
  | rem (p : Nat)
  /-- part of the chain of page `p` -/
  | pub (p : Nat)
  /-- replaced by thread `t`, which has still to hand it to the garbage collector -/
  | pend (t : Nat)
  /-- handed to the garbage collector at the given time -/
  | retired (at_ : Nat)
  deriving DecidableEq

/-- A removal in progress: its thread, the remove-node delta and the consolidated node. -/
structure Removal where
  t : Nat
  mark : Obj
  node : Obj
  deriving DecidableEq

/-- Memory, mapping table and threads. -/
structure St where
  /-- where objects are -/
  loc : Obj → Loc
  /-- the objects reached from an object through `next_` and, for merge deltas, the payload; the
  code writes them before publication only (`SetNext`) -/
  below : Obj → List Obj
  /-- remove-node deltas -/
  isMark : Obj → Bool
  /-- the mapping table -/
  slot : Nat → Option Obj
  /-- removals in progress, by page -/
  rem : Nat → Option Removal
  /-- the objects thread `t` has still to pass to `AddGarbage` (the frames of `AddToGC`) -/
  todo : Nat → List Obj
  /-- how often an object has been passed to `AddGarbage` since it was allocated -/
  cnt : Obj → Nat
  /-- the time at which the thread took its epoch guard -/
  guard : Nat → Option Nat
  /-- pointers the thread has loaded from the mapping table (since it took its guard, if it has
  one), with what was reached from them then -/
  held : Nat → List (Obj × List Obj)
  time : Nat

/-- Nothing is allocated. -/
def init : St where
  loc := fun _ => .free
  below := fun _ => []
  isMark := fun _ => false
  slot := fun _ => none
  rem := fun _ => none
  todo := fun _ => []
  cnt := fun _ => 0
  guard := fun _ => none
  held := fun _ => []
  time := 0

def set {α : Type} (f : Nat → α) (i : Nat) (x : α) : Nat → α := fun j => if j = i then x else f j

/-- The objects reached from `h`, with `h`: what `AddToGC(h)` enumerates, `bw_tree.hpp` 684-709. -/
def St.chain (s : St) (h : Obj) : List Obj := h :: s.below h

/-- Move the objects of a list. -/
def move (loc : Obj → Loc) (l : List Obj) (x : Loc) : Obj → Loc := fun o => if o ∈ l then x else loc o

/-- The steps of thread `t`. -/
inductive Act where
  /-- `CreateEpochGuard`, `bw_tree.hpp` 150, 219, 265, 318, 372, 421 -/
  | enter (t : Nat)
  /-- the guard is released at the end of the call -/
  | leave (t : Nat)
  /-- `GetRecPage`, `GetNodePage`, 649-673 (a new object, or one the collector gives back) -/
  | alloc (t : Nat) (o : Obj)
  /-- an unpublished object is released: `reset` on an occupied `tls_delta_page_` or `tls_node`, or
  the end of the thread -/
  | release (t : Nat) (o : Obj)
  /-- a load of a logical pointer, `LogicalPtr::Load`; with or without a guard -/
  | load (t p : Nat)
  /-- a delta record is put on the chain of page `p` by CAS: 289, 341, 394, 443, 1388, 1542 -/
  | push (t p : Nat) (o h : Obj)
  /-- the chain `h` of page `p` is replaced by a node, by CAS (1209) or by the store of a split
  (1360) -/
  | replace (t p : Nat) (n h : Obj)
  /-- a node is stored under a new page ID: 110, 1356, 1417, 1641 -/
  | publish (t p : Nat) (n : Obj)
  /-- the chain `h` of page `p` is replaced by the remove-node delta `m` by CAS (1447); `n` is the
  consolidated node -/
  | mark (t p : Nat) (m n h : Obj)
  /-- the removal is given up: the node is stored back (1462) and the mark goes to `AddToGC` (1463) -/
  | restore (t p : Nat) (m n : Obj)
  /-- the merge delta `d` with the removed node is put on the chain `h` of page `q` by CAS (1490) -/
  | merge (t p : Nat) (m n : Obj) (q : Nat) (d h : Obj)
  /-- a root was removed: its node goes to `AddToGC` (1577), the mark stays -/
  | dropRoot (t p : Nat) (m n : Obj)
  /-- one `AddGarbage` call of `AddToGC`, 693, 698, 707 -/
  | retire (t : Nat) (o : Obj)
  /-- the garbage collector frees an object, or gives it to a later `GetPageIfPossible` -/
  | free (o : Obj)

/-- When a step can be taken. -/
def Pre (s : St) : Act → Prop
  | .enter t => s.guard t = none
  | .leave t => s.guard t ≠ none ∧ s.todo t = [] ∧ ∀ p r, s.rem p = some r → r.t ≠ t
  | .alloc _ o => s.loc o = .free
  | .release t o => s.loc o = .priv t
  | .load _ p => s.slot p ≠ none
  | .push t p o h => s.guard t ≠ none ∧ (∃ l, (h, l) ∈ s.held t) ∧ s.slot p = some h ∧
      s.isMark h = false ∧ s.loc o = .priv t
  | .replace t p n h => s.guard t ≠ none ∧ (∃ l, (h, l) ∈ s.held t) ∧ s.slot p = some h ∧
      s.isMark h = false ∧ s.loc n = .priv t
  | .publish t p n => s.slot p = none ∧ s.loc n = .priv t
  | .mark t p m n h => s.guard t ≠ none ∧ (∃ l, (h, l) ∈ s.held t) ∧ s.slot p = some h ∧
      s.isMark h = false ∧ s.loc m = .priv t ∧ s.loc n = .priv t ∧ m ≠ n
  | .restore t p m n => s.rem p = some ⟨t, m, n⟩
  | .merge t p m n q d h => s.rem p = some ⟨t, m, n⟩ ∧ (∃ l, (h, l) ∈ s.held t) ∧
      s.slot q = some h ∧ s.isMark h = false ∧ s.loc d = .priv t
  | .dropRoot t p m n => s.rem p = some ⟨t, m, n⟩
  | .retire t o => o ∈ s.todo t
  | .free o => ∃ r, s.loc o = .retired r ∧ ∀ t g, s.guard t = some g → r < g

/-- What a step does. -/
def eff (s : St) : Act → St
  | .enter t => { s with guard := set s.guard t (some s.time), held := set s.held t [] }
  | .leave t => { s with guard := set s.guard t none, held := set s.held t [] }
  | .alloc t o => { s with
      loc := set s.loc o (.priv t), cnt := set s.cnt o 0 }
  | .release _ o => { s with loc := set s.loc o .free }
  | .load t p => match s.slot p with
    | some h => { s with held := set s.held t ((h, s.below h) :: s.held t) }
    | none => s
  | .push t p o h => { s with
      below := set s.below o (s.chain h), isMark := set s.isMark o false,
      slot := set s.slot p (some o),
      loc := set s.loc o (.pub p), held := set s.held t ((o, s.chain h) :: s.held t) }
  | .replace t p n h => { s with
      below := set s.below n [], isMark := set s.isMark n false,
      slot := set s.slot p (some n),
      loc := set (move s.loc (s.chain h) (.pend t)) n (.pub p),
      todo := set s.todo t (s.chain h ++ s.todo t) }
  | .publish t p n => { s with
      below := set s.below n [], isMark := set s.isMark n false,
      slot := set s.slot p (some n), loc := set s.loc n (.pub p),
      held := set s.held t ((n, []) :: s.held t) }
  | .mark t p m n h => { s with
      below := set s.below m [], isMark := set s.isMark m true, slot := set s.slot p (some m),
      loc := set (set (move s.loc (s.chain h) (.pend t)) m (.pub p)) n (.rem p),
      todo := set s.todo t (s.chain h ++ s.todo t), rem := set s.rem p (some ⟨t, m, n⟩) }
  | .restore t p m n => { s with
      below := set s.below n [], isMark := set s.isMark n false,
      slot := set s.slot p (some n),
      loc := set (set s.loc m (.pend t)) n (.pub p),
      todo := set s.todo t (m :: s.todo t), rem := set s.rem p none }
  | .merge t p _ n q d h => { s with
      below := set s.below d (n :: s.chain h), isMark := set s.isMark d false,
      slot := set s.slot q (some d),
      loc := set (set s.loc d (.pub q)) n (.pub q),
      held := set s.held t ((d, n :: s.chain h) :: s.held t), rem := set s.rem p none }
  | .dropRoot t p _ n => { s with
      loc := set s.loc n (.pend t), todo := set s.todo t (n :: s.todo t), rem := set s.rem p none }
  | .retire t o => { s with
      loc := set s.loc o (.retired s.time), cnt := set s.cnt o (s.cnt o + 1),
      todo := set s.todo t ((s.todo t).erase o), time := s.time + 1 }
  | .free o => { s with loc := set s.loc o .free }

/-- States reachable by any interleaving of any number of threads. -/
inductive Reachable : St → Prop
  | init : Reachable init
  | step {s : St} {a : Act} : Reachable s → Pre s a → Reachable (eff s a)

end BwTree.Gc
