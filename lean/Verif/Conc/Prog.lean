import Verif.Tree.HeadOps

/-!
# Shared memory and programs (model of concurrency)

A program is a term of a free monad over the atomic accesses the C++ code makes to shared memory.
Between two accesses the code works on immutable chains or on thread-local data.
-/

namespace BwTree

/-- Shared memory: the mapping-table slots (`logical_ptr.hpp`; `none` is a null slot), `root_`
(`bw_tree.hpp` 1693), the atomic words of index-delete deltas (0 = null), and the counters that
hand out page IDs (`mapping_table.hpp` 124-165, see `C25` for uniqueness) and fresh words. -/
structure Sh (K V : Type) where
  mt : PID → Option (Chain K V)
  root : PID
  cells : Nat → PID
  npid : PID
  ncell : Nat

/-- Events in which an operation leaves its level; the code does not notice them, the model stops
the thread there (properties C08, C09, C10). -/
inductive Flag where
  /-- `SearchChildNode` interprets a leaf as an inner node. -/
  | leafAsInner
  /-- a leaf operation interprets an inner node as a leaf. -/
  | innerAsLeaf
  /-- `SearchTargetNode` reached the leaves although its target is an inner node. -/
  | targetMissed
  /-- `Read` uses the top of an empty stack (`bw_tree.hpp` 178-179, 779). -/
  | emptyStack
  /-- `GetLeftmostChild` follows the null `next_` of a removal mark (`fixlen/node.hpp` 304-306). -/
  | nullNext
  deriving DecidableEq, Repr

/-- Programs. -/
inductive Prog (K V : Type) (α : Type) where
  | ret (a : α)
  /-- undefined behaviour (null dereference, out of bounds, type confusion). -/
  | ub
  /-- the fuel of a loop is used up: the thread never moves again. -/
  | stuck
  | flag (k : Flag)
  /-- `root_.load`. -/
  | loadRoot (k : PID → Prog K V α)
  /-- `root_.store`. -/
  | storeRoot (p : PID) (k : Prog K V α)
  /-- `root_.compare_exchange_strong`. -/
  | casRoot (old new : PID) (k : Bool → Prog K V α)
  /-- `LogicalPtr::Load`, `logical_ptr.hpp` 65-73, with the dereference that follows. -/
  | load (p : PID) (k : Chain K V → Prog K V α)
  /-- `LogicalPtr::Store`, `logical_ptr.hpp` 83-90. -/
  | store (p : PID) (c : Chain K V) (k : Prog K V α)
  /-- `LogicalPtr::CASWeak`/`CASStrong`, `logical_ptr.hpp` 114-158. -/
  | cas (p : PID) (old new : Chain K V) (k : Bool → Prog K V α)
  /-- `MappingTable::GetNewPageID`. -/
  | newPid (k : PID → Prog K V α)
  /-- allocation of an index-delete delta (its atomic word is null). -/
  | newCell (k : Nat → Prog K V α)
  /-- `GetPayloadAtomically`, one load. -/
  | loadCell (w : Nat) (k : PID → Prog K V α)
  /-- `SetSiblingPID`. -/
  | storeCell (w : Nat) (p : PID) (k : Prog K V α)

namespace Prog
variable {K V : Type} {α β : Type}

/-- Sequential composition. -/
def bind : Prog K V α → (α → Prog K V β) → Prog K V β
  | ret a, f => f a
  | ub, _ => ub
  | stuck, _ => stuck
  | flag k, _ => flag k
  | loadRoot k, f => loadRoot (fun r => (k r).bind f)
  | storeRoot p k, f => storeRoot p (k.bind f)
  | casRoot o n k, f => casRoot o n (fun r => (k r).bind f)
  | load p k, f => load p (fun r => (k r).bind f)
  | store p c k, f => store p c (k.bind f)
  | cas p o n k, f => cas p o n (fun r => (k r).bind f)
  | newPid k, f => newPid (fun r => (k r).bind f)
  | newCell k, f => newCell (fun r => (k r).bind f)
  | loadCell w k, f => loadCell w (fun r => (k r).bind f)
  | storeCell w p k, f => storeCell w p (k.bind f)

end Prog

/-- `n` is `o` with the delta of a writing operation in front. -/
def RecDelta {K V : Type} (o n : Chain K V) : Prop :=
  ∃ d, n = .delta d o ∧ d.inner = false ∧ d.ty ≠ .merge

/-- Replace one entry of a function. -/
def upd {α : Type} (f : Nat → α) (p : Nat) (x : α) : Nat → α := fun q => if q = p then x else f q

@[simp] theorem upd_same {α : Type} (f : Nat → α) (p : Nat) (x : α) : upd f p x p = x := by
  simp [upd]

theorem upd_ne {α : Type} (f : Nat → α) {p q : Nat} (x : α) (h : q ≠ p) : upd f p x q = f q := by
  simp [upd, h]

/-- One atomic step of a program. -/
inductive AStep {K V α : Type} : Sh K V → Prog K V α → Sh K V → Prog K V α → Prop
  | loadRoot (s : Sh K V) (k) : AStep s (.loadRoot k) s (k s.root)
  | storeRoot (s : Sh K V) (p k) : AStep s (.storeRoot p k) { s with root := p } k
  | casRootOk (s : Sh K V) (o n k) : s.root = o →
      AStep s (.casRoot o n k) { s with root := n } (k true)
  | casRootFail (s : Sh K V) (o n k) : s.root ≠ o → AStep s (.casRoot o n k) s (k false)
  | load (s : Sh K V) (p k c) : s.mt p = some c → AStep s (.load p k) s (k c)
  | loadNull (s : Sh K V) (p k) : s.mt p = none → AStep s (.load p k) s .ub
  | store (s : Sh K V) (p c k) : AStep s (.store p c k) { s with mt := upd s.mt p (some c) } k
  | casOk (s : Sh K V) (p o n k) : s.mt p = some o →
      AStep s (.cas p o n k) { s with mt := upd s.mt p (some n) } (k true)
  | casFail (s : Sh K V) (p o n k) : AStep s (.cas p o n k) s (k false)
  | newPid (s : Sh K V) (k) : AStep s (.newPid k) { s with npid := s.npid + 1 } (k s.npid)
  | newCell (s : Sh K V) (k) :
      AStep s (.newCell k) { s with ncell := s.ncell + 1, cells := upd s.cells s.ncell 0 }
        (k s.ncell)
  | loadCell (s : Sh K V) (w k) : AStep s (.loadCell w k) s (k (s.cells w))
  | storeCell (s : Sh K V) (w p k) :
      AStep s (.storeCell w p k) { s with cells := upd s.cells w p } k

/-- `n` steps of a program that runs alone. -/
inductive Alone {K V α : Type} : Nat → Sh K V → Prog K V α → Sh K V → Prog K V α → Prop
  | refl (s : Sh K V) (p : Prog K V α) : Alone 0 s p s p
  | step {n : Nat} {s s' s'' : Sh K V} {p p' p'' : Prog K V α} : AStep s p s' p' →
      Alone n s' p' s'' p'' → Alone (n + 1) s p s'' p''

end BwTree
