import Verif.Spec.Quiet

/-!
# The child an index node has for a key (specification)
-/

namespace BwTree.Spec

open BwTree

variable {K V : Type} [LinearOrder K]

/-- Does `key` come after the separator `x`?  In an open search (`closed = false`) the keys right of
`x` are the greater ones. -/
def After (closed : Bool) (x key : K) : Prop := if closed then x ≤ key else x < key

instance (closed : Bool) (x key : K) : Decidable (After closed x key) := by
  unfold After; infer_instance

/-- `q` is the child of the last record in force of `c` that `key` comes after. -/
def ChildFor (c : Chain K V) (key : K) (closed : Bool) (q : PID) : Prop :=
  (∃ y, After closed y key ∧ look y c = some (.child q) ∧
    ∀ x, y < x → After closed x key → look x c = none) ∨
  (c.low = none ∧ c.leftmostChild = some q ∧ ∀ x, After closed x key → look x c = none)

/-- `x` is where a search for `key` goes on after an index node with the contents `c`: to the child
for `key`, or, when `key` is beyond the node, to the right sibling. -/
structure IndexStep (c : Chain K V) (key : K) (closed : Bool) (x : ChRes) : Prop where
  inside : (∀ h, c.high = some h → ¬ After closed h key) →
    ∃ q, x = .child q ∧ ChildFor c key closed q
  beyond : ∀ h, c.high = some h → After closed h key → x = .sibling c.nextPid

end BwTree.Spec
