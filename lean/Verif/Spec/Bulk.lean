import Verif.Tree.Model
import Mathlib.Data.List.Forall2

/-!
# Trees level by level (specification)
-/

namespace BwTree.Spec

open BwTree

variable {K V : Type}

/-- The nodes of a level, from left to right: the first one has no lower bound, the last one no upper
bound, and every other node is linked to the next one, whose lower bound is its upper bound. -/
structure LevelOK (xs : List (PID × Node K V)) : Prop where
  first : ∀ x, xs.head? = some x → x.2.low = none
  last : ∀ x, xs.getLast? = some x → x.2.high = none
  link : xs.IsChain fun x y => x.2.next = y.1 ∧ x.2.high = y.2.low ∧ y.2.low ≠ none

/-- The entries of the upper level are the pages of the lower level in order, with their lower bounds
as keys. -/
def Feeds (upper lower : List (PID × Node K V)) : Prop :=
  List.Forall₂ (fun r y => r.2 = Pay.child y.1 ∧ ∀ l, y.2.low = some l → r.1 = l)
    (upper.flatMap fun x => x.2.recs) lower

/-- The table holds a tree with these levels (top level first) above these leaves. -/
structure LevelsOf (T : PID → Option (Node K V)) (root : PID)
    (uppers : List (List (PID × Node K V))) (leaves : List (PID × Node K V)) : Prop where
  table : ∀ p n, T p = some n ↔ (p, n) ∈ (uppers ++ [leaves]).flatten
  linked : ∀ xs ∈ uppers ++ [leaves], LevelOK xs
  inner : ∀ xs ∈ uppers, ∀ x ∈ xs, x.2.inner = true
  leaf : ∀ x ∈ leaves, x.2.inner = false
  feeds : (uppers ++ [leaves]).IsChain Feeds
  root : ∃ n, (uppers ++ [leaves]).head? = some [(root, n)]

end BwTree.Spec
