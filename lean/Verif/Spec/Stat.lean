import Verif.Spec.Reach

/-!
# What the statistics are about (specification)
-/

namespace BwTree.Spec

open BwTree

variable {K V : Type} [LinearOrder K]

/-- The base node of a chain. -/
def baseOf : Chain K V → Option (Node K V)
  | .base n => some n
  | .removed _ => none
  | .delta _ nx => baseOf nx

/-- `q` is a child of the index page with contents `c`: some key is routed to it by a record that
is in force, or it is the first child of the leftmost page of a level (its record has no key). -/
def Kid (c : Chain K V) (q : PID) : Prop :=
  c.isLeaf = false ∧ ((∃ k, look k c = some (.child q)) ∨
    ∃ n k, baseOf c = some n ∧ n.low = none ∧ n.recs.head? = some (k, .child q))

/-- Pages `d` levels below the root, by the records in force. -/
inductive Below (sh : Sh K V) : Nat → PID → Prop
  | root : Below sh 0 sh.root
  | kid {d : Nat} {p q : PID} {c : Chain K V} : Below sh d p → sh.mt p = some c → Kid c q →
      Below sh (d + 1) q

/-- Memory taken by the records of a chain: `recSz` for each delta, a page for the base node and for
the node that hangs from a merge delta. -/
def reserved (page recSz : Nat) : Chain K V → Nat
  | .base _ => page
  | .removed _ => recSz
  | .delta d nx => recSz + (match d.pay with | .node _ => page | _ => 0) + reserved page recSz nx

end BwTree.Spec
