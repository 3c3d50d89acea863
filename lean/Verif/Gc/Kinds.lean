import Verif.Tree.Model

/-!
# The types under which memory is handed to the garbage collector (model)

`AddGarbage<T>` decides by `T` which free list a page joins and how many bytes a later
`GetPageIfPossible<T>` may write to it (`bw_tree.hpp` 649-673).
-/

namespace BwTree.Gc

variable {K V : Type}

/-- `NodePage` and `DeltaPage`. -/
inductive PageType where
  | node
  | delta
  deriving DecidableEq

/-- The objects of a chain, with the type they were allocated with: delta records by `GetRecPage`,
nodes by `GetNodePage`.  Head first; the node of a merge delta follows it. -/
def allocated : Chain K V → List PageType
  | .base _ => [.node]
  | .removed _ => [.delta]
  | .delta d nx => .delta :: ((match d.pay with | .node _ => [.node] | _ => []) ++ allocated nx)

/-- The type of the head of a chain. -/
def headType : Chain K V → PageType
  | .base _ => .node
  | _ => .delta

/-- The `AddGarbage` calls of `AddToGC`, `bw_tree.hpp` 684-709: (the object's type, `T`). -/
def addToGC : Chain K V → List (PageType × PageType)
  | .base _ => [(.node, .node)]
  | .removed _ => [(.delta, .delta)]
  | .delta d nx => (.delta, .delta) ::
      ((match d.ty, d.pay with | .merge, .node _ => [(.node, .node)] | _, _ => []) ++ addToGC nx)

/-- The `AddGarbage` call of `Bulkload`, `bw_tree.hpp` 544, on the chain of the old root. -/
def bulkRetire (c : Chain K V) : List (PageType × PageType) := [(headType c, .node)]

end BwTree.Gc
