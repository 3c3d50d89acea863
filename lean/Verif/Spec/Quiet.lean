import Verif.Spec.Reach
import Verif.Spec.Scan

/-!
# Where a scan begins (specification)
-/

namespace BwTree.Spec

open BwTree

variable {K V : Type}

/-- Pages the search for the leftmost leaf visits, as long as nothing changes. -/
inductive LeftRoute (sh : Sh K V) : PID → Prop
  | root : LeftRoute sh sh.root
  | child {p q : PID} {c : Chain K V} : LeftRoute sh p → sh.mt p = some c → c.isLeaf = false →
      c.leftmostChild = some q → LeftRoute sh q

/-- The search for the first leaf of a scan that begins at `b` meets no removal mark. -/
def CalmBegin [LinearOrder K] (sh : Sh K V) : Bound K → Prop
  | some (k, closed) => ∀ p b, Route sh k closed p → sh.mt p ≠ some (.removed b)
  | none => ∀ p b, LeftRoute sh p → sh.mt p ≠ some (.removed b)

/-- `q` is a child of the page with the contents `c`: it has a record that has not been deleted or
replaced, or it is the leftmost child of a leftmost page (whose record has no key). -/
def ChildOf [LinearOrder K] (c : Chain K V) (q : PID) : Prop :=
  (c.low = none ∧ c.leftmostChild = some q) ∨ ∃ k, look k c = some (.child q)

/-- The search for `key` goes from index nodes to their children only. -/
def UpToDate [LinearOrder K] (sh : Sh K V) (key : K) (closed : Bool) : Prop :=
  ∀ p c q, Route sh key closed p → sh.mt p = some c → c.isLeaf = false →
    (childStep key closed c = .child q ∨ ∃ w, childStep key closed c = .cell w ∧ sh.cells w = q) →
    ChildOf c q

/-- The search for `key` meets no index nodes with delta records. -/
def Packed [LinearOrder K] (sh : Sh K V) (key : K) (closed : Bool) : Prop :=
  ∀ p c, Route sh key closed p → sh.mt p = some c → c.isLeaf = false → c.isRemoved = false →
    deltas c = 0

/-- A leaf that takes one more write of `key` without a split or a merge: its size leaves room for a
record, and it is not consolidated, or stays above the minimal size when a record is deleted, or is
the leftmost leaf. -/
def Roomy [LinearOrder K] (cfg : Cfg K) (key : K) (c : Chain K V) : Prop :=
  c.size + cfg.entLen false key ≤ cfg.page ∧
    (deltas c + 1 < cfg.thr ∨ (cfg.minSize : Int) < c.size - cfg.entLen false key ∨ c.low = none)

/-- `h` is the key of the first record in force of `c` after `k`, or else the upper bound of `c`. -/
structure NextKey [LinearOrder K] (c : Chain K V) (k : K) (h : Option K) : Prop where
  above : ∀ x, h = some x → k < x
  first : ∀ x, k < x → look x c ≠ none → ∃ y, h = some y ∧ y ≤ x
  has : ∀ x, h = some x → look x c ≠ none ∨ c.high = some x
  bound : ∀ b, c.high = some b → ∃ y, h = some y ∧ y ≤ b

/-- `q` is the child of the last record in force of `c` before `k`. -/
def LeftChild [LinearOrder K] (c : Chain K V) (k : K) (q : PID) : Prop :=
  (∃ y, y < k ∧ look y c = some (.child q) ∧ ∀ x, y < x → x < k → look x c = none) ∨
  (c.low = none ∧ c.leftmostChild = some q ∧ ∀ x, x < k → look x c = none)

/-- The records of the chain of an index node catch the keys of their children only: when they were
put there, their upper bounds were those of the children, and deleted records refer to the left
neighbours. -/
def Tight [LinearOrder K] (sh : Sh K V) : Chain K V → Prop
  | .delta d nx => Tight sh nx ∧ (d.ty = .insert ∨ d.ty = .delete → NextKey nx d.key d.high) ∧
      ∀ w, d.pay = .cell w → LeftChild nx d.key (sh.cells w)
  | _ => True

/-- A tree that no race has disordered: the root is not removed, the chains of the index nodes are
tight, every page but the root is a child of an index node, and leftmost children are not removed. -/
structure InOrder [LinearOrder K] (sh : Sh K V) : Prop where
  root : ∃ c, sh.mt sh.root = some c ∧ c.isRemoved = false
  tight : ∀ p c, sh.mt p = some c → c.isRemoved = false → c.isLeaf = false → Tight sh c
  parent : ∀ p c, sh.mt p = some c → c.isRemoved = false → p = sh.root ∨
    ∃ P cP, Live sh P cP ∧ cP.isLeaf = false ∧ ChildOf cP p
  left : ∀ p c q, sh.mt p = some c → c.isRemoved = false → c.isLeaf = false → c.low = none →
    c.leftmostChild = some q → ∃ c', sh.mt q = some c' ∧ c'.isRemoved = false

/-- The events of the visits `vs` of a scan by thread `t` up to `e`, one after the other. -/
def scanEvents (t : Nat) (e : Bound K) (vs : List (Visit K V)) : List (Event K V) :=
  vs.flatMap fun v => [.inv t (.visit v.b e), .ret t (.visit v.b e) (.page v.recs v.next)]

end BwTree.Spec
