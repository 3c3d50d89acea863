import Verif.Conc.Prog
import Verif.Tree.WF
import Verif.Spec.Chain

/-!
# Pages reachable from the root (specification)
-/

namespace BwTree.Spec

open BwTree

variable {K V : Type}

/-- Page IDs stored in the records of a chain, including deltas that are superseded. -/
inductive Entry (sh : Sh K V) : Chain K V → PID → Prop
  | base {n : Node K V} {k : K} {q : PID} : (k, Pay.child q) ∈ n.recs → Entry sh (.base n) q
  | child {d : Delta K V} {nx : Chain K V} {q : PID} : d.ty ≠ .merge → d.pay = .child q →
      Entry sh (.delta d nx) q
  | cell {d : Delta K V} {nx : Chain K V} {w : Nat} : d.pay = .cell w → sh.cells w ≠ 0 →
      Entry sh (.delta d nx) (sh.cells w)
  | node {d : Delta K V} {nx : Chain K V} {n : Node K V} {q : PID} : d.pay = .node n →
      Entry sh (.base n) q → Entry sh (.delta d nx) q
  | rest {d : Delta K V} {nx : Chain K V} {q : PID} : Entry sh nx q → Entry sh (.delta d nx) q

/-- Pages reachable from the root by child and sibling references. -/
inductive Reach (sh : Sh K V) : PID → Prop
  | root : Reach sh sh.root
  | child {p q : PID} {c : Chain K V} : Reach sh p → sh.mt p = some c → Entry sh c q → Reach sh q
  | sibling {p : PID} {c : Chain K V} {h : K} : Reach sh p → sh.mt p = some c → c.high = some h →
      Reach sh c.nextPid

/-- Pages `d` levels below the root. -/
inductive ReachAt (sh : Sh K V) : Nat → PID → Prop
  | root : ReachAt sh 0 sh.root
  | child {d : Nat} {p q : PID} {c : Chain K V} : ReachAt sh d p → sh.mt p = some c →
      Entry sh c q → ReachAt sh (d + 1) q
  | sibling {d : Nat} {p : PID} {c : Chain K V} {h : K} : ReachAt sh d p → sh.mt p = some c →
      c.high = some h → ReachAt sh d c.nextPid

/-- Pages a search for `key` visits, as long as nothing changes (`closed`: does the key itself count
as part of the range that begins with it?). -/
inductive Route [LinearOrder K] (sh : Sh K V) (key : K) (closed : Bool) : PID → Prop
  | root : Route sh key closed sh.root
  | child {p q : PID} {c : Chain K V} : Route sh key closed p → sh.mt p = some c →
      c.isLeaf = false → childStep key closed c = .child q → Route sh key closed q
  | cell {p : PID} {w : Nat} {c : Chain K V} : Route sh key closed p → sh.mt p = some c →
      c.isLeaf = false → childStep key closed c = .cell w → Route sh key closed (sh.cells w)
  | sibling {p q : PID} {c : Chain K V} : Route sh key closed p → sh.mt p = some c →
      c.isLeaf = false → childStep key closed c = .sibling q → Route sh key closed q
  | leaf {p : PID} {c : Chain K V} {h : K} : Route sh key closed p → sh.mt p = some c →
      c.isLeaf = true → c.high = some h → (if closed then h ≤ key else h < key) →
      Route sh key closed c.nextPid

/-- The search for `key` meets neither a removal mark nor an unset word of an index-delete
record. -/
structure Calm [LinearOrder K] (sh : Sh K V) (key : K) (closed : Bool) : Prop where
  live : ∀ p b, Route sh key closed p → sh.mt p ≠ some (.removed b)
  set : ∀ p c w, Route sh key closed p → sh.mt p = some c → c.isLeaf = false →
    childStep key closed c = .cell w → sh.cells w ≠ 0

/-- `c` is the live content of the reachable page `p`. -/
structure Live (sh : Sh K V) (p : PID) (c : Chain K V) : Prop where
  reach : Reach sh p
  slot : sh.mt p = some c
  live : c.isRemoved = false

/-- `k` lies between the bounds of `c`. -/
def Covers [LT K] [LE K] (c : Chain K V) (k : K) : Prop :=
  (∀ l, c.low = some l → l ≤ k) ∧ ∀ h, c.high = some h → k < h

/-- `P` are the leaves of a tree whose contents `m` are in its pages: they are live leaves, every key
belongs to exactly one of them, which has its record, they are linked in the order of the keys, and
no other leaf is reachable from the root. -/
structure LeafLevel [LinearOrder K] (sh : Sh K V) (m : K → Option V) (P : PID → Prop) : Prop where
  live : ∀ p, P p → ∃ c, sh.mt p = some c ∧ c.isRemoved = false ∧ c.isLeaf = true
  cover : ∀ k, ∃ p c, P p ∧ sh.mt p = some c ∧ Covers c k
  one : ∀ p q c c' k, P p → P q → sh.mt p = some c → sh.mt q = some c' → Covers c k →
    Covers c' k → p = q
  value : ∀ p c k, P p → sh.mt p = some c → Covers c k → look k c = (m k).map Pay.val
  next : ∀ p c h, P p → sh.mt p = some c → c.high = some h →
    P c.nextPid ∧ ∃ c', sh.mt c.nextPid = some c' ∧ c'.low = some h
  reach : ∀ p c, Live sh p c → c.isLeaf = true → P p

/-- The chain below a record of a chain, or the chain itself. -/
inductive Suffix : Chain K V → Chain K V → Prop
  | refl (c : Chain K V) : Suffix c c
  | cons {x : Chain K V} {d : Delta K V} {c : Chain K V} : Suffix x c → Suffix x (.delta d c)

/-- Number of delta records. -/
def deltas : Chain K V → Nat
  | .base _ => 0
  | .removed _ => 1
  | .delta _ nx => deltas nx + 1

/-- A step that puts the delta of a writing operation in front of a page. -/
def RecStep (sh sh' : Sh K V) : Prop :=
  ∃ p o d, sh.mt p = some o ∧ sh'.mt = upd sh.mt p (some (.delta d o)) ∧ d.inner = false ∧
    d.ty ≠ .merge

end BwTree.Spec
