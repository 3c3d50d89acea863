import Verif.Conc.System

/-!
# Threads on the C++ memory model (model)

The programs of `Conc/Code.lean` again, but on a memory that keeps every value ever written.  This is
the usual operational account of relaxed and release/acquire atomics by time stamps and views
(without speculative writes): the writes to one location are ordered by time stamps, a thread reads
any write that is not older than what it has seen of that location, a release write passes on what
its thread has seen, and an acquire read takes it over.  A read-modify-write reads the write directly
before its own.

The orders are those of the code: `LogicalPtr::Load` acquire (`logical_ptr.hpp` 72), `Store`, `CASWeak`
and `CASStrong` release (89, 128, 157); `root_` relaxed (`bw_tree.hpp` 798, 833, 855, 882, 1412, 1421,
1574); the word of an index-delete delta relaxed (`fixlen/delta_record.hpp` 140, 411, 429); `cnt_` and
the pointers to rows relaxed (`mapping_table.hpp` 129-157, 175-176).  `Orders` tells which of the relaxed
groups are strengthened to release/acquire.

Simplifications: the mapping table has one level of rows, of `C` slots each, with consecutive page IDs
(see `C25` for the encoding); taking the last slot of a row and preparing the next row are one step
(the others wait in between, 132, 163); a record or node is read completely when its slot is read, which
is what acquire reads permit; page reuse and the epochs are left out.
-/

namespace BwTree.Weak

/-- Atomic objects: a mapping-table slot, `root_`, the word of an index-delete delta, the pointer to a
row of slots, and the counter `cnt_`. -/
inductive Loc where
  | slot (p : PID)
  | root
  | word (w : Nat)
  | row (r : Nat)
  | cnt
  deriving DecidableEq, Repr

/-- What a thread has seen: a time stamp for every object (0 if it is not listed). -/
abbrev View := List (Loc × Nat)

/-- The time stamp of an object. -/
def View.get : View → Loc → Nat
  | [], _ => 0
  | x :: v, l => if x.1 = l then max x.2 (View.get v l) else View.get v l

/-- See a time stamp. -/
def View.put (l : Loc) (t : Nat) : View → View
  | [] => [(l, t)]
  | x :: v => if x.1 = l then (l, max t x.2) :: v else x :: View.put l t v

/-- See what another view has seen. -/
def View.join (a b : View) : View := a.foldr (fun x v => View.put x.1 x.2 v) b

/-- Values of atomic objects; `null` is a null pointer, `id` a page ID or counter. -/
inductive WVal (K V : Type) where
  | null
  | chain (c : Chain K V)
  | id (p : PID)
  deriving DecidableEq

/-- A write: the object, its time stamp, the value, what a reader may take over, and, for a
read-modify-write, the time stamp it has read. -/
structure Msg (K V : Type) where
  loc : Loc
  ts : Nat
  val : WVal K V
  view : View
  rmw : Option Nat

/-- Memory: the initial values (time stamp 0), the writes, and the number of words in use. -/
structure Mem (K V : Type) where
  init : Loc → WVal K V
  msgs : List (Msg K V)
  ncell : Nat

/-- Which relaxed accesses are strengthened to release/acquire. -/
structure Orders where
  root : Bool
  word : Bool
  tab : Bool
  deriving DecidableEq

/-- The orders of the code. -/
def Orders.code : Orders := ⟨false, false, false⟩

variable {K V : Type}

/-- The initial write of an object. -/
def Mem.first (m : Mem K V) (l : Loc) : Msg K V :=
  { loc := l, ts := 0, val := m.init l, view := [], rmw := none }

/-- A thread with view `v` may read the write `x` to `l`. -/
def Readable (m : Mem K V) (v : View) (l : Loc) (x : Msg K V) : Prop :=
  (x ∈ m.msgs ∨ x = m.first l) ∧ x.loc = l ∧ v.get l ≤ x.ts

/-- A write to `l` may take the time stamp `t`. -/
def Free (m : Mem K V) (l : Loc) (t : Nat) : Prop :=
  0 < t ∧ ∀ x ∈ m.msgs, x.loc = l → x.ts ≠ t ∧ ∀ f, x.rmw = some f → ¬ (f < t ∧ t < x.ts)

/-- A read-modify-write that reads time stamp `f` may write at `t`. -/
def Next (m : Mem K V) (l : Loc) (f t : Nat) : Prop :=
  f < t ∧ Free m l t ∧ ∀ x ∈ m.msgs, x.loc = l → ¬ (f < x.ts ∧ x.ts < t)

/-- A write is added. -/
def Mem.add (m : Mem K V) (x : Msg K V) : Mem K V := { m with msgs := x :: m.msgs }

/-- The view after a read; `acq`: acquire. -/
def readV (acq : Bool) (v : View) (x : Msg K V) : View :=
  if acq then (v.put x.loc x.ts).join x.view else v.put x.loc x.ts

/-- The write of a thread with view `v`; `rel`: release; `ext`: the view of the write that a
read-modify-write continues. -/
def wmsg (rel : Bool) (v : View) (l : Loc) (t : Nat) (val : WVal K V) (ext : View)
    (rmw : Option Nat) : Msg K V :=
  { loc := l, ts := t, val := val, view := (View.put l t (if rel then v else [])).join ext, rmw := rmw }

/-- One atomic access.  An access to slot `p` first reads the pointer to its row
(`mapping_table.hpp` 171-178). -/
inductive WStep {α : Type} (o : Orders) (C : Nat) :
    Mem K V → View → Prog K V α → Mem K V → View → Prog K V α → Prop
  | loadRoot (m v k x r) : Readable m v .root x → x.val = .id r →
      WStep o C m v (.loadRoot k) m (readV o.root v x) (k r)
  | storeRoot (m v p k t) : View.get v .root < t → Free m .root t →
      WStep o C m v (.storeRoot p k) (m.add (wmsg o.root v .root t (.id p) [] none))
        (v.put .root t) k
  | casRootOk (m v a b k x t) : Readable m v .root x → x.val = .id a → Next m .root x.ts t →
      WStep o C m v (.casRoot a b k)
        (m.add (wmsg o.root (readV o.root v x) .root t (.id b) x.view (some x.ts)))
        ((readV o.root v x).put .root t) (k true)
  | casRootFail (m v a b k x r) : Readable m v .root x → x.val = .id r → r ≠ a →
      WStep o C m v (.casRoot a b k) m (readV o.root v x) (k false)
  | load (m v p k r x c) : Readable m v (.row (p / C)) r → r.val ≠ .null →
      Readable m (v.put r.loc r.ts) (.slot p) x → x.val = .chain c →
      WStep o C m v (.load p k) m (readV true (v.put r.loc r.ts) x) (k c)
  | loadNull (m v p k r x) : Readable m v (.row (p / C)) r → r.val ≠ .null →
      Readable m (v.put r.loc r.ts) (.slot p) x → x.val = .null →
      WStep o C m v (.load p k) m (v.put r.loc r.ts) .ub
  | loadNoRow (m v p k r) : Readable m v (.row (p / C)) r → r.val = .null →
      WStep o C m v (.load p k) m v .ub
  | store (m v p c k r t) : Readable m v (.row (p / C)) r → r.val ≠ .null →
      View.get (v.put r.loc r.ts) (.slot p) < t → Free m (.slot p) t →
      WStep o C m v (.store p c k)
        (m.add (wmsg true (v.put r.loc r.ts) (.slot p) t (.chain c) [] none))
        ((v.put r.loc r.ts).put (.slot p) t) k
  | storeNoRow (m v p c k r) : Readable m v (.row (p / C)) r → r.val = .null →
      WStep o C m v (.store p c k) m v .ub
  | casOk (m v p a b k r x t) : Readable m v (.row (p / C)) r → r.val ≠ .null →
      Readable m (v.put r.loc r.ts) (.slot p) x → x.val = .chain a → Next m (.slot p) x.ts t →
      WStep o C m v (.cas p a b k)
        (m.add (wmsg true (v.put r.loc r.ts) (.slot p) t (.chain b) x.view (some x.ts)))
        ((v.put r.loc r.ts).put (.slot p) t) (k true)
  /-- the recheck of `TrySMOs` (`bw_tree.hpp` 1188-1189), a load. -/
  | casSame (m v p a k r x) : Readable m v (.row (p / C)) r → r.val ≠ .null →
      Readable m (v.put r.loc r.ts) (.slot p) x → x.val = .chain a →
      WStep o C m v (.cas p a a k) m (readV true (v.put r.loc r.ts) x) (k true)
  | casFail (m v p a b k r) : Readable m v (.row (p / C)) r → r.val ≠ .null →
      WStep o C m v (.cas p a b k) m (v.put r.loc r.ts) (k false)
  | casNoRow (m v p a b k r) : Readable m v (.row (p / C)) r → r.val = .null →
      WStep o C m v (.cas p a b k) m v .ub
  | newPid (m v k x q t) : Readable m v .cnt x → x.val = .id q → Next m .cnt x.ts t →
      (q + 1) / C = q / C →
      WStep o C m v (.newPid k)
        (m.add (wmsg o.tab (readV o.tab v x) .cnt t (.id (q + 1)) x.view (some x.ts)))
        ((readV o.tab v x).put .cnt t) (k q)
  /-- the row is used up: prepare the next one (`mapping_table.hpp` 139-158). -/
  | newPidRow (m v k x q t u) : Readable m v .cnt x → x.val = .id q → Next m .cnt x.ts t →
      (q + 1) / C ≠ q / C → View.get (readV o.tab v x) (.row ((q + 1) / C)) < u →
      Free m (.row ((q + 1) / C)) u →
      WStep o C m v (.newPid k)
        ((m.add (wmsg false (readV o.tab v x) (.row ((q + 1) / C)) u (.id 1) [] none)).add
          (wmsg o.tab ((readV o.tab v x).put (.row ((q + 1) / C)) u) .cnt t (.id (q + 1)) []
            (some x.ts)))
        (((readV o.tab v x).put (.row ((q + 1) / C)) u).put .cnt t) (k q)
  | newCell (m v k) : WStep o C m v (.newCell k) { m with ncell := m.ncell + 1 } v (k m.ncell)
  | loadCell (m v w k x q) : Readable m v (.word w) x → x.val = .id q →
      WStep o C m v (.loadCell w k) m (readV o.word v x) (k q)
  | storeCell (m v w p k t) : View.get v (.word w) < t → Free m (.word w) t →
      WStep o C m v (.storeCell w p k) (m.add (wmsg o.word v (.word w) t (.id p) [] none))
        (v.put (.word w) t) k

/-- State of the system: memory, and for every thread its view, its program and its iterator. -/
structure WSys (K V : Type) where
  mem : Mem K V
  view : Nat → View
  th : Nat → TSt K V
  it : Nat → Option (PID × K × Spec.Bound K)

variable [LinearOrder K]

/-- One step of the system, as in `SysStep`. -/
inductive WSysStep (o : Orders) (C : Nat) (cfg : Cfg K) : WSys K V → WSys K V → Prop
  | op (S : WSys K V) (t f : Nat) (c : Spec.Op K V) : S.th t = .idle →
      WSysStep o C cfg S
        { S with th := upd S.th t (.run (.op c) ((runOp cfg f c).bind fun r => .ret (.res r, none))) }
  | scan (S : WSys K V) (t f : Nat) (b e : Spec.Bound K) : S.th t = .idle →
      WSysStep o C cfg S
        { S with th := upd S.th t (.run (.visit b e)
            ((scanFirst cfg f b e).bind fun x => .ret (visitOut e x))) }
  | next (S : WSys K V) (t f : Nat) (p : PID) (k : K) (e : Spec.Bound K) : S.th t = .idle →
      S.it t = some (p, k, e) →
      WSysStep o C cfg S
        { S with th := upd S.th t (.run (.visit (some (k, true)) e)
            ((scanNext cfg f p k e).bind fun x => .ret (visitOut e x))) }
  | step (S : WSys K V) (t : Nat) (c : Spec.Call K V) (p p' : Prog K V (Out K V)) (m' : Mem K V)
      (v' : View) : S.th t = .run c p → WStep o C S.mem (S.view t) p m' v' p' →
      WSysStep o C cfg S
        { S with mem := m', view := upd S.view t v', th := upd S.th t (.run c p') }
  | retOp (S : WSys K V) (t : Nat) (c : Spec.Op K V) (r : Out K V) :
      S.th t = .run (.op c) (.ret r) → WSysStep o C cfg S { S with th := upd S.th t .idle }
  | retVisit (S : WSys K V) (t : Nat) (b e : Spec.Bound K) (r : Out K V) :
      S.th t = .run (.visit b e) (.ret r) →
      WSysStep o C cfg S { S with th := upd S.th t .idle, it := upd S.it t r.2 }

/-- Executions. -/
inductive WRun (o : Orders) (C : Nat) (cfg : Cfg K) (S₀ : WSys K V) : WSys K V → Prop
  | refl : WRun o C cfg S₀ S₀
  | step {S S' : WSys K V} : WRun o C cfg S₀ S → WSysStep o C cfg S S' → WRun o C cfg S₀ S'

/-- The values a tree is handed over with; the threads have been started after it was built.  The row
of the next page ID is present (`mapping_table.hpp` 71-77). -/
def initVal (C : Nat) (sh : Sh K V) : Loc → WVal K V
  | .slot p => match sh.mt p with
    | some c => .chain c
    | none => .null
  | .root => .id sh.root
  | .word w => .id (sh.cells w)
  | .row r => if r ≤ sh.npid / C then .id 1 else .null
  | .cnt => .id sh.npid

/-- The system at the start. -/
def WSys.start (C : Nat) (sh : Sh K V) : WSys K V :=
  { mem := { init := initVal C sh, msgs := [], ncell := sh.ncell }, view := fun _ => [],
    th := fun _ => .idle, it := fun _ => none }

/-- The next access of a program may dereference a null pointer: the pointer to the row of a page ID, or
the content of its slot.  Page ID 0 (`kNullPtr`) has no slot and is left out. -/
def MayFault {α : Type} (C : Nat) (m : Mem K V) (v : View) : Prog K V α → Prop
  | .load p _ => p ≠ 0 ∧ ((∃ x, Readable m v (.row (p / C)) x ∧ x.val = .null) ∨
      ∃ x, Readable m v (.slot p) x ∧ x.val = .null)
  | .store p _ _ | .cas p _ _ _ => p ≠ 0 ∧ ∃ x, Readable m v (.row (p / C)) x ∧ x.val = .null
  | _ => False

end BwTree.Weak
