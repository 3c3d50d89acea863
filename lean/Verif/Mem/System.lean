import Verif.Mem.Frame
import Verif.Conc.System

/-!
# Threads with addresses, garbage collection and reuse of memory (model)

The same programs as in `Verif/Conc/System.lean`, on a memory of records that point to each other.
The mapping table holds addresses.  A load follows the pointers in the memory as it is.  A CAS
compares addresses only.  Objects are allocated, retired, freed and allocated again
(`Verif/Gc/Model.lean`), and a free or new object may contain anything.

An access that the code makes without being entitled to it (through a pointer whose target has been
reused, or with an address the thread does not have) ends in undefined behaviour (`Bad`).

Simplifications.  A load reads the whole chain at once; that its records stay what they are as long
as the call holds its guard is proved (`C36`).  The contents of an unpublished object are written at the
moment of publication; before that they are arbitrary.  `CollectStatisticalData` is left out, and the
calls of `SiblingScan` are left out or take a guard, as the parameter `gn` says: in the code both
run without a guard (`C37`).
-/

namespace BwTree.Mem

open BwTree.Gc (Obj)

variable {K V : Type} [LinearOrder K]

/-- What an object contains: a base node; a remove-node delta (`fixlen/delta_record.hpp` 148-154); a
delta record with its `next_`; a merge delta with its `next_` and the address of the removed node,
which is its payload (`bw_tree.hpp` 1469-1470). -/
inductive Rec (K V : Type) where
  | node (n : Node K V)
  | mark (leaf : Bool)
  | delta (d : Delta K V) (next : Obj)
  | merge (d : Delta K V) (next nd : Obj)

/-- The chain found at address `h` by following the pointers, and the objects passed after `h`. -/
inductive Repr (mem : Obj → Rec K V) : Obj → Chain K V → List Obj → Prop
  | node {h : Obj} {n : Node K V} : mem h = .node n → Repr mem h (.base n) []
  | mark {h : Obj} {b : Bool} : mem h = .mark b → Repr mem h (.removed b) []
  | delta {h x : Obj} {d : Delta K V} {c : Chain K V} {l : List Obj} : mem h = .delta d x →
      (∀ n, d.pay ≠ .node n) → Repr mem x c l → Repr mem h (.delta d c) (x :: l)
  | merge {h x y : Obj} {d : Delta K V} {n : Node K V} {c : Chain K V} {l : List Obj} :
      mem h = .merge d x y → mem y = .node n → Repr mem x c l →
      Repr mem h (.delta { d with pay := .node n } c) (y :: x :: l)

/-- State. -/
structure PSt (K V : Type) where
  root : PID
  /-- the words of index-delete deltas, and the objects they are part of -/
  cells : Nat → PID
  cellAt : Nat → Option Obj
  npid : PID
  ncell : Nat
  /-- mapping table, locations of objects, guards -/
  gc : Gc.St
  /-- contents of objects -/
  mem : Obj → Rec K V
  th : Nat → TSt K V
  it : Nat → Option (PID × K × Spec.Bound K)
  /-- local variables -/
  fr : Nat → Frm K V

/-- The object with the word `w` is still that object. -/
def CellOk (P : PSt K V) (w : Nat) : Prop :=
  ∃ o d x, P.cellAt w = some o ∧ P.mem o = .delta d x ∧ d.pay = .cell w

/-- What a CAS that changes the chain is for: it puts a delta in front of the head it expects,
replaces it by a node, or by a removal mark when the consolidated node is small. -/
def Shape (cfg : Cfg K) (P : PSt K V) (t : Nat) (o : Chain K V) : Chain K V → Prop
  | .delta d o' => o' = o ∧ match d.pay with
    | .node m => ∃ q rs mk y, (P.fr t).rems = (q, m) :: rs ∧ P.gc.rem q = some ⟨t, mk, y⟩
    | .cell w => w ∈ (P.fr t).cs
    | _ => True
  | .base _ => True
  | .removed _ => ∃ m, tryConsolidate cfg false o = some (.merge m)

/-- A node stored under a new page ID, back at a removal mark, or at the head just rechecked. -/
def StoreShape (P : PSt K V) (t : Nat) (p : PID) (c : Chain K V) : Prop :=
  ∃ n, c = .base n ∧ (p ∈ (P.fr t).new ∨
    ((P.fr t).new = [] ∧ (P.fr t).chk = none ∧ (∃ rs, (P.fr t).rems = (p, n) :: rs) ∧
      ∃ mk y, P.gc.rem p = some ⟨t, mk, y⟩) ∨
    ((P.fr t).new = [] ∧ ∃ o h, (P.fr t).chk = some (p, o, h)))

/-- The next access of the program is not covered by what the thread holds, or meets an object that
is not what it was. -/
def Bad (cfg : Cfg K) (P : PSt K V) (t : Nat) {α : Type} : Prog K V α → Prop
  | .load p _ => ∀ h c l, P.gc.slot p = some h → ¬ Repr P.mem h c l
  | .store p c _ => ¬ StoreShape P t p c
  | .cas p o n _ => (∀ h, (p, o, h) ∉ (P.fr t).hd) ∨ (n ≠ o ∧ ¬ Shape cfg P t o n)
  | .casRoot o _ _ => P.root = o ∧ ∀ mk y, P.gc.rem o ≠ some ⟨t, mk, y⟩
  | .loadCell w _ => ¬ CellOk P w
  | .storeCell w _ _ => ¬ CellOk P w
  | _ => False

/-- One step of the system; the label is the visible event. -/
inductive PStep (cfg : Cfg K) (gn : Bool) : PSt K V → Option (Spec.Event K V) → PSt K V → Prop
  /-- call of `Read`, `Write`, `Insert`, `Update` or `Delete`; it takes a guard (150, 265, 318, 372,
  421). -/
  | op (P : PSt K V) (t f : Nat) (o : Spec.Op K V) : P.th t = .idle →
      PStep cfg gn P (some (.inv t (.op o)))
        { P with gc := Gc.eff P.gc (.enter t), fr := upd P.fr t .empty,
                 th := upd P.th t (.run (.op o) ((runOp cfg f o).bind fun r => .ret (.res r, none))) }
  /-- call of `Scan`; it takes a guard (219). -/
  | scan (P : PSt K V) (t f : Nat) (b e : Spec.Bound K) : P.th t = .idle →
      PStep cfg gn P (some (.inv t (.visit b e)))
        { P with gc := Gc.eff P.gc (.enter t), fr := upd P.fr t .empty,
                 th := upd P.th t (.run (.visit b e)
                   ((scanFirst cfg f b e).bind fun x => .ret (visitOut e x))) }
  /-- `HasRecord` at the end of a node; only if `gn`, and then with a guard. -/
  | next (P : PSt K V) (t f : Nat) (p : PID) (k : K) (e : Spec.Bound K) : gn = true →
      P.th t = .idle → P.it t = some (p, k, e) →
      PStep cfg gn P (some (.inv t (.visit (some (k, true)) e)))
        { P with gc := Gc.eff P.gc (.enter t), fr := upd P.fr t .empty,
                 th := upd P.th t (.run (.visit (some (k, true)) e)
                   ((scanNext cfg f p k e).bind fun x => .ret (visitOut e x))) }
  | loadRoot (P : PSt K V) (t : Nat) (c : Spec.Call K V) (k) : P.th t = .run c (.loadRoot k) →
      PStep cfg gn P none { P with th := upd P.th t (.run c (k P.root)) }
  | storeRoot (P : PSt K V) (t : Nat) (c : Spec.Call K V) (r k) :
      P.th t = .run c (.storeRoot r k) →
      PStep cfg gn P none { P with root := r, th := upd P.th t (.run c k) }
  /-- `TryRemoveRoot` succeeds (1574); the removed node goes to the collector (1577). -/
  | casRootOk (P : PSt K V) (t : Nat) (c : Spec.Call K V) (o n k) (mk y : Obj) :
      P.th t = .run c (.casRoot o n k) → P.root = o → P.gc.rem o = some ⟨t, mk, y⟩ →
      PStep cfg gn P none
        { P with root := n, gc := Gc.eff P.gc (.dropRoot t o mk y),
                 fr := upd P.fr t (P.fr t).pop, th := upd P.th t (.run c (k true)) }
  | casRootFail (P : PSt K V) (t : Nat) (c : Spec.Call K V) (o n k) :
      P.th t = .run c (.casRoot o n k) → P.root ≠ o →
      PStep cfg gn P none { P with th := upd P.th t (.run c (k false)) }
  /-- load of a logical pointer, and the chain behind it. -/
  | load (P : PSt K V) (t : Nat) (c : Spec.Call K V) (p k) (h : Obj) (ch : Chain K V)
      (l : List Obj) : P.th t = .run c (.load p k) → P.gc.slot p = some h → Repr P.mem h ch l →
      PStep cfg gn P none
        { P with gc := Gc.eff P.gc (.load t p), fr := upd P.fr t ((P.fr t).load p ch h),
                 th := upd P.th t (.run c (k ch)) }
  /-- a node is stored under a new page ID (1356, 1417). -/
  | publish (P : PSt K V) (t : Nat) (c : Spec.Call K V) (p n k) (x : Obj) :
      P.th t = .run c (.store p (.base n) k) → p ∈ (P.fr t).new → P.gc.loc x = .priv t →
      PStep cfg gn P none
        { P with gc := Gc.eff P.gc (.publish t p x), mem := Gc.set P.mem x (.node n),
                 fr := upd P.fr t ((P.fr t).pub p (.base n) x), th := upd P.th t (.run c k) }
  /-- the removed node is stored back (1462) and the mark goes to the collector (1463). -/
  | restore (P : PSt K V) (t : Nat) (c : Spec.Call K V) (p n k) (rs) (mk y : Obj) :
      P.th t = .run c (.store p (.base n) k) → (P.fr t).new = [] → (P.fr t).chk = none →
      (P.fr t).rems = (p, n) :: rs → P.gc.rem p = some ⟨t, mk, y⟩ →
      PStep cfg gn P none
        { P with gc := Gc.eff P.gc (.restore t p mk y), fr := upd P.fr t (P.fr t).pop,
                 th := upd P.th t (.run c k) }
  /-- the left node of a split overwrites whatever the slot holds (1360); the rechecked head goes to
  the collector (1215). -/
  | split (P : PSt K V) (t : Nat) (c : Spec.Call K V) (p n k o) (h x : Obj) :
      P.th t = .run c (.store p (.base n) k) → (P.fr t).new = [] →
      (P.fr t).chk = some (p, o, h) → P.gc.loc x = .priv t →
      PStep cfg gn P none
        { P with gc := Gc.eff P.gc (.replace t p x h), mem := Gc.set P.mem x (.node n),
                 fr := upd P.fr t (P.fr t).fail, th := upd P.th t (.run c k) }
  /-- a CAS fails, for any reason. -/
  | casFail (P : PSt K V) (t : Nat) (c : Spec.Call K V) (p o n k) :
      P.th t = .run c (.cas p o n k) →
      PStep cfg gn P none
        { P with fr := upd P.fr t (P.fr t).fail, th := upd P.th t (.run c (k false)) }
  /-- `TrySMOs` finds the head unchanged (1188-1189). -/
  | same (P : PSt K V) (t : Nat) (c : Spec.Call K V) (p o k) (h : Obj) :
      P.th t = .run c (.cas p o o k) → (p, o, h) ∈ (P.fr t).hd → P.gc.slot p = some h →
      PStep cfg gn P none
        { P with fr := upd P.fr t ((P.fr t).same p o h), th := upd P.th t (.run c (k true)) }
  /-- a delta record is put in front of the address the thread expects: 289, 341, 394, 443, 1388. -/
  | push (P : PSt K V) (t : Nat) (c : Spec.Call K V) (p o d k) (h x : Obj) :
      P.th t = .run c (.cas p o (.delta d o) k) → (p, o, h) ∈ (P.fr t).hd →
      P.gc.slot p = some h → P.gc.loc x = .priv t → (∀ m, d.pay ≠ .node m) →
      (∀ w, d.pay ≠ .cell w) →
      PStep cfg gn P none
        { P with gc := Gc.eff P.gc (.push t p x h), mem := Gc.set P.mem x (.delta d h),
                 fr := upd P.fr t ((P.fr t).push p (.delta d o) x),
                 th := upd P.th t (.run c (k true)) }
  /-- an index-delete delta, with its word: 1542. -/
  | pushCell (P : PSt K V) (t : Nat) (c : Spec.Call K V) (p o d k) (w : Nat) (h x : Obj) :
      P.th t = .run c (.cas p o (.delta d o) k) → (p, o, h) ∈ (P.fr t).hd →
      P.gc.slot p = some h → P.gc.loc x = .priv t → d.pay = .cell w → w ∈ (P.fr t).cs →
      PStep cfg gn P none
        { P with gc := Gc.eff P.gc (.push t p x h), mem := Gc.set P.mem x (.delta d h),
                 cellAt := upd P.cellAt w (some x),
                 fr := upd P.fr t (((P.fr t).push p (.delta d o) x).dropCell w),
                 th := upd P.th t (.run c (k true)) }
  /-- a merge delta with the node of the innermost removal: 1490. -/
  | merge (P : PSt K V) (t : Nat) (c : Spec.Call K V) (p o d k) (q m rs) (mk y h x : Obj) :
      P.th t = .run c (.cas p o (.delta d o) k) → (p, o, h) ∈ (P.fr t).hd →
      P.gc.slot p = some h → P.gc.loc x = .priv t → d.pay = .node m →
      (P.fr t).rems = (q, m) :: rs → P.gc.rem q = some ⟨t, mk, y⟩ →
      PStep cfg gn P none
        { P with gc := Gc.eff P.gc (.merge t q mk y p x h),
                 mem := Gc.set P.mem x (.merge { d with pay := .none } h y),
                 fr := upd P.fr t (((P.fr t).push p (.delta d o) x).pop),
                 th := upd P.th t (.run c (k true)) }
  /-- a consolidated node replaces the head: 1209. -/
  | replace (P : PSt K V) (t : Nat) (c : Spec.Call K V) (p o n k) (h x : Obj) :
      P.th t = .run c (.cas p o (.base n) k) → .base n ≠ o → (p, o, h) ∈ (P.fr t).hd →
      P.gc.slot p = some h → P.gc.loc x = .priv t →
      PStep cfg gn P none
        { P with gc := Gc.eff P.gc (.replace t p x h), mem := Gc.set P.mem x (.node n),
                 fr := upd P.fr t (P.fr t).fail, th := upd P.th t (.run c (k true)) }
  /-- a remove-node delta replaces the head: 1447.  The consolidated node `y` has been built. -/
  | mark (P : PSt K V) (t : Nat) (c : Spec.Call K V) (p o b k m) (h x y : Obj) :
      P.th t = .run c (.cas p o (.removed b) k) → .removed b ≠ o → (p, o, h) ∈ (P.fr t).hd →
      P.gc.slot p = some h → P.gc.loc x = .priv t → P.gc.loc y = .priv t → x ≠ y →
      tryConsolidate cfg false o = some (.merge m) →
      PStep cfg gn P none
        { P with gc := Gc.eff P.gc (.mark t p x y h),
                 mem := Gc.set (Gc.set P.mem x (.mark b)) y (.node m),
                 fr := upd P.fr t ((P.fr t).mark p m), th := upd P.th t (.run c (k true)) }
  | newPid (P : PSt K V) (t : Nat) (c : Spec.Call K V) (k) : P.th t = .run c (.newPid k) →
      PStep cfg gn P none
        { P with npid := P.npid + 1, fr := upd P.fr t ((P.fr t).pid P.npid),
                 th := upd P.th t (.run c (k P.npid)) }
  | newCell (P : PSt K V) (t : Nat) (c : Spec.Call K V) (k) : P.th t = .run c (.newCell k) →
      PStep cfg gn P none
        { P with ncell := P.ncell + 1, cells := upd P.cells P.ncell 0,
                 fr := upd P.fr t ((P.fr t).cell P.ncell),
                 th := upd P.th t (.run c (k P.ncell)) }
  | loadCell (P : PSt K V) (t : Nat) (c : Spec.Call K V) (w k) : P.th t = .run c (.loadCell w k) →
      CellOk P w → PStep cfg gn P none { P with th := upd P.th t (.run c (k (P.cells w))) }
  | storeCell (P : PSt K V) (t : Nat) (c : Spec.Call K V) (w p k) :
      P.th t = .run c (.storeCell w p k) → CellOk P w →
      PStep cfg gn P none
        { P with cells := upd P.cells w p, th := upd P.th t (.run c k) }
  /-- an access that is not covered. -/
  | bad (P : PSt K V) (t : Nat) (c : Spec.Call K V) (p : Prog K V (Out K V)) :
      P.th t = .run c p → Bad cfg P t p →
      PStep cfg gn P none { P with th := upd P.th t (.run c .ub) }
  /-- allocation; the object may contain anything. -/
  | alloc (P : PSt K V) (t : Nat) (o : Obj) (r : Rec K V) : P.gc.loc o = .free →
      PStep cfg gn P none { P with gc := Gc.eff P.gc (.alloc t o), mem := Gc.set P.mem o r }
  /-- a thread writes to an unpublished object. -/
  | write (P : PSt K V) (t : Nat) (o : Obj) (r : Rec K V) : P.gc.loc o = .priv t →
      PStep cfg gn P none { P with mem := Gc.set P.mem o r }
  | release (P : PSt K V) (t : Nat) (o : Obj) : P.gc.loc o = .priv t →
      PStep cfg gn P none { P with gc := Gc.eff P.gc (.release t o) }
  /-- one `AddGarbage` call of `AddToGC` (684-709). -/
  | retire (P : PSt K V) (t : Nat) (o : Obj) : o ∈ P.gc.todo t →
      PStep cfg gn P none { P with gc := Gc.eff P.gc (.retire t o) }
  /-- the collector frees an object; its contents are destroyed. -/
  | free (P : PSt K V) (o : Obj) (r : Rec K V) : Gc.Pre P.gc (.free o) →
      PStep cfg gn P none { P with gc := Gc.eff P.gc (.free o), mem := Gc.set P.mem o r }
  /-- return of a point operation, when its garbage has been handed over; the guard is released. -/
  | retOp (P : PSt K V) (t : Nat) (o : Spec.Op K V) (r : Out K V) :
      P.th t = .run (.op o) (.ret r) → P.gc.todo t = [] →
      PStep cfg gn P (some (.ret t (.op o) r.1))
        { P with gc := Gc.eff P.gc (.leave t), fr := upd P.fr t .empty, th := upd P.th t .idle }
  /-- return of a node visit. -/
  | retVisit (P : PSt K V) (t : Nat) (b e : Spec.Bound K) (r : Out K V) :
      P.th t = .run (.visit b e) (.ret r) → P.gc.todo t = [] →
      PStep cfg gn P (some (.ret t (.visit b e) r.1))
        { P with gc := Gc.eff P.gc (.leave t), fr := upd P.fr t .empty, th := upd P.th t .idle,
                 it := upd P.it t r.2 }

/-- Executions and their histories. -/
inductive PRun (cfg : Cfg K) (gn : Bool) (P₀ : PSt K V) : List (Spec.Event K V) → PSt K V → Prop
  | nil : PRun cfg gn P₀ [] P₀
  | tau {h : List (Spec.Event K V)} {P P' : PSt K V} : PRun cfg gn P₀ h P →
      PStep cfg gn P none P' → PRun cfg gn P₀ h P'
  | event {h : List (Spec.Event K V)} {P P' : PSt K V} {e : Spec.Event K V} : PRun cfg gn P₀ h P →
      PStep cfg gn P (some e) P' → PRun cfg gn P₀ (h ++ [e]) P'

/-- A tree as the constructor or `Bulkload` leaves it: the shared memory `sh` whose slots hold base nodes, each
at its own address; no thread runs, nothing is retired. -/
structure PStart (sh : Sh K V) (P : PSt K V) : Prop where
  root : P.root = sh.root
  cells : P.cells = sh.cells
  cellAt : ∀ w, P.cellAt w = none
  npid : P.npid = sh.npid
  ncell : P.ncell = sh.ncell
  th : ∀ t, P.th t = .idle
  it : ∀ t, P.it t = none
  fr : ∀ t, P.fr t = .empty
  gc : Gc.Reachable P.gc
  guard : ∀ t, P.gc.guard t = none
  rem : ∀ p, P.gc.rem p = none
  calm : ∀ o, (∀ t, P.gc.loc o ≠ .pend t) ∧ ∀ r, P.gc.loc o ≠ .retired r
  none : ∀ p, sh.mt p = Option.none → P.gc.slot p = Option.none
  slot : ∀ p c, sh.mt p = some c → ∃ h n, P.gc.slot p = some h ∧ c = .base n ∧ P.mem h = .node n ∧
    P.gc.below h = [] ∧ P.gc.isMark h = false

end BwTree.Mem
