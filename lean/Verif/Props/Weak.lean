import Verif.Weak.Start
import Verif.Weak.Exec
import Verif.Weak.Sc
import Verif.Props.Races

/-!
# C58: the memory orders suffice for null checks that are not there

The code never tests what it reads from the mapping table against null.  A thread that learns a page ID
must therefore also have seen the row of the mapping table and the node that belong to it.
-/

namespace BwTree.Spec

open BwTree BwTree.Weak

variable {K V : Type} [LinearOrder K]

/-- No execution brings a thread in front of an access that may dereference a null pointer. -/
def NoFault (o : Orders) (C : Nat) (cfg : Cfg K) (sh : Sh K V) : Prop :=
  ∀ S : WSys K V, WRun o C cfg (WSys.start C sh) S → ∀ t c p, S.th t = .run c p →
    ¬ MayFault C S.mem (S.view t) p

/-- No root has been exchanged, no word of an index-delete record set and no row of the mapping table
added since the start. -/
def Untouched (m : Weak.Mem K V) : Prop :=
  ∀ x ∈ m.msgs, x.loc ≠ .root ∧ (∀ w, x.loc ≠ .word w) ∧ ∀ r, x.loc ≠ .row r

end BwTree.Spec

namespace BwTree.Props

open BwTree BwTree.Weak

set_option linter.unusedSectionVars false

variable {K V : Type} [LinearOrder K] {cfg : Cfg K}

theorem noFault_of_tame {o : Orders} {C : Nat} {mp : K → Option V} {sh : Sh K V}
    (hi : Init cfg mp sh) {S : WSys K V} (hr : WRun o C cfg (WSys.start C sh) S)
    (ht : Tame o S.mem) {t : Nat} {c : Spec.Call K V} {p : Prog K V (Out K V)}
    (hp : S.th t = .run c p) : ¬ MayFault C S.mem (S.view t) p := by
  have h := hr.inv ht (WInv.start (hi.closed.initOK o C))
  have h1 := h.th t
  rw [hp] at h1
  exact ProgOK.no_fault h.mem h1

/-- C58, for the code with `root_`, the words of index-delete records and the mapping table accessed
with release and acquire: no thread ever comes across a null pointer. -/
theorem C58_repaired {mp : K → Option V} {sh : Sh K V} (hi : Init cfg mp sh) (C : Nat) :
    Spec.NoFault ⟨true, true, true⟩ C cfg sh := fun _ hr _ _ _ hp =>
  noFault_of_tame hi hr ⟨Or.inl rfl, Or.inl rfl, Or.inl rfl⟩ hp

/-- C58, for the code as it is, as long as no root is exchanged, no merge completed and no row added.
Splits, consolidations, and all operations on the pages are covered. -/
theorem C58_partial {mp : K → Option V} {sh : Sh K V} (hi : Init cfg mp sh) {C : Nat} {S : WSys K V}
    (hr : WRun .code C cfg (WSys.start C sh) S) (hq : Spec.Untouched S.mem) {t : Nat}
    {c : Spec.Call K V} {p : Prog K V (Out K V)} (hp : S.th t = .run c p) :
    ¬ MayFault C S.mem (S.view t) p :=
  noFault_of_tame hi hr
    ⟨Or.inr fun x hx => (hq x hx).1, Or.inr fun x hx => (hq x hx).2.1,
      Or.inr fun x hx => (hq x hx).2.2⟩ hp

/-- An access of a thread and what it has seen of the slot. -/
def slotAt (S : WSys Nat Nat) (t : Nat) : Option (PID × Nat) :=
  match S.th t with
  | .run _ (.load p _) => some (p, (S.view t).get (.slot p))
  | _ => none

/-! ## What goes wrong -/

/-- A complete call. -/
def wcall (t : Nat) (c : Spec.Op Nat Nat) : List (WCmd Nat Nat) := [.op t 100 c, .fin t 100]

/-- Inserts of thread 0 until the root splits. -/
def exWFill : List (WCmd Nat Nat) :=
  [10, 20, 30, 40, 50, 60, 70].flatMap fun k => wcall 0 (.insert k k)

/-- Thread 1 has begun a call.  It reads the new `root_` and goes on to its node. -/
def exWRoot : List (WCmd Nat Nat) :=
  exWFill.take 12 ++ [.op 1 100 (.read 10)] ++ wcall 0 (.insert 70 70) ++ [.steps 1 1]

/-- `root_` is published with a relaxed store (`bw_tree.hpp` 1421): a thread that reads the new root need
not see its node. -/
theorem C58_root_false : ¬ Spec.NoFault ⟨false, true, true⟩ 8 smallCfg (initSh smallCfg : Sh Nat Nat) := by
  intro h
  obtain ⟨S, hr, c, p, h1, h2⟩ := fault_witness (o := ⟨false, true, true⟩) (C := 8) (cfg := smallCfg)
    (cs := exWRoot) (t := 1) (x := (true, 3)) (by decide +kernel)
  exact h S hr 1 c p h1 h2

/-- The code as it is: the same execution. -/
theorem C58_false : ¬ ∀ (cfg : Cfg Nat) (mp : Nat → Option Nat) (sh : Sh Nat Nat) (C : Nat),
    CfgOK2 cfg → Init cfg mp sh → Spec.NoFault .code C cfg sh := by
  intro h
  obtain ⟨S, hr, c, p, h1, h2⟩ := fault_witness (o := .code) (C := 8) (cfg := smallCfg)
    (cs := exWRoot) (t := 1) (x := (true, 3)) (by decide +kernel)
  exact h smallCfg _ _ 8 smallCfg_ok .empty S hr 1 c p h1 h2

/-- Two leaves are full.  Thread 1 is about to split one.  Thread 0 splits the other one: it takes the
last page ID of a row and adds a row.  Thread 1 gets the first page ID of the new row. -/
def exWTab : List (WCmd Nat Nat) :=
  exWFill ++ ([80, 1, 2, 3, 4].flatMap fun k => wcall 0 (.insert k k)) ++
    [.op 1 100 (.insert 8 8), .steps 1 7, .op 0 100 (.insert 90 90), .steps 0 8, .steps 1 1]

/-- The pointer to a new row is published with relaxed accesses (`mapping_table.hpp` 149-157): the thread
that gets a page ID of the row need not see it. -/
theorem C58_tab_false : ¬ Spec.NoFault ⟨true, true, false⟩ 5 smallCfg (initSh smallCfg : Sh Nat Nat) := by
  intro h
  obtain ⟨S, hr, c, p, h1, h2⟩ := fault_witness (o := ⟨true, true, false⟩) (C := 5) (cfg := smallCfg)
    (cs := exWTab) (t := 1) (x := (false, 5)) (by decide +kernel)
  exact h S hr 1 c p h1 h2

/-- Thread 0 removes leaf 2 and posts the index-delete record.  Thread 2 finds that record.  Thread 1
splits leaf 1 into 1 and 4.  Thread 0 merges into leaf 4 and sets the word of the record.  Thread 2 reads
the word and goes on to leaf 4. -/
def exWWord : List (WCmd Nat Nat) :=
  exWFill ++ ([1, 2, 3, 4].flatMap fun k => wcall 0 (.insert k k)) ++
    ([70, 60, 50].flatMap fun k => wcall 0 (.delete k)) ++
    [.op 0 100 (.delete 40), .steps 0 11, .op 2 100 (.read 40), .steps 2 3] ++
    wcall 1 (.insert 8 8) ++ [.steps 0 4, .steps 2 1]

/-- The word of an index-delete record is relaxed (`fixlen/delta_record.hpp` 411, 429): a thread that
follows it need not see the node of the page. -/
theorem C58_word_false : ¬ Spec.NoFault ⟨true, false, true⟩ 8 smallCfg (initSh smallCfg : Sh Nat Nat) := by
  intro h
  obtain ⟨S, hr, c, p, h1, h2⟩ := fault_witness (o := ⟨true, false, true⟩) (C := 8) (cfg := smallCfg)
    (cs := exWWord) (t := 2) (x := (true, 4)) (by decide +kernel)
  exact h S hr 2 c p h1 h2

theorem mayFault_mono {C : Nat} {S S' : WSys K V} (h : SysLe S S') {t : Nat}
    {p : Prog K V (Out K V)} (hf : MayFault C S'.mem (S'.view t) p) : MayFault C S.mem (S.view t) p := by
  have rd : ∀ l, (∃ x, Readable S'.mem (S'.view t) l x ∧ x.val = .null) →
      ∃ x, Readable S.mem (S.view t) l x ∧ x.val = .null := by
    rintro l ⟨x, h1, h2⟩
    obtain ⟨y, h3, h4⟩ := h.mem.readable (h.view t) h1
    exact ⟨y, h3, h4.val.trans h2⟩
  cases p with
  | load p k => exact ⟨hf.1, hf.2.imp (rd _) (rd _)⟩
  | store p c k => exact ⟨hf.1, rd _ hf.2⟩
  | cas p a b k => exact ⟨hf.1, rd _ hf.2⟩
  | _ => exact hf

/-- Strengthening an order does not introduce faults. -/
theorem C58_weaken {o o' : Orders} (ho : Orders.Le o o') {C : Nat} {sh : Sh K V}
    (h : Spec.NoFault o C cfg sh) : Spec.NoFault o' C cfg sh := by
  intro S hr t c p hp hf
  obtain ⟨S', h1, h2⟩ := hr.weaken ho
  exact h S' h1 t c p (by rw [h2.th]; exact hp) (mayFault_mono h2 hf)

/-- C58 holds exactly if all three groups are release/acquire: none of them may stay relaxed. -/
theorem C58_exact (o : Orders) : (∀ (cfg : Cfg Nat) (mp : Nat → Option Nat) (sh : Sh Nat Nat) (C : Nat),
    CfgOK2 cfg → Init cfg mp sh → Spec.NoFault o C cfg sh) ↔ o = ⟨true, true, true⟩ := by
  constructor
  · intro h
    have h0 : ∀ C, Spec.NoFault o C smallCfg (initSh smallCfg : Sh Nat Nat) := fun C =>
      h smallCfg _ _ C smallCfg_ok .empty
    obtain ⟨r, w, t⟩ := o
    cases r with
    | false => exact (C58_root_false (C58_weaken (o := ⟨false, w, t⟩) (o' := ⟨false, true, true⟩)
        ⟨id, fun _ => rfl, fun _ => rfl⟩ (h0 8))).elim
    | true =>
      cases w with
      | false => exact (C58_word_false (C58_weaken (o := ⟨true, false, t⟩) (o' := ⟨true, false, true⟩)
          ⟨id, id, fun _ => rfl⟩ (h0 8))).elim
      | true =>
        cases t with
        | false => exact (C58_tab_false (C58_weaken ⟨id, id, id⟩ (h0 5))).elim
        | true => rfl
  · rintro rfl cfg mp sh C _ hi
    exact C58_repaired hi C

/-- The weak machine is at least as rich as the interleaving model of the other properties: it has all its
executions, for all orders. -/
theorem C58_interleavings (o : Orders) (C : Nat) {mp : K → Option V} {sh : Sh K V}
    (hi : Init cfg mp sh) {h : List (Spec.Event K V)} {S : Sys K V}
    (hr : Run cfg (Sys.start sh) h S) :
    ∃ W : WSys K V, WRun o C cfg (WSys.start C sh) W ∧ W.th = S.th ∧ W.it = S.it := run_weak o hi hr

/-- `C58_repaired` on the same executions: the threads have seen the rows and nodes they go to. -/
example : ∃ S : WSys Nat Nat, WRun ⟨true, true, true⟩ 8 smallCfg (WSys.start 8 (initSh smallCfg)) S ∧
    ¬ (faultAt 8 S 1).isSome ∧ slotAt S 1 = some (3, 1) := by
  have h : ((wcmds ⟨true, true, true⟩ 8 smallCfg exWRoot (WSys.start 8 (initSh smallCfg))).map fun S =>
      (decide (¬ (faultAt 8 S 1).isSome), slotAt S 1)) = some (true, some (3, 1)) := by decide +kernel
  rw [Option.map_eq_some_iff] at h
  obtain ⟨S, h1, h2⟩ := h
  simp only [Prod.mk.injEq, decide_eq_true_eq] at h2
  exact ⟨S, wcmds_sound h1 .refl, h2.1, h2.2⟩

example : ∃ S : WSys Nat Nat, WRun ⟨true, true, true⟩ 8 smallCfg (WSys.start 8 (initSh smallCfg)) S ∧
    slotAt S 2 = some (4, 2) := by
  have h : ((wcmds ⟨true, true, true⟩ 8 smallCfg exWWord (WSys.start 8 (initSh smallCfg))).map fun S =>
      slotAt S 2) = some (some (4, 2)) := by decide +kernel
  rw [Option.map_eq_some_iff] at h
  obtain ⟨S, h1, h2⟩ := h
  exact ⟨S, wcmds_sound h1 .refl, h2⟩

/-- Writes that are not to `root_`, words or rows. -/
def untouchedB (m : Weak.Mem Nat Nat) : Bool := m.msgs.all fun x => match x.loc with
  | .slot _ | .cnt => true
  | _ => false

/-- `C58_partial` applies to executions of the code with consolidations and concurrent readers. -/
example : ∃ S : WSys Nat Nat, WRun .code 8 smallCfg (WSys.start 8 (initSh smallCfg)) S ∧
    Spec.Untouched S.mem ∧ S.mem.msgs.length = 9 ∧ slotAt S 1 = some (1, 0) := by
  have h : ((wcmds .code 8 smallCfg ((exWFill.take 12) ++ [.op 1 100 (.read 10), .steps 1 1])
      (WSys.start 8 (initSh smallCfg))).map fun S =>
      (untouchedB S.mem, decide (S.mem.msgs.length = 9), slotAt S 1)) =
        some (true, true, some (1, 0)) := by decide +kernel
  rw [Option.map_eq_some_iff] at h
  obtain ⟨S, h1, h2⟩ := h
  simp only [Prod.mk.injEq, decide_eq_true_eq] at h2
  refine ⟨S, wcmds_sound h1 .refl, fun x hx => ?_, h2.2.1, h2.2.2⟩
  have h3 := List.all_eq_true.1 h2.1 x hx
  refine ⟨fun e => ?_, fun w e => ?_, fun r e => ?_⟩ <;> rw [e] at h3 <;> cases h3

end BwTree.Props
