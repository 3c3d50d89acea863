import Verif.Bytes.SoloSim
import Verif.Spec.Apart

/-!
# Writes that take turns, on bytes

`BSureRun` are executions in which compare-and-swaps, which compare addresses, do not fail spuriously; the
rest is proof side, compare `Conc/Readers`.
-/

namespace BwTree.Bytes

open Layout (Mem BBound)

set_option linter.unusedSectionVars false

variable {L : Lay} {legal : Spec.Call Str Str → Prop}

/-! ## Executions -/

/-- Steps of the system in which no compare-and-swap (and no comparison in `TrySMOs`) fails although the
slot holds the expected address. -/
inductive BSureStep (L : Lay) (legal : Spec.Call Str Str → Prop) :
    BSys L → Option (Spec.Event Str Str) → BSys L → Prop
  | event {S S' : BSys L} {e : Spec.Event Str Str} : BSysStep L legal S (some e) S' →
      BSureStep L legal S (some e) S'
  | access (S : BSys L) (t : Nat) (c : Spec.Call Str Str) (p p' : BProg L.C BOut) (sh' : BSh L.C) :
      S.th t = .run c p → BFirm S.sh p sh' p' →
      BSureStep L legal S none { S with sh := sh', th := upd S.th t (.run c p') }

/-- Executions and their histories. -/
inductive BSureRun (L : Lay) (legal : Spec.Call Str Str → Prop) (S₀ : BSys L) :
    List (Spec.Event Str Str) → BSys L → Prop
  | nil : BSureRun L legal S₀ [] S₀
  | tau {h : List (Spec.Event Str Str)} {S S' : BSys L} : BSureRun L legal S₀ h S →
      BSureStep L legal S none S' → BSureRun L legal S₀ h S'
  | event {h : List (Spec.Event Str Str)} {S S' : BSys L} {e : Spec.Event Str Str} :
      BSureRun L legal S₀ h S → BSureStep L legal S (some e) S' → BSureRun L legal S₀ (h ++ [e]) S'

theorem BSureRun.run {S₀ S : BSys L} {h : List (Spec.Event Str Str)}
    (hr : BSureRun L legal S₀ h S) : BRun L legal S₀ h S := by
  induction hr with
  | nil => exact .nil
  | tau _ hs ih =>
    cases hs with
    | access t c p p' sh' h1 h2 => exact .tau ih (.step _ _ _ _ _ _ h1 h2.step)
  | event _ hs ih =>
    cases hs with
    | event h => exact .event ih h

/-- Accesses to shared memory; taking a page is none. -/
def BProg.cost {C α : Type} : BProg C α → Nat
  | .alloc _ => 0
  | _ => 1

/-- `S'` comes later than `S`, and thread `t` is in the same call all the time; it has made `n` accesses
to shared memory.  The other threads went on with their calls, returned, and called reads and scans, but no
writes. -/
inductive BDuring (L : Lay) (legal : Spec.Call Str Str → Prop) (t : Nat) (S : BSys L) :
    Nat → BSys L → Prop
  | refl : BDuring L legal t S 0 S
  | own {n : Nat} {S' : BSys L} {c : Spec.Call Str Str} {x x' : BProg L.C BOut} {sh' : BSh L.C} :
      BDuring L legal t S n S' → S'.th t = .run c x → BFirm S'.sh x sh' x' →
      BDuring L legal t S (n + x.cost) { S' with sh := sh', th := upd S'.th t (.run c x') }
  | other {n u : Nat} {S' : BSys L} {c : Spec.Call Str Str} {x x' : BProg L.C BOut} {sh' : BSh L.C} :
      BDuring L legal t S n S' → u ≠ t → S'.th u = .run c x → BFirm S'.sh x sh' x' →
      BDuring L legal t S n { S' with sh := sh', th := upd S'.th u (.run c x') }
  /-- a call or return of another thread. -/
  | event {n : Nat} {S' S'' : BSys L} {e : Spec.Event Str Str} : BDuring L legal t S n S' →
      BSysStep L legal S' (some e) S'' → (∀ c, e ≠ .inv t c) → (∀ c r, e ≠ .ret t c r) →
      (∀ u c, e = .inv u c → c.isWrite = false) → BDuring L legal t S n S''

/-! ## Reads and scans -/

/-- The program makes no access except loads. -/
def BProg.ReadsOnly {C α : Type} : BProg C α → Prop
  | .ret _ | .ub | .stuck | .flag _ => True
  | .loadRoot k => ∀ r, (k r).ReadsOnly
  | .load _ k => ∀ c, (k c).ReadsOnly
  | .loadCell _ k => ∀ q, (k q).ReadsOnly
  | .alloc k => ∀ m, (k m).ReadsOnly
  | _ => False

theorem BProg.ReadsOnly.bind {C α β : Type} {p : BProg C α} {g : α → BProg C β} (h : p.ReadsOnly)
    (hg : ∀ a, (g a).ReadsOnly) : (p.bind g).ReadsOnly := by
  induction p with
  | ret a => exact hg a
  | ub => trivial
  | stuck => trivial
  | flag k => trivial
  | loadRoot k ih => exact fun r => ih r (h r)
  | load p k ih => exact fun c => ih c (h c)
  | loadCell w k ih => exact fun q => ih q (h q)
  | alloc k ih => exact fun m => ih m (h m)
  | _ => exact h.elim

theorem BProg.ReadsOnly.step {C α : Type} {sh sh' : BSh C} {p p' : BProg C α} (h : p.ReadsOnly)
    (hs : BStep sh p sh' p') : sh' = sh ∧ p'.ReadsOnly := by
  cases hs with
  | loadRoot k => exact ⟨rfl, h _⟩
  | load p k c _ => exact ⟨rfl, h c⟩
  | loadNull => exact ⟨rfl, trivial⟩
  | loadCell w k => exact ⟨rfl, h _⟩
  | alloc k m => exact ⟨rfl, h m⟩
  | _ => exact h.elim

theorem bloadValidHead_reads (f : Nat) (p : PID) : (loadValidHead L f p).ReadsOnly := by
  induction f with
  | zero => trivial
  | succ f ih =>
    intro c
    show BProg.ReadsOnly (if _ then _ else _)
    split
    · exact ih
    · trivial

theorem bwaitCell_reads (f w : Nat) : (waitCell L f w).ReadsOnly := by
  induction f with
  | zero => trivial
  | succ f ih =>
    intro c
    show BProg.ReadsOnly (if _ then _ else _)
    split
    · exact ih
    · trivial

theorem bsearchChild_reads (key : Str) (closed : Bool) (tgt : PID) (f : Nat) (stk : Stk) :
    (searchChild L key closed tgt f stk).ReadsOnly := by
  induction f generalizing stk with
  | zero => trivial
  | succ f ih =>
    cases stk with
    | nil => trivial
    | cons p rest =>
      intro c
      show BProg.ReadsOnly (if _ then _ else _)
      split
      · trivial
      · split
        · trivial
        · exact (bwaitCell_reads _ _).bind fun _ => trivial
        · split
          · trivial
          · exact ih _
        · split
          · split
            · trivial
            · exact fun r => ih _
          · refine (ih _).bind fun x => ?_
            split
            · trivial
            · split
              · trivial
              · exact ih _
        · trivial

theorem bsearchLeafLoop_reads (key : Str) (closed : Bool) (f : Nat) (stk : Stk) :
    (searchLeafLoop L key closed f stk).ReadsOnly := by
  induction f generalizing stk with
  | zero => trivial
  | succ f ih =>
    cases stk with
    | nil => trivial
    | cons p rest =>
      intro c
      show BProg.ReadsOnly (if _ then _ else _)
      split
      · trivial
      · exact (bsearchChild_reads _ _ _ _ _).bind fun x => ih _

theorem bsearchLeaf_reads (key : Str) (closed : Bool) (f : Nat) :
    (searchLeaf L key closed f).ReadsOnly := fun _ => bsearchLeafLoop_reads _ _ _ _

theorem bgetHead_reads (key : Str) (closed : Bool) (tgt : PID) (f : Nat) (stk : Stk) :
    (getHead L key closed tgt f stk).ReadsOnly := by
  induction f generalizing stk with
  | zero => trivial
  | succ f ih =>
    cases stk with
    | nil => trivial
    | cons p rest =>
      refine (bloadValidHead_reads _ _).bind fun c => ?_
      split
      · trivial
      · split
        · trivial
        · exact ih _
      · split
        · split
          · trivial
          · exact (bsearchLeaf_reads _ _ _).bind fun s => ih _
        · refine (bsearchChild_reads _ _ _ _ _).bind fun x => ?_
          split
          · trivial
          · exact ih _
      · trivial

theorem breadLoop_reads (key : Str) (f : Nat) (stk : Stk) : (readLoop L key f stk).ReadsOnly := by
  induction f generalizing stk with
  | zero => trivial
  | succ f ih =>
    cases stk with
    | nil => trivial
    | cons p rest =>
      intro c
      show BProg.ReadsOnly (if _ then _ else _)
      split
      · trivial
      · split
        · trivial
        · exact ih _
        · split
          · trivial
          · exact (bsearchChild_reads _ _ _ _ _).bind fun x => ih _
        · trivial

theorem bread_reads (f : Nat) (o : Spec.Op Str Str) (ho : o.isWrite = false) :
    (runOp L f o).ReadsOnly := by
  cases o with
  | read k =>
    exact (bsearchLeaf_reads _ _ _).bind fun s => (breadLoop_reads _ _ _).bind fun o => trivial
  | _ => cases ho

theorem bscanFrom_reads (key : Str) (closed : Bool) (e : BBound) (f : Nat) (stk : Stk) :
    (scanFrom L key closed e f stk).ReadsOnly := by
  induction f generalizing stk with
  | zero => trivial
  | succ f ih =>
    refine (bgetHead_reads _ _ _ _ _).bind fun o => ?_
    split
    · trivial
    · split
      · exact ih _
      · split
        · trivial
        · intro m
          dsimp only
          split <;> trivial

theorem bleftmostLoop_reads (f : Nat) (p : PID) : (leftmostLoop L f p).ReadsOnly := by
  induction f generalizing p with
  | zero => trivial
  | succ f ih =>
    intro c
    show BProg.ReadsOnly (if _ then _ else _)
    split
    · trivial
    · split
      · trivial
      · split
        · trivial
        · exact ih _

theorem bscanLeft_reads (e : BBound) (f : Nat) (p : PID) : (scanLeft L e f p).ReadsOnly := by
  induction f generalizing p with
  | zero => trivial
  | succ f ih =>
    intro c
    show BProg.ReadsOnly (if _ then _ else _)
    split
    · exact ih _
    · intro m
      dsimp only
      split <;> trivial

theorem bscanFirst_reads (f : Nat) (b e : BBound) : (scanFirst L f b e).ReadsOnly := by
  cases b with
  | some x => exact (bsearchLeaf_reads _ _ _).bind fun s => bscanFrom_reads _ _ _ _ _
  | none =>
    exact BProg.ReadsOnly.bind (p := .loadRoot fun r => leftmostLoop L f r)
      (fun r => bleftmostLoop_reads _ _) fun p => bscanLeft_reads _ _ _

theorem bscanNext_reads (f : Nat) (p : PID) (k : Str) (e : BBound) :
    (scanNext L f p k e).ReadsOnly := bscanFrom_reads _ _ _ _ _

/-! ## The writes of an execution -/

/-- The thread makes no access except loads until its call returns. -/
def BTSt.Reader : BTSt L → Prop
  | .idle => True
  | .run c p => c.isWrite = false ∧ p.ReadsOnly

theorem BFirmRun.snoc {C α : Type} {s s' s'' : BSh C} {p p' p'' : BProg C α}
    (h : BFirmRun s p s' p') (f : BFirm s' p' s'' p'') : BFirmRun s p s'' p'' := by
  induction h with
  | refl s p => exact .step f (.refl _ _)
  | step g _ ih => exact .step g (ih f)

theorem BStep.bindInv {C α β : Type} {s s' : BSh C} {p : BProg C α} {g : α → BProg C β} {q : BProg C β}
    (hg : ∀ a, ∃ b, g a = .ret b) (h : BStep s (p.bind g) s' q) :
    ∃ p', BStep s p s' p' ∧ q = p'.bind g := by
  cases p with
  | ret a =>
    obtain ⟨b, hb⟩ := hg a
    simp only [BProg.bind, hb] at h
    cases h
  | ub => cases h
  | stuck => cases h
  | flag k => cases h
  | loadRoot k => cases h; exact ⟨_, .loadRoot _ _, rfl⟩
  | storeRoot p k => cases h; exact ⟨_, .storeRoot _ _ _, rfl⟩
  | casRoot o n k =>
    cases h with
    | casRootOk _ _ _ e => exact ⟨_, .casRootOk _ _ _ _ e, rfl⟩
    | casRootFail _ _ _ e => exact ⟨_, .casRootFail _ _ _ _ e, rfl⟩
  | load p k =>
    cases h with
    | load _ _ _ e => exact ⟨_, .load _ _ _ _ e, rfl⟩
    | loadNull _ _ e => exact ⟨_, .loadNull _ _ _ e, rfl⟩
  | store p c k => cases h; exact ⟨_, .store _ _ _ _, rfl⟩
  | cas p o n k =>
    cases h with
    | casOk _ _ _ _ _ e1 e2 => exact ⟨_, .casOk _ _ _ _ _ _ e1 e2, rfl⟩
    | casFail => exact ⟨_, .casFail _ _ _ _ _, rfl⟩
  | check p o k =>
    cases h with
    | checkOk _ _ _ _ e1 e2 => exact ⟨_, .checkOk _ _ _ _ _ e1 e2, rfl⟩
    | checkFail => exact ⟨_, .checkFail _ _ _ _, rfl⟩
  | newPid k => cases h; exact ⟨_, .newPid _ _, rfl⟩
  | newCell k => cases h; exact ⟨_, .newCell _ _, rfl⟩
  | loadCell w k => cases h; exact ⟨_, .loadCell _ _ _, rfl⟩
  | storeCell w p k => cases h; exact ⟨_, .storeCell _ _ _ _, rfl⟩
  | alloc k => cases h; exact ⟨_, .alloc _ _ _, rfl⟩

theorem BFirm.bindInv {C α β : Type} {s s' : BSh C} {p : BProg C α} {g : α → BProg C β} {q : BProg C β}
    (hg : ∀ a, ∃ b, g a = .ret b) (h : BFirm s (p.bind g) s' q) :
    ∃ p', BFirm s p s' p' ∧ q = p'.bind g := by
  obtain ⟨a, hc, hk⟩ := h
  by_cases h1 : ∃ x o n k h, p = .cas x o n k ∧ s.mt x = some h ∧ h.id = o.id
  · obtain ⟨x, o, n, k, h, rfl, hm, hid⟩ := h1
    obtain ⟨e1, e2⟩ := hc x o n (fun b => (k b).bind g) h rfl hm hid
    subst e1 e2
    refine ⟨_, ⟨.casOk _ _ _ _ _ _ hm hid, ?_, nofun⟩, rfl⟩
    rintro x' o' n' k' h' e _ _
    cases e
    exact ⟨rfl, rfl⟩
  · by_cases h2 : ∃ x o k h, p = .check x o k ∧ s.mt x = some h ∧ h.id = o.id
    · obtain ⟨x, o, k, h, rfl, hm, hid⟩ := h2
      have e2 := hk x o (fun b => (k b).bind g) h rfl hm hid
      subst e2
      have hs : s' = s := by
        change BStep s (.check x o fun b => (k b).bind g) s' _ at a
        generalize (k true).bind g = y at a
        cases a <;> rfl
      subst hs
      refine ⟨_, ⟨.checkOk _ _ _ _ _ hm hid, nofun, ?_⟩, rfl⟩
      rintro x' o' k' h' e _ _
      cases e
      rfl
    · obtain ⟨p', e1, e2⟩ := a.bindInv hg
      exact ⟨p', ⟨e1, fun x o n k h e hm hid => absurd ⟨x, o, n, k, h, e, hm, hid⟩ h1,
        fun x o k h e hm hid => absurd ⟨x, o, k, h, e, hm, hid⟩ h2⟩, e2⟩

theorem bret_of_bind {C α β : Type} {p : BProg C α} {g : α → BProg C β} {b : β}
    (h : p.bind g = .ret b) : ∃ a, p = .ret a ∧ g a = .ret b := by
  cases p with
  | ret a => exact ⟨a, rfl, h⟩
  | _ => cases h

/-- What a thread in a call of a writing operation has done, when it began in `b0`. -/
def BWriting (b0 : BSh L.C) (S : BSys L) (t : Nat) (o : Spec.Op Str Str) : Prop :=
  ∃ (f : Nat) (p : BProg L.C (Spec.Res Str)), S.th t = .run (.op o) (p.bind fun r => .ret (.res r, none)) ∧
    BFirmRun b0 (runOp L f o) S.sh p

/-- Compare `Serial`. -/
structure BSerial (L : Lay) (legal : Spec.Call Str Str → Prop) (b0 : BSh L.C)
    (h : List (Spec.Event Str Str)) (S : BSys L) : Prop where
  writes : ∃ b1, BSession L legal b0 (Spec.writesDone h) b1 none ∧
    ((∀ t, (S.th t).Reader) ∧ S.sh = b1 ∨
      ∃ t o, Spec.Op.isWrite o = true ∧ legal (.op o) ∧ BWriting b1 S t o ∧
        (∀ u, u ≠ t → (S.th u).Reader) ∧
        ∃ h1 h2, h = h1 ++ .inv t (.op o) :: h2 ∧ ∀ c r, .ret t c r ∉ h2)

theorem BSerial.other {b0 : BSh L.C} {h : List (Spec.Event Str Str)} {S S' : BSys L} {t : Nat}
    {l : List (Spec.Event Str Str)} (hs : BSerial L legal b0 h S) (h1 : S'.sh = S.sh)
    (h2 : ∀ u, u ≠ t → S'.th u = S.th u) (h3 : (S.th t).Reader) (h4 : (S'.th t).Reader)
    (h5 : Spec.writesDone l = []) (h6 : ∀ u c r, .ret u c r ∈ l → u = t) :
    BSerial L legal b0 (h ++ l) S' := by
  obtain ⟨sh1, g1, g2⟩ := hs
  refine ⟨sh1, by rw [Spec.writesDone_append, h5, List.append_nil]; exact g1, ?_⟩
  have h7 : ∀ u, (S.th u).Reader → (S'.th u).Reader := by
    intro u hu
    by_cases e : u = t
    · subst e; exact h4
    · rw [h2 u e]; exact hu
  rcases g2 with ⟨g2, g3⟩ | ⟨w, o, g2, g0, g3, g4, k1, k2, g5, g6⟩
  · exact Or.inl ⟨fun u => h7 u (g2 u), h1.trans g3⟩
  · have hne : w ≠ t := by
      rintro rfl
      obtain ⟨f, p, e, _⟩ := g3
      rw [e] at h3
      have := h3.1
      rw [Spec.Call.isWrite, g2] at this
      cases this
    refine Or.inr ⟨w, o, g2, g0, ?_, fun u hu => h7 u (g4 u hu), k1, k2 ++ l, by simp [g5], ?_⟩
    · obtain ⟨f, p, e1, e2⟩ := g3
      exact ⟨f, p, by rw [h2 w hne]; exact e1, by rw [h1]; exact e2⟩
    · intro c r hm
      rcases List.mem_append.mp hm with hm | hm
      · exact g6 c r hm
      · exact hne (h6 _ _ _ hm)

theorem BSerial.step {b0 : BSh L.C} {h : List (Spec.Event Str Str)} {S S' : BSys L}
    {l : Option (Spec.Event Str Str)} (hs : BSerial L legal b0 h S) (hst : BSureStep L legal S l S')
    (ha : Spec.Apart (h ++ l.toList)) : BSerial L legal b0 (h ++ l.toList) S' := by
  cases hst with
  | access t c p p' sh' ht hp =>
    show BSerial L legal b0 (h ++ []) _
    by_cases hr : (S.th t).Reader
    · have hr' := hr
      rw [ht] at hr'
      obtain ⟨e1, e2⟩ := hr'.2.step hp.step
      exact hs.other (t := t) e1 (fun u hu => upd_ne _ _ hu) hr
        (by simp only [upd_same]; exact ⟨hr'.1, e2⟩) rfl (by intro _ _ _ hm; cases hm)
    · obtain ⟨sh1, g1, g2⟩ := hs
      rcases g2 with ⟨g2, _⟩ | ⟨w, o, g2, g0, ⟨f, q, e1, e2⟩, g4, g5⟩
      · exact absurd (g2 t) hr
      · have hw : t = w := by
          by_contra hne
          exact hr (g4 t hne)
        subst hw
        rw [e1] at ht
        cases ht
        obtain ⟨q', e3, e4⟩ := hp.bindInv (fun a => ⟨_, rfl⟩)
        subst e4
        rw [List.append_nil]
        exact ⟨sh1, g1, Or.inr ⟨t, o, g2, g0, ⟨f, q', upd_same _ _ _, e2.snoc e3⟩,
          fun u hu => by simp only [upd_ne _ _ hu]; exact g4 u hu, g5⟩⟩
  | event hst =>
    cases hst with
    | op t f o hl ht =>
      cases hw : o.isWrite with
      | false =>
        refine hs.other (t := t) rfl (fun u hu => upd_ne _ _ hu) (by rw [ht]; trivial) ?_ rfl ?_
        · simp only [upd_same]
          exact ⟨hw, (bread_reads f o hw).bind fun _ => trivial⟩
        · intro u c r hm; simp at hm
      | true =>
        obtain ⟨sh1, g1, g2⟩ := hs
        refine ⟨sh1, by rw [Spec.writesDone_append]; simpa [Spec.writesDone] using g1, Or.inr ?_⟩
        rcases g2 with ⟨g2, g3⟩ | ⟨w, o', g2, _, _, _, h1, h2, g5, g6⟩
        · refine ⟨t, o, hw, hl, ⟨f, _, upd_same _ _ _, by rw [← g3]; exact .refl _ _⟩, fun u hu => ?_,
            h, [], by simp, by intro _ _ hm; cases hm⟩
          simp only [upd_ne _ _ hu]; exact g2 u
        · obtain ⟨r, hr⟩ := ha h1 h2 [] w t (.op o') (.op o) (by simp [g5]) g2 hw
          exact absurd hr (g6 _ _)
    | scan t f b e hl ht =>
      refine hs.other (t := t) rfl (fun u hu => upd_ne _ _ hu) (by rw [ht]; trivial) ?_ rfl ?_
      · simp only [upd_same]
        exact ⟨rfl, (bscanFirst_reads f b e).bind fun _ => trivial⟩
      · intro u c r hm; simp at hm
    | next t f p k e ht hit =>
      refine hs.other (t := t) rfl (fun u hu => upd_ne _ _ hu) (by rw [ht]; trivial) ?_ rfl ?_
      · simp only [upd_same]
        exact ⟨rfl, (bscanNext_reads f p k e).bind fun _ => trivial⟩
      · intro u c r hm; simp at hm
    | retOp t o r ht =>
      by_cases hr : (S.th t).Reader
      · refine hs.other (t := t) rfl (fun u hu => upd_ne _ _ hu) hr ?_ ?_ ?_
        · simp only [upd_same]; trivial
        · rw [ht] at hr
          have := hr.1
          simp only [Option.toList, Spec.writesDone, this]
          rfl
        · intro u c r hm; simp at hm; exact hm.1
      · obtain ⟨sh1, g1, g2⟩ := hs
        rcases g2 with ⟨g2, _⟩ | ⟨w, o', g2, g0, ⟨f, q, e1, e2⟩, g4, g5⟩
        · exact absurd (g2 t) hr
        · have hw : t = w := by
            by_contra hne
            exact hr (g4 t hne)
          subst hw
          rw [e1] at ht
          injection ht with ht1 ht2
          cases ht1
          obtain ⟨a, rfl, e3⟩ := bret_of_bind ht2
          cases e3
          refine ⟨S.sh, ?_, Or.inl ⟨fun u => ?_, rfl⟩⟩
          · rw [Spec.writesDone_append]
            have : Spec.Call.isWrite (.op o : Spec.Call Str Str) = true := g2
            simp only [Option.toList, Spec.writesDone, this, if_true]
            exact g1.op g0 e2
          · by_cases e : u = t
            · subst e; simp only [upd_same]; trivial
            · simp only [upd_ne _ _ e]; exact g4 u e
    | retVisit t b e r ht =>
      have hr : (S.th t).Reader := by
        obtain ⟨sh1, g1, g2⟩ := hs
        rcases g2 with ⟨g2, _⟩ | ⟨w, o', g2, g0, ⟨f, q, e1, e2⟩, g4, g5⟩
        · exact g2 t
        · refine g4 t ?_
          rintro rfl
          rw [e1] at ht; cases ht
      refine hs.other (t := t) rfl (fun u hu => upd_ne _ _ hu) hr ?_ rfl ?_
      · simp only [upd_same]; trivial
      · intro u c r hm; simp at hm; exact hm.1

theorem BSureRun.serial {S₀ : BSys L} (h0 : ∀ t, S₀.th t = .idle) {h : List (Spec.Event Str Str)}
    {S : BSys L} (hr : BSureRun L legal S₀ h S) (ha : Spec.Apart h) : BSerial L legal S₀.sh h S := by
  induction hr with
  | nil => exact ⟨S₀.sh, .start, Or.inl ⟨fun t => by rw [h0 t]; trivial, rfl⟩⟩
  | @tau h S S' _ hs ih =>
    have := (ih ha).step hs (by simpa using ha)
    simpa using this
  | @event h S S' e _ hs ih => exact (ih ha.left).step hs ha

/-! ## A call among readers -/

theorem BDuring.ends {α : Type} {S S' : BSys L} {t k n : Nat} {c : Spec.Call Str Str} {P : BProg L.C α}
    {g : α → BProg L.C BOut} {stop : BSh L.C → Prop} {Q : α → BSh L.C → Prop}
    (hg : ∀ a, ∃ b, g a = .ret b) (hstop : ∀ b b' : BSh L.C, b.npid ≤ b'.npid → stop b → stop b')
    (hd : BDuring L legal t S k S') (ht : S.th t = .run c (P.bind g))
    (ho : ∀ u, u ≠ t → (S.th u).Reader) (he : BEnds stop Q n S.sh P) :
    (∀ u, u ≠ t → (S'.th u).Reader) ∧
    ∃ p, S'.th t = .run c (p.bind g) ∧ (stop S'.sh ∨ ∃ n', n' + k ≤ n ∧ BEnds stop Q n' S'.sh p) := by
  induction hd with
  | refl => exact ⟨ho, P, ht, Or.inr ⟨n, Nat.le_refl _, he⟩⟩
  | @own k S' c' x x' sh' _ h1 h2 ih =>
    obtain ⟨i1, p, i2, i3⟩ := ih
    rw [i2] at h1
    cases h1
    obtain ⟨p', e3, rfl⟩ := h2.bindInv hg
    refine ⟨fun v hv => by simp only [upd_ne _ _ hv]; exact i1 v hv, p', upd_same _ _ _, ?_⟩
    rcases i3 with i3 | ⟨n', i3, i4⟩
    · exact Or.inl (hstop _ _ e3.step.npid i3)
    · cases i4 with
      | ret _ => cases e3.step
      | full hl => exact Or.inl (hstop _ _ e3.step.npid hl)
      | page hk =>
        have hs := e3.step
        cases hs with
        | alloc k m => exact Or.inr ⟨n', i3, hk m⟩
      | step _ hk =>
        refine Or.inr ⟨_, ?_, hk _ _ e3⟩
        have : (p.bind g).cost ≤ 1 := by unfold BProg.cost; split <;> omega
        omega
  | @other k u S' c' x x' sh' _ e h1 h2 ih =>
    obtain ⟨i1, p, i2, i3⟩ := ih
    have h3 := i1 u e
    rw [h1] at h3
    obtain ⟨e1, e2⟩ := h3.2.step h2.step
    subst e1
    refine ⟨fun v hv => ?_, p, (upd_ne _ _ (Ne.symm e)).trans i2, i3⟩
    by_cases ev : v = u
    · subst ev; simp only [upd_same]; exact ⟨h3.1, e2⟩
    · simp only [upd_ne _ _ ev]; exact i1 v hv
  | @event k S' S'' ev _ h1 h2 h3 h4 ih =>
    obtain ⟨i1, p, i2, i3⟩ := ih
    have keep : ∀ {u : Nat} {y : BTSt L}, u ≠ t → y.Reader → (∀ v, v ≠ t → (upd S'.th u y v).Reader) ∧
        upd S'.th u y t = .run c (p.bind g) := by
      intro u y hu hy
      refine ⟨fun v hv => ?_, (upd_ne _ _ (Ne.symm hu)).trans i2⟩
      by_cases ev : v = u
      · subst ev; rw [upd_same]; exact hy
      · rw [upd_ne _ _ ev]; exact i1 v hv
    cases h1 with
    | op u f o hl hu =>
      have := keep (u := u) (y := .run (.op o) ((runOp L f o).bind fun r => .ret (.res r, none)))
        (fun e => h2 (.op o) (by rw [e])) ⟨h4 _ _ rfl, (bread_reads f o (h4 _ _ rfl)).bind fun _ => trivial⟩
      exact ⟨this.1, p, this.2, i3⟩
    | scan u f b e hl hu =>
      have := keep (u := u) (y := .run (.visit b e) ((scanFirst L f b e).bind fun x => .ret (visitOut e x)))
        (fun e' => h2 (.visit b e) (by rw [e'])) ⟨rfl, (bscanFirst_reads f b e).bind fun _ => trivial⟩
      exact ⟨this.1, p, this.2, i3⟩
    | next u f q k e hu hit =>
      have := keep (u := u) (y := .run (.visit (some (k, true)) e)
          ((scanNext L f q k e).bind fun x => .ret (visitOut e x)))
        (fun e' => h2 (.visit (some (k, true)) e) (by rw [e']))
        ⟨rfl, (bscanNext_reads f q k e).bind fun _ => trivial⟩
      exact ⟨this.1, p, this.2, i3⟩
    | retOp u o r hu =>
      have := keep (u := u) (y := .idle) (fun e => h3 (.op o) r.1 (by rw [e])) trivial
      exact ⟨this.1, p, this.2, i3⟩
    | retVisit u b e r hu =>
      have := keep (u := u) (y := .idle) (fun e' => h3 (.visit b e) r.1 (by rw [e'])) trivial
      exact ⟨this.1, p, this.2, i3⟩

end BwTree.Bytes
