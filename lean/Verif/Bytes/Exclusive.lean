import Verif.Bytes.Readers
import Verif.Bytes.SoloTree
import Verif.Conc.Exclusive

/-!
# Writes that overlap with no other call, on bytes (helper lemmas)

Compare `Conc/Exclusive`.
-/

namespace BwTree.Bytes

open Layout (Mem BBound Enc)

set_option linter.unusedSectionVars false

/-! ## Programs of one thread are fine -/

/-- The program stands at no undefined behaviour and no event of `Flag`. -/
def BProg.Fine {C α : Type} (p : BProg C α) : Prop := p ≠ .ub ∧ ∀ k, p ≠ .flag k

theorem BProg.Fine.bind {C α β : Type} {p : BProg C α} (h : p.Fine) {g : α → BProg C β}
    (hg : ∀ a, ∃ b, g a = .ret b) : (p.bind g).Fine := by
  cases p with
  | ub => exact absurd rfl h.1
  | flag k => exact absurd rfl (h.2 k)
  | ret a => obtain ⟨b, hb⟩ := hg a; simp only [BProg.bind, hb]; exact ⟨nofun, nofun⟩
  | _ => exact ⟨nofun, nofun⟩

section
variable {K V : Type} [LinearOrder K] {cfg : Cfg K} {e : Enc K V} {L : Lay}
  {Img : Chain K V → L.C → Prop} {NI : Node K V → L.N → Prop} {DI : Delta K V → L.D → Prop}
  {legal : Spec.Call Str Str → Prop} {lt : Str → Str → Bool} {lim : Nat} {m : K → Option V}
  {M : Str → Option Str} {b0 : BSh L.C} {OK : Chain K V → Prop}

theorem psim_fine {α β : Type} {G : Nat → Chain K V} {P : α → β → Prop} {p : Prog K V α} {q : BProg L.C β}
    (h : PSim G OK Img P p q) (hp : p.Fine) : q.Fine := by
  cases h with
  | ub => exact absurd rfl hp.1
  | flag k => exact absurd rfl (hp.2 k)
  | _ => exact ⟨nofun, nofun⟩

variable (S : Setup cfg e L OK Img NI DI legal lt lim m M b0)
include S

theorem Setup.op_fine {l : List (Spec.Call Str Str × Spec.Ret Str Str)} {b b' : BSh L.C}
    {it : Option (PID × Str × BBound)} (h : BSession L legal b0 l b it) {o : Spec.Op Str Str}
    (ho : legal (.op o)) {f : Nat} {q : BProg L.C (Spec.Res Str)} (hr : BFirmRun b (runOp L f o) b' q)
    (hlim : b'.npid ≤ lim) : q.Fine := by
  obtain ⟨sh0, l', sh, it', hist, h1, h2, rfl, _, h4, h5⟩ := S.sim h (Nat.le_trans hr.npid hlim)
  obtain ⟨c, hc⟩ := S.legal _ ho
  obtain ⟨o', rfl, rfl⟩ := call_op hc
  obtain ⟨n, hist', s', p', g1, _, g3, _⟩ := firm_sim hr hlim h5 (fun G _ => runOp_psim S.lay f o')
    (runOp_solo f _ b) (h2.op h4 f o')
  obtain ⟨s, rfl, hs⟩ := h1.rested h4
  exact psim_fine (g3 hist' Agree.rfl) (hs.op_fine S.room S.ok g1.loose)

theorem Setup.scan_fine {l : List (Spec.Call Str Str × Spec.Ret Str Str)} {b b' : BSh L.C}
    {it : Option (PID × Str × BBound)} (h : BSession L legal b0 l b it) {bb eb : BBound}
    (ho : legal (.visit bb eb)) {f : Nat} {q : BProg L.C (List (Str × Str) × Option (Str × PID))}
    (hr : BFirmRun b (scanFirst L f bb eb) b' q) (hlim : b'.npid ≤ lim) : q.Fine := by
  obtain ⟨sh0, l', sh, it', hist, h1, h2, rfl, _, h4, h5⟩ := S.sim h (Nat.le_trans hr.npid hlim)
  obtain ⟨c, hc⟩ := S.legal _ ho
  obtain ⟨bb', eb', rfl, rfl, rfl⟩ := call_visit hc
  obtain ⟨n, hist', s', p', g1, _, g3, _⟩ := firm_sim hr hlim h5
    (fun G _ => scanFirst_psim S.lay f bb' eb') (scanFirst_solo f _ _ b) (h2.scan h4 f bb' eb')
  obtain ⟨s, rfl, ⟨fl, r2⟩, r3, _⟩ := h1.rested h4
  exact psim_fine (g3 hist' Agree.rfl) (fine_of (scanFirst_ext (Nat.le_max_left _ _)) g1.loose fun q' h =>
    rt_goes (scanFirst_tot S.ok r2 r3 (Nat.le_max_right _ _)) h)

theorem Setup.next_fine {l : List (Spec.Call Str Str × Spec.Ret Str Str)} {b b' : BSh L.C}
    {p : PID} {k : Str} {eb : BBound} (h : BSession L legal b0 l b (some (p, k, eb)))
    {f : Nat} {q : BProg L.C (List (Str × Str) × Option (Str × PID))}
    (hr : BFirmRun b (scanNext L f p k eb) b' q) (hlim : b'.npid ≤ lim) : q.Fine := by
  obtain ⟨sh0, l', sh, it', hist, h1, h2, rfl, hit, h4, h5⟩ := S.sim h (Nat.le_trans hr.npid hlim)
  cases it' with
  | none => cases hit
  | some z =>
    obtain ⟨p', k', eb'⟩ := z
    cases hit
    obtain ⟨n, hist', s', q', g1, _, g3, _⟩ := firm_sim hr hlim h5
      (fun G _ => scanNext_psim S.lay f p' k' eb') (scanNext_solo f _ _ _ b) (h2.next h4 f)
    obtain ⟨s, rfl, ⟨fl, r2⟩, r3, r4⟩ := h1.rested h4
    exact psim_fine (g3 hist' Agree.rfl) (fine_of (scanNext_ext (Nat.le_max_left _ _)) g1.loose fun q' h =>
      rt_goes (scanNext_tot S.ok r2 r3 (Nat.le_max_right _ _) (r4 p' k' eb' rfl)) h)

end

/-! ## Executions -/

variable {L : Lay} {legal : Spec.Call Str Str → Prop}

/-- Active calls have been called and have not returned. -/
theorem BRun.active {S₀ S : BSys L} {h : List (Spec.Event Str Str)} (h0 : ∀ t, S₀.th t = .idle)
    (hr : BRun L legal S₀ h S) : ∀ t c p, S.th t = .run c p →
    ∃ h1 h2, h = h1 ++ .inv t c :: h2 ∧ ∀ c' r, .ret t c' r ∉ h2 := by
  have keep : ∀ {h : List (Spec.Event Str Str)} {S : BSys L} {e : Spec.Event Str Str} {u t : Nat} {c p},
      (∀ t c p, S.th t = .run c p → ∃ h1 h2, h = h1 ++ .inv t c :: h2 ∧ ∀ c' r, .ret t c' r ∉ h2) →
      t ≠ u → (∀ c r, e ≠ .ret t c r) → S.th t = .run c p →
      ∃ h1 h2, h ++ [e] = h1 ++ .inv t c :: h2 ∧ ∀ c' r, .ret t c' r ∉ h2 := by
    intro h S e u t c p ih hne he ht
    obtain ⟨h1, h2, e1, e2⟩ := ih t c p ht
    refine ⟨h1, h2 ++ [e], by simp [e1], fun c' r hm => ?_⟩
    rcases List.mem_append.mp hm with hm | hm
    · exact e2 c' r hm
    · exact he c' r (List.mem_singleton.mp hm).symm
  induction hr with
  | nil => intro t c p ht; rw [h0 t] at ht; cases ht
  | tau _ hs ih =>
    intro t c p ht
    cases hs with
    | step u c' x x' sh' hu _ =>
      by_cases e : t = u
      · subst e
        simp only [upd_same] at ht
        cases ht
        exact ih _ _ _ hu
      · simp only [upd_ne _ _ e] at ht
        exact ih _ _ _ ht
  | @event h S S' e _ hs ih =>
    intro t c p ht
    cases hs with
    | op u f o _ hu =>
      by_cases e : t = u
      · subst e
        simp only [upd_same] at ht
        cases ht
        exact ⟨h, [], by simp, by simp⟩
      · simp only [upd_ne _ _ e] at ht
        exact keep ih e (by intros; simp) ht
    | scan u f b e' _ hu =>
      by_cases e : t = u
      · subst e
        simp only [upd_same] at ht
        cases ht
        exact ⟨h, [], by simp, by simp⟩
      · simp only [upd_ne _ _ e] at ht
        exact keep ih e (by intros; simp) ht
    | next u f q k e' hu hit =>
      by_cases e : t = u
      · subst e
        simp only [upd_same] at ht
        cases ht
        exact ⟨h, [], by simp, by simp⟩
      · simp only [upd_ne _ _ e] at ht
        exact keep ih e (by intros; simp) ht
    | retOp u o r hu =>
      by_cases e : t = u
      · subst e
        simp only [upd_same] at ht
        cases ht
      · simp only [upd_ne _ _ e] at ht
        exact keep ih e (by intro c r h; cases h; exact e rfl) ht
    | retVisit u b e' r hu =>
      by_cases e : t = u
      · subst e
        simp only [upd_same] at ht
        cases ht
      · simp only [upd_ne _ _ e] at ht
        exact keep ih e (by intro c r h; cases h; exact e rfl) ht

/-- Calls after which a map is the same. -/
def SameMap (l l' : List (Spec.Call Str Str × Spec.Ret Str Str)) : Prop :=
  ∀ M : Str → Option Str,
    Spec.mapAfterAll M (l.map Prod.fst) = Spec.mapAfterAll M (l'.map Prod.fst)

theorem SameMap.app {l l' : List (Spec.Call Str Str × Spec.Ret Str Str)} (h : SameMap l l')
    (x : List (Spec.Call Str Str × Spec.Ret Str Str)) : SameMap (l ++ x) (l' ++ x) := by
  intro M
  rw [List.map_append, List.map_append, Spec.mapAfterAll_append, Spec.mapAfterAll_append, h M]

theorem SameMap.visit {l l' : List (Spec.Call Str Str × Spec.Ret Str Str)} (h : SameMap l l')
    (b e : BBound) (r : Spec.Ret Str Str) : SameMap (l ++ [(.visit b e, r)]) l' := by
  intro M
  rw [List.map_append, Spec.mapAfterAll_append, h M]; rfl

/-- What a thread in a call that only reads has done, when the shared memory has not changed
meanwhile; `w` are the writes until now. -/
inductive BReadPart (L : Lay) (legal : Spec.Call Str Str → Prop) (b0 : BSh L.C)
    (w : List (Spec.Call Str Str × Spec.Ret Str Str)) (b : BSh L.C) :
    Spec.Call Str Str → BProg L.C BOut → Prop
  | op {f : Nat} {o : Spec.Op Str Str} {q : BProg L.C (Spec.Res Str)} : o.isWrite = false →
      legal (.op o) → BFirmRun b (runOp L f o) b q → q.ReadsOnly →
      BReadPart L legal b0 w b (.op o) (q.bind fun r => .ret (.res r, none))
  | scan {f : Nat} {bb e : BBound} {q : BProg L.C (List (Str × Str) × Option (Str × PID))} :
      legal (.visit bb e) → BFirmRun b (scanFirst L f bb e) b q → q.ReadsOnly →
      BReadPart L legal b0 w b (.visit bb e) (q.bind fun x => .ret (visitOut e x))
  | next {f : Nat} {p : PID} {k : Str} {e : BBound} {l : List (Spec.Call Str Str × Spec.Ret Str Str)}
      {q : BProg L.C (List (Str × Str) × Option (Str × PID))} :
      BSession L legal b0 l b (some (p, k, e)) → SameMap l w →
      BFirmRun b (scanNext L f p k e) b q → q.ReadsOnly →
      BReadPart L legal b0 w b (.visit (some (k, true)) e) (q.bind fun x => .ret (visitOut e x))

theorem breadsOnly_bind_inv {α : Type} {b b' b1 : BSh L.C} {P p : BProg L.C α}
    {g : α → BProg L.C BOut} {q : BProg L.C BOut} (hg : ∀ a, ∃ b, g a = .ret b)
    (hl : BFirmRun b1 P b p) (hp : p.ReadsOnly) (hs : BFirm b (p.bind g) b' q) :
    b' = b ∧ ∃ p', q = p'.bind g ∧ BFirmRun b1 P b p' ∧ p'.ReadsOnly := by
  obtain ⟨p', e1, rfl⟩ := hs.bindInv hg
  obtain ⟨rfl, e3⟩ := hp.step e1.step
  exact ⟨rfl, p', rfl, hl.snoc e1, e3⟩

theorem BReadPart.step {b0 b b' : BSh L.C} {w : List (Spec.Call Str Str × Spec.Ret Str Str)}
    {c : Spec.Call Str Str} {p p' : BProg L.C BOut} (h : BReadPart L legal b0 w b c p)
    (hs : BFirm b p b' p') : b' = b ∧ BReadPart L legal b0 w b c p' := by
  cases h with
  | op hw hl hr hq =>
    obtain ⟨e1, q', rfl, e2, e3⟩ := breadsOnly_bind_inv (fun a => ⟨_, rfl⟩) hr hq hs
    exact ⟨e1, .op hw hl e2 e3⟩
  | scan hl hr hq =>
    obtain ⟨e1, q', rfl, e2, e3⟩ := breadsOnly_bind_inv (fun a => ⟨_, rfl⟩) hr hq hs
    exact ⟨e1, .scan hl e2 e3⟩
  | next hl hm hr hq =>
    obtain ⟨e1, q', rfl, e2, e3⟩ := breadsOnly_bind_inv (fun a => ⟨_, rfl⟩) hr hq hs
    exact ⟨e1, .next hl hm e2 e3⟩

/-- The iterator that a visit returns. -/
theorem BReadPart.it {b0 b : BSh L.C} {w : List (Spec.Call Str Str × Spec.Ret Str Str)} {bb e : BBound}
    {r : BOut} (hw : BSession L legal b0 w b none) (h : BReadPart L legal b0 w b (.visit bb e) (.ret r)) :
    ∃ l, BSession L legal b0 l b r.2 ∧ SameMap l w := by
  generalize hp : (BProg.ret r : BProg L.C BOut) = p at h
  cases h with
  | scan hl hr hq =>
    obtain ⟨a, rfl, e⟩ := bret_of_bind hp.symm
    cases e
    exact ⟨_, hw.scan hl hr, SameMap.visit (fun _ => rfl) _ _ _⟩
  | next hl hm hr hq =>
    obtain ⟨a, rfl, e⟩ := bret_of_bind hp.symm
    cases e
    exact ⟨_, hl.next hr, hm.visit _ _ _⟩

/-- What holds in executions in which writes exclude all other calls. -/
structure BExcl (L : Lay) (legal : Spec.Call Str Str → Prop) (b0 : BSh L.C)
    (h : List (Spec.Event Str Str)) (S : BSys L) : Prop where
  state : ∃ b1, BSession L legal b0 (Spec.writesDone h) b1 none ∧
    (∀ t, ∃ l, BSession L legal b0 l b1 (S.it t) ∧ SameMap l (Spec.writesDone h)) ∧
    ((S.sh = b1 ∧ ∀ t c p, S.th t = .run c p → BReadPart L legal b0 (Spec.writesDone h) b1 c p) ∨
      ∃ t o, Spec.Op.isWrite o = true ∧ legal (.op o) ∧ BWriting b1 S t o ∧ ∀ u, u ≠ t → S.th u = .idle)

theorem bexclusive_call {S₀ S : BSys L} {h : List (Spec.Event Str Str)} (h0 : ∀ t, S₀.th t = .idle)
    (hr : BSureRun L legal S₀ h S) {t : Nat} {c : Spec.Call Str Str}
    (he : Spec.Exclusive (h ++ [.inv t c])) {u : Nat} {c' : Spec.Call Str Str} {p : BProg L.C BOut}
    (hu : S.th u = .run c' p) : c'.isWrite = false ∧ c.isWrite = false := by
  obtain ⟨h1, h2, e1, e2⟩ := hr.run.active h0 u c' p hu
  by_contra hn
  have hn : c'.isWrite = true ∨ c.isWrite = true := by
    rcases Bool.eq_false_or_eq_true c'.isWrite with a | a
    · exact Or.inl a
    · rcases Bool.eq_false_or_eq_true c.isWrite with b | b
      · exact Or.inr b
      · exact absurd ⟨a, b⟩ hn
  obtain ⟨r, hm⟩ := he h1 h2 [] u t c' c (by simp [e1]) hn
  exact e2 _ _ hm

theorem bupd_run {th : Nat → BTSt L} {t u : Nat} {x : BTSt L} {P : Spec.Call Str Str → BProg L.C BOut → Prop}
    (h : ∀ t c p, th t = .run c p → P c p) (hx : ∀ c p, x = .run c p → P c p) {c p}
    (hu : upd th t x u = .run c p) : P c p := by
  by_cases e : u = t
  · subst e
    rw [upd_same] at hu
    exact hx c p hu
  · rw [upd_ne _ _ e] at hu
    exact h u c p hu

theorem writesDone_inv (h : List (Spec.Event Str Str)) (t : Nat) (c : Spec.Call Str Str) :
    Spec.writesDone (h ++ [.inv t c]) = Spec.writesDone h := by
  rw [Spec.writesDone_append]
  simp [Spec.writesDone]

theorem writesDone_read (h : List (Spec.Event Str Str)) (t : Nat) {c : Spec.Call Str Str}
    (hc : c.isWrite = false) (r : Spec.Ret Str Str) :
    Spec.writesDone (h ++ [.ret t c r]) = Spec.writesDone h := by
  rw [Spec.writesDone_append]
  simp [Spec.writesDone, hc]

theorem BReadPart.read {b0 b : BSh L.C} {w : List (Spec.Call Str Str × Spec.Ret Str Str)}
    {c : Spec.Call Str Str} {p : BProg L.C BOut} (h : BReadPart L legal b0 w b c p) :
    c.isWrite = false := by
  cases h with
  | op h => exact h
  | _ => rfl

theorem BExcl.step {S₀ : BSys L} (h0 : ∀ t, S₀.th t = .idle) {h : List (Spec.Event Str Str)}
    {S S' : BSys L} {l : Option (Spec.Event Str Str)} (hr : BSureRun L legal S₀ h S)
    (hx : BExcl L legal S₀.sh h S) (hst : BSureStep L legal S l S')
    (he : Spec.Exclusive (h ++ l.toList)) : BExcl L legal S₀.sh (h ++ l.toList) S' := by
  obtain ⟨b1, g1, g2, g3⟩ := hx
  have call : ∀ {t : Nat} {c : Spec.Call Str Str}, Spec.Exclusive (h ++ [.inv t c]) →
      (S.sh = b1 ∧ ∀ t c p, S.th t = .run c p →
        BReadPart L legal S₀.sh (Spec.writesDone h) b1 c p) ∧
        (c.isWrite = true → ∀ u, S.th u = .idle) := by
    intro t c he
    refine ⟨?_, fun hw u => ?_⟩
    · rcases g3 with g3 | ⟨w, o, g3, _, ⟨f, p, e1, _⟩, _⟩
      · exact g3
      · have := (bexclusive_call h0 hr he e1).1
        rw [Spec.Call.isWrite, g3] at this
        cases this
    · cases hu : S.th u with
      | idle => rfl
      | run c' p =>
        have := (bexclusive_call h0 hr he hu).2
        rw [hw] at this; cases this
  cases hst with
  | access t c p p' sh' ht hp =>
    show BExcl L legal S₀.sh (h ++ []) _
    rw [List.append_nil]
    rcases g3 with ⟨g3, g4⟩ | ⟨w, o, g3, gl, ⟨f, q, e1, e2⟩, g4⟩
    · rw [g3] at hp
      obtain ⟨e1, e2⟩ := (g4 t c p ht).step hp
      refine ⟨b1, g1, g2, Or.inl ⟨e1, fun u c' p' hu => bupd_run g4 ?_ hu⟩⟩
      intro c1 p1 h1; cases h1; exact e2
    · have hw : t = w := by
        by_contra hne
        rw [g4 t hne] at ht; cases ht
      subst hw
      rw [e1] at ht
      cases ht
      obtain ⟨q', e3, rfl⟩ := hp.bindInv (fun a => ⟨_, rfl⟩)
      exact ⟨b1, g1, g2, Or.inr ⟨t, o, g3, gl, ⟨f, q', upd_same _ _ _, e2.snoc e3⟩,
        fun u hu => by simp only [upd_ne _ _ hu]; exact g4 u hu⟩⟩
  | event hst =>
    cases hst with
    | op t f o hl ht =>
      obtain ⟨⟨c1, c2⟩, c3⟩ := call he
      have hd := writesDone_inv h t (.op o)
      cases hw : o.isWrite with
      | false =>
        refine ⟨b1, by rw [Option.toList, hd]; exact g1, by rw [Option.toList, hd]; exact g2,
          Or.inl ⟨c1, fun u c' p' hu => ?_⟩⟩
        rw [Option.toList, hd]
        refine bupd_run c2 ?_ hu
        intro c1 p1 h1; cases h1
        exact .op hw hl (.refl _ _) (bread_reads f o hw)
      | true =>
        refine ⟨b1, by rw [Option.toList, hd]; exact g1, by rw [Option.toList, hd]; exact g2,
          Or.inr ⟨t, o, hw, hl, ⟨f, _, upd_same _ _ _, by rw [← c1]; exact .refl _ _⟩, fun u hu => ?_⟩⟩
        simp only [upd_ne _ _ hu]
        exact c3 hw u
    | scan t f b e hl ht =>
      obtain ⟨⟨c1, c2⟩, _⟩ := call he
      have hd := writesDone_inv h t (.visit b e)
      refine ⟨b1, by rw [Option.toList, hd]; exact g1, by rw [Option.toList, hd]; exact g2,
        Or.inl ⟨c1, fun u c' p' hu => ?_⟩⟩
      rw [Option.toList, hd]
      refine bupd_run c2 ?_ hu
      intro c1 p1 h1; cases h1
      exact .scan hl (.refl _ _) (bscanFirst_reads _ _ _)
    | next t f p k e ht hit =>
      obtain ⟨⟨c1, c2⟩, _⟩ := call he
      have hd := writesDone_inv h t (.visit (some (k, true)) e)
      refine ⟨b1, by rw [Option.toList, hd]; exact g1, by rw [Option.toList, hd]; exact g2,
        Or.inl ⟨c1, fun u c' p' hu => ?_⟩⟩
      rw [Option.toList, hd]
      refine bupd_run c2 ?_ hu
      intro c1 p1 h1; cases h1
      obtain ⟨l, k1, k2⟩ := g2 t
      rw [hit] at k1
      exact .next k1 k2 (.refl _ _) (bscanNext_reads _ _ _ _)
    | retOp t o r ht =>
      rcases g3 with ⟨g3, g4⟩ | ⟨w, o', g3, gl, ⟨f, q, e1, e2⟩, g4⟩
      · have hd := writesDone_read h t (g4 _ _ _ ht).read r.1
        refine ⟨b1, by rw [Option.toList, hd]; exact g1, by rw [Option.toList, hd]; exact g2,
          Or.inl ⟨g3, fun u c' p' hu => ?_⟩⟩
        rw [Option.toList, hd]
        refine bupd_run g4 ?_ hu
        intro c1 p1 h1; cases h1
      · have hw : t = w := by
          by_contra hne
          rw [g4 t hne] at ht; cases ht
        subst hw
        rw [e1] at ht
        injection ht with ht1 ht2
        cases ht1
        obtain ⟨a, rfl, e3⟩ := bret_of_bind ht2
        cases e3
        have hd : Spec.writesDone (h ++ [.ret t (.op o) (.res a)]) =
            Spec.writesDone h ++ [(.op o, .res a)] := by
          rw [Spec.writesDone_append]
          have : Spec.Call.isWrite (.op o : Spec.Call Str Str) = true := g3
          simp [Spec.writesDone, this]
        refine ⟨S.sh, by rw [Option.toList, hd]; exact g1.op gl e2, fun u => ?_, Or.inl ⟨rfl, fun u c p hu => ?_⟩⟩
        · obtain ⟨l, k1, k2⟩ := g2 u
          rw [Option.toList, hd]
          exact ⟨_, k1.op gl e2, k2.app _⟩
        · by_cases e : u = t
          · subst e; simp only [upd_same] at hu; cases hu
          · simp only [upd_ne _ _ e] at hu
            rw [g4 u e] at hu; cases hu
    | retVisit t b e r ht =>
      rcases g3 with ⟨g3, g4⟩ | ⟨w, o', g3, gl, ⟨f, q, e1, e2⟩, g4⟩
      · have hd := writesDone_read h t (g4 _ _ _ ht).read r.1
        refine ⟨b1, by rw [Option.toList, hd]; exact g1, fun u => ?_, Or.inl ⟨g3, fun u c' p' hu => ?_⟩⟩
        · rw [Option.toList, hd]
          by_cases e' : u = t
          · subst e'; simp only [upd_same]; exact (g4 _ _ _ ht).it g1
          · simp only [upd_ne _ _ e']; exact g2 u
        · rw [Option.toList, hd]
          refine bupd_run g4 ?_ hu
          intro c1 p1 h1; cases h1
      · exfalso
        by_cases hne : t = w
        · subst hne; rw [e1] at ht; cases ht
        · rw [g4 t hne] at ht; cases ht

theorem BSureRun.excl {S₀ S : BSys L} (h0 : ∀ t, S₀.th t = .idle) (h1 : ∀ t, S₀.it t = none)
    {h : List (Spec.Event Str Str)} (hr : BSureRun L legal S₀ h S) (he : Spec.Exclusive h) :
    BExcl L legal S₀.sh h S := by
  induction hr with
  | nil =>
    exact ⟨S₀.sh, .start, fun t => ⟨[], by rw [h1 t]; exact .start, fun _ => rfl⟩,
      Or.inl ⟨rfl, fun t c p e => by rw [h0 t] at e; cases e⟩⟩
  | tau hr hs ih => simpa using (ih he).step h0 hr hs (by simpa using he)
  | event hr hs ih => exact (ih he.left).step h0 hr hs he

end BwTree.Bytes
