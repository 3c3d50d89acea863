import Verif.Bytes.Solo
import Verif.Bytes.Run
import Verif.Conc.QuietOrder

/-!
# One thread on bytes and one thread on records (proof side)
-/

namespace BwTree.Bytes

open Layout (Mem BBound Enc)

set_option linter.unusedSectionVars false

variable {K V : Type} [LinearOrder K] {L : Lay} {OK : Chain K V → Prop}
  {Img : Chain K V → L.C → Prop} {NI : Node K V → L.N → Prop} {DI : Delta K V → L.D → Prop}
  {cfg : Cfg K} {e : Enc K V} {α β : Type}

/-! ## Steps on bytes -/

/-- Programs are finite. -/
theorem bstep_acc {C : Type} (q : BProg C α) : Acc (fun q' q => ∃ b b', BStep b q b' q') q := by
  have hub : Acc (fun q' q : BProg C α => ∃ b b', BStep b q b' q') .ub :=
    ⟨_, by rintro q' ⟨b, b', h⟩; cases h⟩
  induction q with
  | ret a => exact ⟨_, by rintro q' ⟨b, b', h⟩; cases h⟩
  | ub => exact hub
  | stuck => exact ⟨_, by rintro q' ⟨b, b', h⟩; cases h⟩
  | flag k => exact ⟨_, by rintro q' ⟨b, b', h⟩; cases h⟩
  | storeRoot p k ih => exact ⟨_, by rintro q' ⟨b, b', h⟩; cases h; exact ih⟩
  | store p c k ih => exact ⟨_, by rintro q' ⟨b, b', h⟩; cases h; exact ih⟩
  | storeCell w p k ih => exact ⟨_, by rintro q' ⟨b, b', h⟩; cases h; exact ih⟩
  | loadRoot k ih => exact ⟨_, by rintro q' ⟨b, b', h⟩; cases h; exact ih _⟩
  | casRoot o n k ih => exact ⟨_, by rintro q' ⟨b, b', h⟩; cases h <;> exact ih _⟩
  | load p k ih =>
    exact ⟨_, by
      rintro q' ⟨b, b', h⟩
      cases h with
      | load => exact ih _
      | loadNull => exact hub⟩
  | cas p o n k ih => exact ⟨_, by rintro q' ⟨b, b', h⟩; cases h <;> exact ih _⟩
  | check p o k ih => exact ⟨_, by rintro q' ⟨b, b', h⟩; cases h <;> exact ih _⟩
  | newPid k ih => exact ⟨_, by rintro q' ⟨b, b', h⟩; cases h; exact ih _⟩
  | newCell k ih => exact ⟨_, by rintro q' ⟨b, b', h⟩; cases h; exact ih _⟩
  | loadCell w k ih => exact ⟨_, by rintro q' ⟨b, b', h⟩; cases h; exact ih _⟩
  | alloc k ih => exact ⟨_, by rintro q' ⟨b, b', h⟩; cases h; exact ih _⟩

/-- Programs that do not go on. -/
def Halted {C : Type} : BProg C α → Prop
  | .ret _ | .ub | .stuck | .flag _ => True
  | _ => False

theorem bfirm_exists {C : Type} (b : BSh C) (q : BProg C α) (h : ¬ Halted q) :
    ∃ b' q', BFirm b q b' q' := by
  have mk : ∀ {b' q'}, BStep b q b' q' → (∀ p o n k, q ≠ .cas p o n k) → (∀ p o k, q ≠ .check p o k) →
      ∃ b' q', BFirm b q b' q' := fun hs h1 h2 =>
    ⟨_, _, hs, fun p o n k _ e => absurd e (h1 p o n k), fun p o k _ e => absurd e (h2 p o k)⟩
  cases q with
  | ret a => exact absurd trivial h
  | ub => exact absurd trivial h
  | stuck => exact absurd trivial h
  | flag k => exact absurd trivial h
  | loadRoot k => exact mk (.loadRoot _ _) (fun _ _ _ _ h => by cases h) fun _ _ _ h => by cases h
  | storeRoot p k => exact mk (.storeRoot _ _ _) (fun _ _ _ _ h => by cases h) fun _ _ _ h => by cases h
  | casRoot o n k =>
    by_cases hr : b.root = o
    · exact mk (.casRootOk _ _ _ _ hr) (fun _ _ _ _ h => by cases h) fun _ _ _ h => by cases h
    · exact mk (.casRootFail _ _ _ _ hr) (fun _ _ _ _ h => by cases h) fun _ _ _ h => by cases h
  | load p k =>
    cases hm : b.mt p with
    | none => exact mk (.loadNull _ _ _ hm) (fun _ _ _ _ h => by cases h) fun _ _ _ h => by cases h
    | some x => exact mk (.load _ _ _ _ hm) (fun _ _ _ _ h => by cases h) fun _ _ _ h => by cases h
  | store p c k => exact mk (.store _ _ _ _) (fun _ _ _ _ h => by cases h) fun _ _ _ h => by cases h
  | cas p o n k =>
    by_cases hm : ∃ x, b.mt p = some x ∧ x.id = o.id
    · obtain ⟨x, h1, h2⟩ := hm
      exact ⟨_, _, .casOk _ _ _ _ _ _ h1 h2, fun p' o' n' k' _ e _ _ => by cases e; exact ⟨rfl, rfl⟩,
        fun p' o' k' _ e => by cases e⟩
    · exact ⟨_, _, .casFail _ _ _ _ _,
        fun p' o' n' k' x e h1 h2 => by cases e; exact absurd ⟨x, h1, h2⟩ hm,
        fun p' o' k' _ e => by cases e⟩
  | check p o k =>
    by_cases hm : ∃ x, b.mt p = some x ∧ x.id = o.id
    · obtain ⟨x, h1, h2⟩ := hm
      exact ⟨_, _, .checkOk _ _ _ _ _ h1 h2, fun p' o' n' k' _ e => (by cases e),
        fun p' o' k' _ e _ _ => by cases e; rfl⟩
    · exact ⟨_, _, .checkFail _ _ _ _, fun p' o' n' k' _ e => (by cases e),
        fun p' o' k' x e h1 h2 => by cases e; exact absurd ⟨x, h1, h2⟩ hm⟩
  | newPid k => exact mk (.newPid _ _) (fun _ _ _ _ h => by cases h) fun _ _ _ h => by cases h
  | newCell k => exact mk (.newCell _ _) (fun _ _ _ _ h => by cases h) fun _ _ _ h => by cases h
  | loadCell w k => exact mk (.loadCell _ _ _) (fun _ _ _ _ h => by cases h) fun _ _ _ h => by cases h
  | storeCell w p k => exact mk (.storeCell _ _ _ _) (fun _ _ _ _ h => by cases h) fun _ _ _ h => by cases h
  | alloc k =>
    exact mk (.alloc _ _ fun _ => 0) (fun _ _ _ _ h => by cases h) fun _ _ _ h => by cases h

theorem BFirmRun.npid {b b' : BSh L.C} {q q' : BProg L.C α} (h : BFirmRun b q b' q') :
    b.npid ≤ b'.npid := by
  induction h with
  | refl => exact Nat.le_refl _
  | step f _ ih => exact Nat.le_trans f.step.npid ih

/-- A run that ends yields the result (or passes a state with `stop`). -/
theorem BEnds.run {stop : BSh L.C → Prop} {n : Nat} {Q : α → BSh L.C → Prop} {b b' : BSh L.C}
    {q : BProg L.C α} {a : α} (h : BEnds stop Q n b q) (hr : BFirmRun b q b' (.ret a)) :
    Q a b' ∨ ∃ b1 q1, BFirmRun b q b1 q1 ∧ BFirmRun b1 q1 b' (.ret a) ∧ stop b1 := by
  induction h with
  | @ret _ _ a' hq =>
    generalize hx : (BProg.ret a : BProg L.C α) = x at hr
    cases hr with
    | refl => cases hx; exact Or.inl hq
    | step f _ => cases f.step
  | full hl => exact Or.inr ⟨_, _, .refl _ _, hr, hl⟩
  | page _ ih =>
    generalize hx : (BProg.ret a : BProg L.C α) = x at hr
    cases hr with
    | refl => cases hx
    | step f hr =>
      subst hx
      have hs := f.step
      cases hs with
      | alloc _ m =>
        rcases ih m hr with h | ⟨b1, q1, h1, h2⟩
        · exact Or.inl h
        · exact Or.inr ⟨b1, q1, .step f h1, h2⟩
  | @step _ b q hex _ ih =>
    generalize hx : (BProg.ret a : BProg L.C α) = x at hr
    cases hr with
    | refl =>
      obtain ⟨_, _, f⟩ := hex
      subst hx
      cases f.step
    | step f hr =>
      subst hx
      rcases ih _ _ f hr with h | ⟨b1, q1, h1, h2⟩
      · exact Or.inl h
      · exact Or.inr ⟨b1, q1, .step f h1, h2⟩

/-- There is a run to the end. -/
theorem BEnds.exists {stop : BSh L.C → Prop} {n : Nat} {Q : α → BSh L.C → Prop} {b : BSh L.C}
    {q : BProg L.C α} (h : BEnds stop Q n b q) :
    ∃ b' q', BFirmRun b q b' q' ∧ (stop b' ∨ ∃ a, q' = .ret a ∧ Q a b') := by
  induction h with
  | ret hq => exact ⟨_, _, .refl _ _, Or.inr ⟨_, rfl, hq⟩⟩
  | full hl => exact ⟨_, _, .refl _ _, Or.inl hl⟩
  | page _ ih =>
    obtain ⟨b', q', h1, h2⟩ := ih fun _ => 0
    exact ⟨b', q', .step ⟨.alloc _ _ _, fun p' o' n' k' _ e => (by cases e),
      fun p' o' k' _ e => by cases e⟩ h1, h2⟩
  | step hex _ ih =>
    obtain ⟨b1, q1, f⟩ := hex
    obtain ⟨b', q', h1, h2⟩ := ih _ _ f
    exact ⟨b', q', .step f h1, h2⟩

theorem BEnds.mono {stop : BSh L.C → Prop} {n : Nat} {Q Q' : α → BSh L.C → Prop} {b : BSh L.C}
    {q : BProg L.C α} (h : BEnds stop Q n b q) (hq : ∀ a b, Q a b → Q' a b) : BEnds stop Q' n b q := by
  induction h with
  | ret h => exact .ret (hq _ _ h)
  | full h => exact .full h
  | page _ ih => exact .page ih
  | step h _ ih => exact .step h ih

/-! ## Simulation -/

theorem upd_id {γ : Type} {g : Nat → Option γ} {x : Nat} {y : γ} (h : g x = some y) :
    upd g x (some y) = g := by
  funext z
  by_cases ez : z = x
  · subst ez; rw [upd_same, h]
  · rw [upd_ne _ _ ez]

/-- Without other threads and without spurious failures, one access on bytes is one on records
without spurious failure. -/
theorem PSim.firm {P : α → β → Prop} {Q : β → BSh L.C → Prop} {hist : Nat → Chain K V} {s : Sh K V}
    {b b' : BSh L.C} {p : Prog K V α} {q q' : BProg L.C β} (hs : ShI Img hist s b)
    (hp : ∀ G, Agree hist b.nid G → PSim G OK Img P p q) (hq : Solo q Q b) (h : BFirm b q b' q')
    (hu : p ≠ .ub) (hok : ∀ x ch, s.mt x = some ch → OK ch) :
    ∃ hist' s' p', ((Firm s p s' p' ∧ ∀ k, q ≠ .alloc k) ∨ (s' = s ∧ p' = p ∧ ∃ k, q = .alloc k)) ∧
      ShI Img hist' s' b' ∧ ∀ G, Agree hist' b'.nid G → PSim G OK Img P p' q' := by
  have h0 := hp hist Agree.rfl
  cases q with
  | alloc k =>
    cases h.step with
    | alloc _ m =>
      refine ⟨hist, s, p, Or.inr ⟨rfl, rfl, _, rfl⟩, hs, fun G hG => ?_⟩
      have hg := hp G hG
      cases hg with
      | ub => exact absurd rfl hu
      | alloc h1 => exact h1 m
  | cas x o n k =>
    obtain ⟨e1, e2⟩ := h.cas _ _ _ _ _ rfl hq.1 rfl
    subst e1 e2
    cases h0 with
    | ub => exact absurd rfl hu
    | @cas _ oc _ nc _ k' _ g1 g2 _ _ =>
      obtain ⟨h3, h4, h5⟩ := hs.head x o hq.1
      rw [g1] at h4
      refine ⟨_, _, _, Or.inl ⟨.mk (.casOk s x oc nc k' h4) ?_, fun _ h => by cases h⟩,
        hs.publish g2 x, fun G hG => ?_⟩
      · intro x' o' n' k'' e _; cases e; exact ⟨rfl, rfl⟩
      · obtain ⟨i1, i2⟩ := Agree.upd hG
        have hg := hp G i1
        cases hg with
        | cas _ _ h6 _ => exact h6 (hok _ _ h4) _ ⟨i2, g2⟩ rfl
  | check x o k =>
    have e2 := h.check _ _ _ _ rfl hq.1 rfl
    have e1 : b' = b := by cases h.step <;> rfl
    subst e1 e2
    cases h0 with
    | ub => exact absurd rfl hu
    | @check _ oc _ k' _ g1 _ _ =>
      obtain ⟨h3, h4, h5⟩ := hs.head x o hq.1
      rw [g1] at h4
      refine ⟨hist, s, k' true, Or.inl ⟨.mk ?_ ?_, fun _ h => by cases h⟩, hs, fun G hG => ?_⟩
      · have := AStep.casOk s x oc oc k' h4
        rwa [show upd s.mt x (some oc) = s.mt from upd_id h4] at this
      · intro x' o' n' k'' e _
        cases e
        exact ⟨by rw [upd_id h4], rfl⟩
      · have hg := hp G hG
        cases hg with
        | check _ h6 _ => exact h6 (hok _ _ h4)
  | ret a => cases h.step
  | ub => cases h.step
  | stuck => cases h.step
  | flag k => cases h.step
  | _ =>
    obtain ⟨hist', s', p', h1, _, _, h4, h5⟩ := PSim.step hs hp h.step hu hok
    refine ⟨hist', s', p', ?_, h4, h5⟩
    rcases h1 with h1 | h1
    · refine Or.inl ⟨.mk h1 ?_, fun _ h => by cases h⟩
      rintro x' o' n' k'' rfl _
      cases h0
    · exact Or.inr h1

/-- What the model knows about a run of one thread. -/
def Safe (OK : Chain K V → Prop) (lim : Nat) (s : Sh K V) (p : Prog K V α) : Prop :=
  ∀ n s' p', FirmRun n s p s' p' →
    p' ≠ .ub ∧ (s'.npid ≤ lim → ∀ x ch, s'.mt x = some ch → OK ch)

theorem Safe.step {lim : Nat} {s s' : Sh K V} {p p' : Prog K V α} (h : Safe OK lim s p)
    (hf : Firm s p s' p') : Safe OK lim s' p' := fun _ _ _ hr => h _ _ _ (.step hf hr)

/-- A run on bytes is one on records. -/
theorem firm_sim {lim : Nat} {P : α → β → Prop} {Q : β → BSh L.C → Prop} {b b' : BSh L.C}
    {q q' : BProg L.C β} (hr : BFirmRun b q b' q') (hlim : b'.npid ≤ lim) :
    ∀ {hist : Nat → Chain K V} {s : Sh K V} {p : Prog K V α}, ShI Img hist s b →
    (∀ G, Agree hist b.nid G → PSim G OK Img P p q) → Solo q Q b → Safe OK lim s p →
    ∃ n hist' s' p', FirmRun n s p s' p' ∧ ShI Img hist' s' b' ∧
      (∀ G, Agree hist' b'.nid G → PSim G OK Img P p' q') ∧ Solo q' Q b' ∧ p' ≠ .ub := by
  induction hr with
  | refl b q =>
    intro hist s p hs hp hq hsafe
    exact ⟨0, hist, s, p, .refl _ _, hs, hp, hq, (hsafe _ _ _ (.refl _ _)).1⟩
  | step f hr ih =>
    intro hist s p hs hp hq hsafe
    obtain ⟨g1, g2⟩ := hsafe _ _ _ (.refl _ _)
    obtain ⟨hist1, s1, p1, h1, h2, h3⟩ := PSim.firm hs hp hq f g1
      (g2 (hs.npid ▸ Nat.le_trans (Nat.le_trans f.step.npid hr.npid) hlim))
    rcases h1 with ⟨h1, _⟩ | ⟨rfl, rfl, _⟩
    · obtain ⟨n, hist', s', p', i1, i2⟩ := ih hlim h2 h3 (hq.step f) (hsafe.step h1)
      exact ⟨n + 1, hist', s', p', .step h1 i1, i2⟩
    · exact ih hlim h2 h3 (hq.step f) hsafe

theorem _root_.BwTree.AStep.npid {s s' : Sh K V} {p p' : Prog K V α} (h : AStep s p s' p') :
    s.npid ≤ s'.npid := by
  cases h <;> first | exact Nat.le_refl _ | exact Nat.le_succ _

theorem _root_.BwTree.FirmRun.npid {n : Nat} {s s' : Sh K V} {p p' : Prog K V α}
    (h : FirmRun n s p s' p') : s.npid ≤ s'.npid := by
  induction h with
  | refl => exact Nat.le_refl _
  | step f _ ih => exact Nat.le_trans f.step.npid ih

/-- A program on bytes ends if the program on records does. -/
theorem ends_sim {lim : Nat} {stop : BSh L.C → Prop} {P : α → β → Prop} {Q : β → BSh L.C → Prop}
    {s1 : Sh K V} {a : α} (hstop : ∀ b' : BSh L.C, lim < b'.npid → b'.npid ≤ s1.npid → stop b')
    (q : BProg L.C β) : ∀ {n : Nat} {b : BSh L.C} {hist : Nat → Chain K V} {s : Sh K V}
    {p : Prog K V α}, ShI Img hist s b → (∀ G, Agree hist b.nid G → PSim G OK Img P p q) →
    Solo q Q b → Safe OK lim s p → FirmRun n s p s1 (.ret a) →
    BEnds stop (fun r b' => P a r ∧ Q r b' ∧ ∃ hist', ShI Img hist' s1 b') n b q := by
  induction bstep_acc q with
  | intro q _ ih =>
    intro n b hist s p hs hp hq hsafe hr
    have h0 := hp hist Agree.rfl
    obtain ⟨g1, g2⟩ := hsafe _ _ _ (.refl _ _)
    by_cases hl : lim < b.npid
    · exact .full (hstop b hl (hs.npid ▸ hr.npid))
    have hok := g2 (hs.npid ▸ Nat.le_of_not_lt hl)
    by_cases hh : Halted q
    · generalize hx : (Prog.ret a : Prog K V α) = x at hr
      cases h0 with
      | @ret a' r h1 =>
        cases hr with
        | refl => cases hx; exact .ret ⟨h1, hq, hist, hs⟩
        | step f _ => cases f.step
      | ub => exact absurd rfl g1
      | stuck =>
        cases hr with
        | refl => cases hx
        | step f _ => cases f.step
      | flag k =>
        cases hr with
        | refl => cases hx
        | step f _ => cases f.step
      | _ => exact hh.elim
    · by_cases ha : ∃ k, q = .alloc k
      · obtain ⟨k, rfl⟩ := ha
        refine .page fun m => ?_
        have f : BFirm b (.alloc k) b (k m) := ⟨.alloc _ _ _, fun p' o' n' k' _ e => (by cases e),
          fun p' o' k' _ e => by cases e⟩
        obtain ⟨hist1, s', p', h1, h2, h3⟩ := PSim.firm hs hp hq f g1 hok
        rcases h1 with ⟨_, h1⟩ | ⟨rfl, rfl, _⟩
        · exact absurd rfl (h1 k)
        · exact ih _ ⟨_, _, f.step⟩ h2 h3 (hq.step f) hsafe hr
      · have next : ∀ b' q', BFirm b q b' q' → ∃ hist1 s' p', Firm s p s' p' ∧
            ShI Img hist1 s' b' ∧ ∀ G, Agree hist1 b'.nid G → PSim G OK Img P p' q' := by
          intro b' q' f
          obtain ⟨hist1, s', p', h1, h2, h3⟩ := PSim.firm hs hp hq f g1 hok
          rcases h1 with ⟨h1, _⟩ | ⟨_, _, h1⟩
          · exact ⟨hist1, s', p', h1, h2, h3⟩
          · exact absurd h1 ha
        obtain ⟨b0, q0, f0⟩ := bfirm_exists b q hh
        obtain ⟨_, s0, p0, j1, _⟩ := next _ _ f0
        cases n with
        | zero =>
          generalize hx : (Prog.ret a : Prog K V α) = x at hr
          cases hr with
          | refl => subst hx; cases j1.step
        | succ n =>
          refine .step ⟨b0, q0, f0⟩ fun b' q' f => ?_
          obtain ⟨hist1, s', p', h1, h2, h3⟩ := next _ _ f
          exact ih _ ⟨_, _, f.step⟩ h2 h3 (hq.step f) (hsafe.step h1)
            (hr.prefix (.step h1 (.refl _ _))).2

/-! ## Sessions -/

/-- The bytes of a call with its return. -/
def callRet (e : Enc K V) (x : Spec.Call K V × Spec.Ret K V) : Spec.Call Str Str × Spec.Ret Str Str :=
  (call e x.1, rtn e x.2)

/-- The bytes of an iterator. -/
def iter (e : Enc K V) (x : PID × K × Spec.Bound K) : PID × Str × BBound :=
  (x.1, e.key x.2.1, e.bound x.2.2)

/-- What the model knows about the executions from a state with the shared memory `sh0` and no calls. -/
def ModelOK (cfg : Cfg K) (OK : Chain K V → Prop) (lim : Nat) (sh0 : Sh K V) : Prop :=
  ∃ S₀ : Sys K V, S₀.sh = sh0 ∧ (∀ u, S₀.th u = .idle) ∧
    (∀ h S, Run cfg S₀ h S → ∀ t c, S.th t ≠ .run c .ub) ∧
    ∀ h S, Run cfg S₀ h S → S.sh.npid ≤ lim → ∀ x ch, S.sh.mt x = some ch → OK ch

theorem ModelOK.start {lim : Nat} {sh0 : Sh K V}
    (h1 : ∀ h S, Run cfg (Sys.start sh0) h S → ∀ t c, S.th t ≠ .run c .ub)
    (h2 : ∀ h S, Run cfg (Sys.start sh0) h S → S.sh.npid ≤ lim → ∀ x ch, S.sh.mt x = some ch → OK ch) :
    ModelOK cfg OK lim sh0 := ⟨_, rfl, fun _ => rfl, h1, h2⟩

theorem safe_of {lim : Nat} {S₀ S : Sys K V}
    (hu : ∀ h S, Run cfg S₀ h S → ∀ t c, S.th t ≠ .run c .ub)
    (hok : ∀ h S, Run cfg S₀ h S → S.sh.npid ≤ lim → ∀ x ch, S.sh.mt x = some ch → OK ch)
    {h : List (Spec.Event K V)} (hr : Run cfg S₀ h S) {t : Nat} {c : Spec.Call K V}
    {p : Prog K V α} {g : α → Prog K V (Out K V)} (ht : S.th t = .run c (p.bind g))
    (hi : ∀ u, u ≠ t → S.th u = .idle) : Safe OK lim S.sh p := by
  intro n s' p' hf
  obtain ⟨S1, e1, e2, e3, _⟩ := hr.alone hf.alone rfl ht hi
  refine ⟨?_, fun hl => ?_⟩
  · rintro rfl
    exact hu _ _ e1 t c e3
  · rw [← e2] at hl ⊢
    exact hok _ _ e1 hl

theorem ModelOK.op {lim : Nat} {sh0 sh : Sh K V} (hm : ModelOK cfg OK lim sh0)
    {l : List (Spec.Call K V × Spec.Ret K V)} {it : Option (PID × K × Spec.Bound K)}
    (h : Session cfg sh0 l sh it) (f : Nat) (o : Spec.Op K V) : Safe OK lim sh (BwTree.runOp cfg f o) := by
  obtain ⟨S₀, rfl, hq, hu, hok⟩ := hm
  obtain ⟨S, h1, rfl, h3, _⟩ := h.runFrom .nil hq 0
  exact safe_of hu hok (h1.event (.op S 0 f o (h3 0))) (upd_same _ _ _)
    (fun u hu => by simp only [upd_ne _ _ hu]; exact h3 u)

theorem ModelOK.scan {lim : Nat} {sh0 sh : Sh K V} (hm : ModelOK cfg OK lim sh0)
    {l : List (Spec.Call K V × Spec.Ret K V)} {it : Option (PID × K × Spec.Bound K)}
    (h : Session cfg sh0 l sh it) (f : Nat) (b x : Spec.Bound K) :
    Safe OK lim sh (BwTree.scanFirst cfg f b x) := by
  obtain ⟨S₀, rfl, hq, hu, hok⟩ := hm
  obtain ⟨S, h1, rfl, h3, _⟩ := h.runFrom .nil hq 0
  exact safe_of hu hok (h1.event (.scan S 0 f b x (h3 0))) (upd_same _ _ _)
    (fun u hu => by simp only [upd_ne _ _ hu]; exact h3 u)

theorem ModelOK.next {lim : Nat} {sh0 sh : Sh K V} (hm : ModelOK cfg OK lim sh0)
    {l : List (Spec.Call K V × Spec.Ret K V)} {p : PID} {k : K} {x : Spec.Bound K}
    (h : Session cfg sh0 l sh (some (p, k, x))) (f : Nat) :
    Safe OK lim sh (BwTree.scanNext cfg f p k x) := by
  obtain ⟨S₀, rfl, hq, hu, hok⟩ := hm
  obtain ⟨S, h1, rfl, h3, h4⟩ := h.runFrom .nil hq 0
  exact safe_of hu hok (h1.event (.next S 0 f p k x (h3 0) (h4 _ rfl))) (upd_same _ _ _)
    (fun u hu => by simp only [upd_ne _ _ hu]; exact h3 u)

/-- Sessions on bytes are sessions on records. -/
theorem session_sim (hL : LayOK cfg e L OK Img NI DI) {legal : Spec.Call Str Str → Prop}
    (hlegal : ∀ c, legal c → ∃ c', c = call e c') {lim : Nat} {sh0 : Sh K V} {b0 b : BSh L.C}
    {hist0 : Nat → Chain K V} (h0 : ShI Img hist0 sh0 b0) (hm : ModelOK cfg OK lim sh0)
    {l : List (Spec.Call Str Str × Spec.Ret Str Str)} {it : Option (PID × Str × BBound)}
    (h : BSession L legal b0 l b it) (hlim : b.npid ≤ lim) :
    ∃ l' sh it' hist, l = l'.map (callRet e) ∧ it = it'.map (iter e) ∧ Session cfg sh0 l' sh it' ∧
      ShI Img hist sh b := by
  have key : ∀ {α β : Type} {P : α → β → Prop} {Q : β → BSh L.C → Prop} {b b' : BSh L.C} {q : BProg L.C β}
      {r : β} {hist : Nat → Chain K V} {s : Sh K V} {p : Prog K V α},
      BFirmRun b q b' (.ret r) → b'.npid ≤ lim → ShI Img hist s b →
      (∀ G, Agree hist b.nid G → PSim G OK Img P p q) → Solo q Q b → Safe OK lim s p →
      ∃ n hist' s' a, FirmRun n s p s' (.ret a) ∧ ShI Img hist' s' b' ∧ P a r := by
    intro α β P Q b b' q r hist s p hr hl hs hp hq hsafe
    obtain ⟨n, hist', s', p', g1, g2, g3, _, g4⟩ := firm_sim hr hl hs hp hq hsafe
    have := g3 hist' Agree.rfl
    cases this with
    | ub => exact absurd rfl g4
    | ret h => exact ⟨n, hist', s', _, g1, g2, h⟩
  induction h with
  | start => exact ⟨[], sh0, none, hist0, rfl, rfl, .start, h0⟩
  | @op l b b' it f o r h hl hf ih =>
    obtain ⟨l', sh, it', hist, e1, e2, e3, e4⟩ := ih (Nat.le_trans hf.npid hlim)
    obtain ⟨c, hc⟩ := hlegal _ hl
    obtain ⟨o', rfl, rfl⟩ := call_op hc
    obtain ⟨n, hist', s', a, g1, g2, g3⟩ := key hf hlim e4 (fun G _ => runOp_psim hL f o')
      (runOp_solo f _ b) (hm.op e3 f o')
    subst g3
    exact ⟨l' ++ [(.op o', .res a)], s', it', hist', by rw [e1, List.map_append]; rfl, e2, e3.op g1.loose, g2⟩
  | @scan l b b' it f bb eb x h hl hf ih =>
    obtain ⟨l', sh, it', hist, e1, e2, e3, e4⟩ := ih (Nat.le_trans hf.npid hlim)
    obtain ⟨c, hc⟩ := hlegal _ hl
    obtain ⟨bb', eb', rfl, rfl, rfl⟩ := call_visit hc
    obtain ⟨n, hist', s', a, g1, g2, g3⟩ := key hf hlim e4 (fun G _ => scanFirst_psim hL f bb' eb')
      (scanFirst_solo f _ _ b) (hm.scan e3 f bb' eb')
    subst g3
    have hv := visitOut_enc (e := e) eb' a
    refine ⟨l' ++ [(.visit bb' eb', (BwTree.visitOut eb' a).1)], s', (BwTree.visitOut eb' a).2, hist',
      ?_, ?_, e3.scan g1.loose, g2⟩
    · rw [e1, List.map_append, hv]; rfl
    · rw [hv]; rfl
  | @next l b b' f p k eb x h hf ih =>
    obtain ⟨l', sh, it', hist, e1, e2, e3, e4⟩ := ih (Nat.le_trans hf.npid hlim)
    match it', e2 with
    | some (p', k', eb'), e2 =>
    cases e2
    obtain ⟨n, hist', s', a, g1, g2, g3⟩ := key hf hlim e4 (fun G _ => scanNext_psim hL f p' k' eb')
      (scanNext_solo f _ _ _ b) (hm.next e3 f)
    subst g3
    have hv := visitOut_enc (e := e) eb' a
    refine ⟨l' ++ [(.visit (some (k', true)) eb', (BwTree.visitOut eb' a).1)], s',
      (BwTree.visitOut eb' a).2, hist', ?_, ?_, e3.next g1.loose, g2⟩
    · rw [e1, List.map_append, hv]; rfl
    · rw [hv]; rfl

end BwTree.Bytes
