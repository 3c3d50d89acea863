import Verif.Conc.SeqInit
import Verif.Conc.Solo

/-!
# Executions of one thread (helper lemmas)
-/

namespace BwTree

set_option linter.unusedSectionVars false

variable {K V : Type} [LinearOrder K] {cfg : Cfg K} {fl : Nat → Option PID} {F : Nat}
  {low : Option K} {p : PID} {s : St K V} {t : Nat} {key : K} {closed : Bool}

theorem SI.route (h : SI cfg nil nil nil fl s) (hp : Spec.Route s.toSh key closed p) :
    ∃ F low c, s.info p = some (F, low) ∧ s.cont p = some c ∧ LowOK low key closed := by
  have hsame : ∀ {p : PID} {c c' : Chain K V} {F : Nat} {low : Option K},
      s.info p = some (F, low) → s.cont p = some c → s.toSh.mt p = some c' → c' = c := by
    intro p c c' F low hi hc hm
    have := (h.live0 hi hc).1
    change s.mt p = some c' at hm
    rw [hm] at this; cases this; rfl
  induction hp with
  | root =>
    obtain ⟨T, c, h1, h2⟩ := h.root_page
    exact ⟨T, none, c, h1, h2, by intro l e; cases e⟩
  | @child p q c _ hm hl hs ih =>
    obtain ⟨F, low, c', hi, hc, hlo⟩ := ih
    cases hsame hi hc hm
    have hw := h.inv.l.page _ _ _ _ hc hi
    have hF : F ≠ 0 := by rintro rfl; rw [hw.isLeaf] at hl; simp at hl
    have hwf := hw.wf
    simp only [hF, ne_eq, not_false_eq_true, decide_true] at hwf
    have hx := h.x.exact p c F low hc hi hF
    by_cases hh : HighOK c.high key closed
    · rcases childStep_exact hwf hx key closed hlo hh with ⟨q', e1, e2⟩ | ⟨w, q', e1, e2, e3⟩
      · rw [hs] at e1; cases e1
        obtain ⟨cq, l, r1, r2, r3, _⟩ := h.reach hi hc e2
        exact ⟨_, l, cq, r1, r2, r3⟩
      · rw [hs] at e1; cases e1
    · rw [childStep_beyond hwf hx key closed hh] at hs; cases hs
  | @cell p w c _ hm hl hs ih =>
    obtain ⟨F, low, c', hi, hc, hlo⟩ := ih
    cases hsame hi hc hm
    have hw := h.inv.l.page _ _ _ _ hc hi
    have hF : F ≠ 0 := by rintro rfl; rw [hw.isLeaf] at hl; simp at hl
    have hwf := hw.wf
    simp only [hF, ne_eq, not_false_eq_true, decide_true] at hwf
    have hx := h.x.exact p c F low hc hi hF
    by_cases hh : HighOK c.high key closed
    · rcases childStep_exact hwf hx key closed hlo hh with ⟨q', e1, e2⟩ | ⟨w', q', e1, e2, e3⟩
      · rw [hs] at e1; cases e1
      · rw [hs] at e1; cases e1
        obtain ⟨cq, l, r1, r2, r3, _⟩ := h.reach hi hc e3
        rcases (h.cell _ _ e2).2 with e | ⟨_, e⟩
        · exact ⟨s.fcf F, l, cq, (by rw [e]; exact r1), (by rw [e]; exact r2), r3⟩
        · exact e.elim
    · rw [childStep_beyond hwf hx key closed hh] at hs; cases hs
  | @sibling p q c _ hm hl hs ih =>
    obtain ⟨F, low, c', hi, hc, hlo⟩ := ih
    cases hsame hi hc hm
    have hw := h.inv.l.page _ _ _ _ hc hi
    have hF : F ≠ 0 := by rintro rfl; rw [hw.isLeaf] at hl; simp at hl
    have hwf := hw.wf
    simp only [hF, ne_eq, not_false_eq_true, decide_true] at hwf
    have hx := h.x.exact p c F low hc hi hF
    by_cases hh : HighOK c.high key closed
    · rcases childStep_exact hwf hx key closed hlo hh with ⟨q', e1, e2⟩ | ⟨w', q', e1, e2, e3⟩
      · rw [hs] at e1; cases e1
      · rw [hs] at e1; cases e1
    · rw [childStep_beyond hwf hx key closed hh] at hs; cases hs
      obtain ⟨b, b1, b2, b3⟩ := hw.sibling hh
      obtain ⟨c', hc'⟩ := h.inv.l.linkl p c b hc b1
      exact ⟨F, some b, c', b2, hc', b3⟩
  | @leaf p c x _ hm hl hx hk ih =>
    obtain ⟨F, low, c', hi, hc, hlo⟩ := ih
    cases hsame hi hc hm
    have hw := h.inv.l.page _ _ _ _ hc hi
    have hh : ¬ HighOK c.high key closed := by
      intro hh
      have h1 := hh x hx
      cases closed with
      | true => simp only [if_true] at hk h1; exact absurd hk (not_le.mpr h1)
      | false =>
        simp only [Bool.false_eq_true, if_false] at hk h1
        exact absurd hk (not_lt.mpr h1)
    obtain ⟨b, b1, b2, b3⟩ := hw.sibling hh
    obtain ⟨c', hc'⟩ := h.inv.l.linkl p c b hc b1
    exact ⟨F, some b, c', b2, hc', b3⟩

theorem SI.calm (h : SI cfg nil nil nil fl s) (key : K) (closed : Bool) :
    Spec.Calm s.toSh key closed := by
  refine ⟨?_, ?_⟩
  · intro p b hp hm
    obtain ⟨F, low, c, hi, hc, _⟩ := h.route hp
    obtain ⟨h1, h2⟩ := h.live0 hi hc
    change s.mt p = _ at hm
    rw [hm] at h1; cases h1; cases h2
  · intro p c w hp hm hl hs
    obtain ⟨F, low, c', hi, hc, hlo⟩ := h.route hp
    have := (h.live0 hi hc).1
    change s.mt p = _ at hm
    rw [hm] at this; cases this
    have hw := h.inv.l.page _ _ _ _ hc hi
    have hF : F ≠ 0 := by rintro rfl; rw [hw.isLeaf] at hl; simp at hl
    have hwf := hw.wf
    simp only [hF, ne_eq, not_false_eq_true, decide_true] at hwf
    have hx := h.x.exact p c F low hc hi hF
    by_cases hh : HighOK c.high key closed
    · rcases childStep_exact hwf hx key closed hlo hh with ⟨q', e1, e2⟩ | ⟨w', q', e1, e2, e3⟩
      · rw [hs] at e1; cases e1
      · rw [hs] at e1; cases e1
        obtain ⟨cq, l, r1, r2, r3, _⟩ := h.reach hi hc e3
        rcases (h.cell _ _ e2).2 with e | ⟨_, e⟩
        · change s.cells w ≠ 0
          rw [e]
          rintro rfl
          exact h.inv.info_ne_zero r1 rfl
        · exact e.elim
    · rw [childStep_beyond hwf hx key closed hh] at hs; cases hs

/-- The invariant along an execution in which one thread makes all calls. -/
theorem Run.seqR (hc : CfgOK2 cfg) {m : K → Option V} {sh : Sh K V} (hi : Init cfg m sh)
    {h : List (Spec.Event K V)} {S : Sys K V} (hr : Run cfg (Sys.start sh) h S)
    (ht : ∀ e ∈ h, e.thread = t) : ∃ s, SeqR cfg t s S := by
  have hub : ∀ {h : List (Spec.Event K V)} {S : Sys K V}, Run cfg (Sys.start sh) h S →
      ∀ c, S.th t ≠ .run c .ub := by
    intro h S hr
    obtain ⟨s, h1, _⟩ := hi.run hc hr
    intro c e
    have := h1.th t
    rw [e] at this
    exact this
  induction hr with
  | nil =>
    obtain ⟨s, h1, h2⟩ := hi.si0 hc
    exact ⟨s, h1, fun _ _ => rfl, fun _ => ⟨h2, fun _ _ _ e => by cases e⟩, fun _ _ e => by cases e⟩
  | tau hr hs ih =>
    obtain ⟨s, h1⟩ := ih ht
    exact h1.step hc hs (fun _ e => by cases e) (hub (hr.tau hs))
  | @event h S S' e hr hs ih =>
    obtain ⟨s, h1⟩ := ih (fun e he => ht e (List.mem_append_left _ he))
    exact h1.step hc hs (fun _ e' => by cases e'; exact ht _ (by simp)) (hub (hr.event hs))

end BwTree
