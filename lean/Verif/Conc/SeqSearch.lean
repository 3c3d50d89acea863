import Verif.Conc.SeqSteps

/-!
# Searches of a thread that runs alone (helper lemmas)
-/

namespace BwTree

set_option linter.unusedSectionVars false

variable {K V : Type} [LinearOrder K] {cfg : Cfg K} {E D : PID → Prop}
  {W : Nat → Prop} {fl : Nat → Option PID} {F G H : Nat} {low : Option K}
  {p q r tgt : PID} {s s' : St K V} {t : Nat} {key : K} {closed : Bool}

/-- All present pages of a family are live, except possibly `x`. -/
def LiveAt (s : St K V) (H : Nat) (x : PID) : Prop :=
  ∀ q c l, q ≠ x → s.info q = some (H, l) → s.cont q = some c →
    s.mt q = some c ∧ c.isRemoved = false

theorem SI.liveAt (h : SI cfg E D W fl s) {x : PID}
    (hD : ∀ q, D q → q = x ∨ ∀ l, s.info q ≠ some (H, l)) : LiveAt s H x := by
  intro q c l hq hi hc
  obtain ⟨c', hm, _⟩ := h.inv.p.slot q H l hi
  cases hr : c'.isRemoved with
  | true =>
    obtain ⟨b, rfl⟩ := isRemoved_true hr
    rw [St.cont_pend hi hm] at hc
    cases hp : s.pend q with
    | none => rw [hp] at hc; cases hc
    | some n =>
      rcases hD q (h.pend q n hp) with e | e
      · exact absurd e hq
      · exact absurd hi (e l)
  | false =>
    rw [St.cont_live hi hm hr] at hc
    cases hc
    exact ⟨hm, hr⟩

/-- The page a child search leads to. -/
def Reach (s : St K V) (H : Nat) (key : K) (closed : Bool) (q : PID) : Prop :=
  ∃ c l, s.info q = some (H, l) ∧ s.cont q = some c ∧ LowOK l key closed ∧
    (l = none ∨ ∃ G, s.est q = .posted G)

theorem SI.reach (h : SI cfg E D W fl s) {c : Chain K V}
    (hi : s.info p = some (H, low)) (hc : s.cont p = some c)
    (hq : Floor c.pre c.flatBody key closed q) : Reach s (s.fcf H) key closed q := by
  have hw := h.inv.l.page _ _ _ _ hc hi
  rcases hq with ⟨sep, a1, a2, a3⟩ | ⟨⟨y, a1⟩, a2⟩
  · have e1 := h.inv.l.ent_info hc hi a1
    obtain ⟨e2, c', e3⟩ := h.inv.l.ents p c H low sep q hc hi a1
    refine ⟨c', some sep, e1, e3, ?_, Or.inr ⟨H, e2⟩⟩
    intro l e; cases e
    unfold LEc at a2
    exact a2
  · have e1 := (hw.ents.flat hw.wf).1 _ a1 q rfl
    obtain ⟨c', e2⟩ := h.x.pre p c y q hc a1
    exact ⟨c', none, e1, e2, (by intro l e; cases e), Or.inl rfl⟩

/-- One level of a descent. -/
theorem searchChild_exact (h : SI cfg E D W fl s) (hH : H ≠ 0)
    (htgt : ∀ l, s.info tgt ≠ some (H, l)) (hL : LiveAt s H tgt) : ∀ (f : Nat) {p : PID}
    {rest : Stk} {c : Chain K V}, StkOK .free s H key closed (p :: rest) → s.cont p = some c →
    ro s.toSh (searchChild key closed tgt f (p :: rest)) (fun x => x.1 = false ∧
      ∃ q p' cp, x.2 = q :: p' :: rest ∧ StkOK .free s (s.fcf H) key closed x.2 ∧
        s.cont p' = some cp ∧ Reach s (s.fcf H) key closed q) := by
  intro f
  induction f with
  | zero => intro p rest c _ _; trivial
  | succ f ih =>
    intro p rest c hs hc c1 hc1
    change s.mt p = some c1 at hc1
    obtain ⟨⟨low, hi⟩, _⟩ := hs.adj
    have hne : p ≠ tgt := by rintro rfl; exact htgt _ hi
    obtain ⟨hm, hr⟩ := hL p c low hne hi hc
    rw [hm] at hc1; cases hc1
    obtain ⟨low', l1, l2, l3, l4⟩ := hs.live h.inv hm hr
    rw [hi] at l1; cases l1
    have hll : c.liveLeaf = false := by
      simp [Chain.liveLeaf, l4.isLeaf, hH]
    simp only [hll, Bool.false_eq_true, if_false]
    have hwf := l4.wf
    simp only [hH, ne_eq, not_false_eq_true, decide_true] at hwf
    by_cases hh : HighOK c.high key closed
    · have hpush : ∀ q, Reach s (s.fcf H) key closed q →
          StkOK .free s (s.fcf H) key closed (q :: p :: rest) := by
        rintro q ⟨c', l, e1, _, e2, _⟩
        exact hs.push (by simp) (Nat.pos_of_ne_zero hH) e1 e2
      rcases childStep_exact hwf (h.x.exact p c H low hc hi hH) key closed l2 hh with
        ⟨q, e1, e2⟩ | ⟨w, q, e1, e2, e3⟩
      · simp only [e1]
        have hq := h.reach hi hc e2
        exact ⟨rfl, q, p, c, rfl, hpush q hq, hc, hq⟩
      · simp only [e1]
        apply ro_then (waitCell_ro f)
        rintro q' ⟨rfl, hq'⟩
        have hcell : s.cells w = q := by
          rcases (h.cell w q e2).2 with e | ⟨e, _⟩
          · exact e
          · exact absurd e hq'
        rw [hcell]
        have hq := h.reach hi hc e3
        exact ⟨rfl, q, p, c, rfl, hpush q hq, hc, hq⟩
    · have h1 := childStep_beyond hwf (h.x.exact p c H low hc hi hH) key closed hh
      simp only [h1]
      obtain ⟨b, b1, b2, b3⟩ := l4.sibling hh
      have hnt : c.nextPid ≠ tgt := by
        intro e; rw [e] at b2; exact htgt _ b2
      simp only [hnt, if_false]
      obtain ⟨c', hc'⟩ := h.inv.l.linkl p c b hc b1
      exact ih (hs.swap b2 b3) hc'

/-- The walk to the left neighbour of a page that is not indexed. -/
theorem searchChild_target (h : SI cfg E D W fl s) (hF : F ≠ 0) {ct : Chain K V}
    (hit : s.info tgt = some (F, some key)) (hct : s.cont tgt = some ct) (hL : LiveAt s F tgt) :
    ∀ (f : Nat) {p : PID} {rest : Stk} {c : Chain K V}, StkOK .free s F key true (p :: rest) →
    s.cont p = some c → p ≠ tgt →
    ro s.toSh (searchChild key true tgt f (p :: rest)) (fun x => x.1 = true ∧ x.2 ≠ [] ∧
      StkOK .free s F key true x.2) := by
  intro f
  induction f with
  | zero => intro p rest c _ _ _; trivial
  | succ f ih =>
    intro p rest c hs hc hne c1 hc1
    change s.mt p = some c1 at hc1
    obtain ⟨⟨low, hi⟩, _⟩ := hs.adj
    obtain ⟨hm, hr⟩ := hL p c low hne hi hc
    rw [hm] at hc1; cases hc1
    obtain ⟨low', l1, l2, l3, l4⟩ := hs.live h.inv hm hr
    rw [hi] at l1; cases l1
    have hll : c.liveLeaf = false := by
      simp [Chain.liveLeaf, l4.isLeaf, hF]
    simp only [hll, Bool.false_eq_true, if_false]
    have hwf := l4.wf
    simp only [hF, ne_eq, not_false_eq_true, decide_true] at hwf
    have hh : ¬ HighOK c.high key true := by
      intro hh
      exact hne (h.inv.l.uniq hc hct hi hit ⟨l2, hh⟩ (h.inv.l.page _ _ _ _ hct hit).inR_low)
    have h1 := childStep_beyond hwf (h.x.exact p c F low hc hi hF) key true hh
    simp only [h1]
    obtain ⟨b, b1, b2, b3⟩ := l4.sibling hh
    by_cases hnt : c.nextPid = tgt
    · simp only [hnt, if_true]
      exact ⟨rfl, by simp, hs⟩
    · simp only [hnt, if_false]
      obtain ⟨c', hc'⟩ := h.inv.l.linkl p c b hc b1
      exact ih (hs.swap b2 b3) hc' hnt

/-- The search for a page that is not indexed does not miss it. -/
theorem searchTarget_exact (h : SI cfg E D W fl s) {ct : Chain K V} {tInner : Bool}
    (hti : tInner = decide (F ≠ 0))
    (hit : s.info tgt = some (F, some key)) (hct : s.cont tgt = some ct)
    (hnp : ∀ G, s.est tgt ≠ .posted G)
    (hL : ∀ H, Down s.fcf H F → LiveAt s H tgt) : ∀ (f : Nat) {stk : Stk},
    (∀ p rest, stk = p :: rest → p ≠ tgt ∧ ∃ H c, Down s.fcf H F ∧ s.cont p = some c ∧
      StkOK .free s H key true stk) →
    ro s.toSh (searchTarget key tInner tgt f stk) (fun x => x ≠ [] ∧
      StkOK .free s F key true x) := by
  intro f
  induction f with
  | zero => intro stk _; trivial
  | succ f ih =>
    intro stk hstk
    cases stk with
    | nil =>
      show ro s.toSh (searchTarget key tInner tgt f [s.root]) _
      apply ih
      intro p rest e
      cases e
      obtain ⟨c, hc⟩ := h.x.rootc
      obtain ⟨T, hT, hd⟩ := h.x.chain tgt ct F _ hct hit
      refine ⟨?_, T, c, hd, hc, StkOK.root hT trivial⟩
      intro e
      change s.info s.root = _ at hT
      rw [e, hit] at hT; cases hT
    | cons p rest =>
      obtain ⟨hne, H, c, hd, hc, hs⟩ := hstk p rest rfl
      obtain ⟨⟨low, hi⟩, _⟩ := hs.adj
      obtain ⟨hm, hr⟩ := hL H hd p c low hne hi hc
      intro c1 hc1
      change s.mt p = some c1 at hc1
      rw [hm] at hc1; cases hc1
      have hpw := (h.inv.live hi hm hr).2
      simp only [hpw.isLeaf]
      cases hd with
      | refl =>
        by_cases hF : F = 0
        · have : tInner = false := by simp [hti, hF]
          simp only [hF, decide_true, if_true, this, Bool.false_eq_true, if_false]
          subst hF
          exact ⟨by simp, hs⟩
        · simp only [hF, decide_false, Bool.false_eq_true, if_false]
          apply ro_then (searchChild_target h hF hit hct (hL F (.refl _)) f hs hc hne)
          rintro x ⟨x1, x2, x3⟩
          simp only [x1, if_true]
          exact ⟨x2, x3⟩
      | step hH hd' =>
        simp only [hH, decide_false, Bool.false_eq_true, if_false]
        have hlt := h.inv.l.fcf H (Nat.pos_of_ne_zero hH) (h.inv.l.fam _ _ _ hi)
        change s.fcf H < H at hlt
        have hle := hd'.le h.inv.l.fcf (Nat.lt_trans hlt (h.inv.l.fam _ _ _ hi))
        have htgt : ∀ l, s.info tgt ≠ some (H, l) := by
          intro l e
          rw [hit] at e; cases e
          omega
        apply ro_then (searchChild_exact h hH htgt (hL H (.step hH hd')) f hs hc)
        rintro x ⟨x1, q, p', cp, x2, x3, x4, cq, lq, q1, q2, q3, q4⟩
        simp only [x1, Bool.false_eq_true, if_false]
        apply ih
        intro p1 rest1 e1
        rw [x2] at e1; cases e1
        refine ⟨?_, s.fcf H, cq, hd', q2, x3⟩
        rintro rfl
        rcases q4 with e | ⟨G, e⟩
        · rw [hit, e] at q1; cases q1
        · exact hnp G e

end BwTree
