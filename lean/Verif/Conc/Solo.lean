import Verif.Conc.Search
import Verif.Spec.Reach
import Mathlib.Data.Finset.Card
import Mathlib.Data.Finset.Range

/-!
# Searches that run alone (helper lemmas)

In a state that satisfies the invariant, a search whose route meets neither a removal mark nor an
unset index-delete word ends: siblings have larger lower bounds, children belong to lower families.
-/

namespace BwTree

set_option linter.unusedSectionVars false

/-- The program returns `a` by loads alone when nothing changes. -/
inductive Yields {K V α : Type} (sh : Sh K V) : Prog K V α → α → Prop
  | ret (a : α) : Yields sh (.ret a) a
  | load {p : PID} {c : Chain K V} {k : Chain K V → Prog K V α} {a : α} : sh.mt p = some c →
      Yields sh (k c) a → Yields sh (.load p k) a
  | loadRoot {k : PID → Prog K V α} {a : α} : Yields sh (k sh.root) a → Yields sh (.loadRoot k) a
  | loadCell {w : Nat} {k : PID → Prog K V α} {a : α} : Yields sh (k (sh.cells w)) a →
      Yields sh (.loadCell w k) a

theorem Yields.bind {K V α β : Type} {sh : Sh K V} {p : Prog K V α} {g : α → Prog K V β} {a : α}
    {b : β} (h : Yields sh p a) (h' : Yields sh (g a) b) : Yields sh (p.bind g) b := by
  induction h with
  | ret a => exact h'
  | load hm _ ih => exact .load hm (ih h')
  | loadRoot _ ih => exact .loadRoot (ih h')
  | loadCell _ ih => exact .loadCell (ih h')

theorem Yields.alone {K V α : Type} {sh : Sh K V} {p : Prog K V α} {a : α} (h : Yields sh p a) :
    ∃ n, Alone n sh p sh (.ret a) := by
  induction h with
  | ret a => exact ⟨0, .refl _ _⟩
  | load hm _ ih => obtain ⟨n, ih⟩ := ih; exact ⟨n + 1, .step (.load _ _ _ _ hm) ih⟩
  | loadRoot _ ih => obtain ⟨n, ih⟩ := ih; exact ⟨n + 1, .step (.loadRoot _ _) ih⟩
  | loadCell _ ih => obtain ⟨n, ih⟩ := ih; exact ⟨n + 1, .step (.loadCell _ _ _) ih⟩

variable {K V : Type} [LinearOrder K] {cfg : Cfg K} {s : St K V} {F : Nat} {key : K} {closed : Bool}

/-- `p` is on the route of the search, in family `F`. -/
structure OnRoute (s : St K V) (key : K) (closed : Bool) (F : Nat) (low : Option K) (p : PID) :
    Prop where
  route : Spec.Route s.toSh key closed p
  info : s.info p = some (F, low)
  low : LowOK low key closed

open Classical in
/-- Pages of a family whose lower bound is above `low`. -/
noncomputable def after (s : St K V) (F : Nat) (low : Option K) : Finset Nat :=
  (Finset.range s.npid).filter fun p => ∃ l, s.info p = some (F, some l) ∧ ∀ x, low = some x → x < l

theorem after_lt (hI : Inv cfg s) {low : Option K} {b : K} {p : PID}
    (hi : s.info p = some (F, some b)) (hb : ∀ x, low = some x → x < b) :
    (after s F (some b)).card < (after s F low).card := by
  classical
  apply Finset.card_lt_card
  rw [Finset.ssubset_iff_of_subset]
  · refine ⟨p, ?_, ?_⟩
    · simp only [after, Finset.mem_filter, Finset.mem_range]
      refine ⟨?_, b, hi, hb⟩
      by_contra hc
      rw [(hI.p.fresh p (Or.inl (Nat.le_of_not_lt hc))).2.1] at hi; cases hi
    · simp only [after, Finset.mem_filter, Finset.mem_range, not_and]
      rintro _ ⟨l, h1, h2⟩
      rw [hi] at h1; cases h1
      exact lt_irrefl _ (h2 _ rfl)
  · intro q hq
    simp only [after, Finset.mem_filter, Finset.mem_range] at hq ⊢
    obtain ⟨h1, l, h2, h3⟩ := hq
    exact ⟨h1, l, h2, fun x hx => lt_trans (hb x hx) (h3 _ rfl)⟩

theorem OnRoute.live (hI : Inv cfg s) (hC : Spec.Calm s.toSh key closed) {low : Option K} {p : PID}
    (h : OnRoute s key closed F low p) :
    ∃ c, s.mt p = some c ∧ c.isRemoved = false ∧ s.lv.cont p = some c ∧
      PageWF cfg s.lv F low c := by
  obtain ⟨c, h1, _⟩ := hI.p.slot p F low h.info
  have hr : c.isRemoved = false := by
    cases c with
    | removed b => exact absurd h1 (hC.live p b h.route)
    | base n => rfl
    | delta d nx => rfl
  obtain ⟨e1, e2⟩ := hI.live h.info h1 hr
  exact ⟨c, h1, hr, e1, e2⟩

theorem searchChild_yields (hI : Inv cfg s) (hC : Spec.Calm s.toSh key closed) (hF : F ≠ 0) :
    ∀ (n : Nat) {low : Option K} {p : PID} {rest : Stk}, (after s F low).card < n →
      OnRoute s key closed F low p →
      ∃ N q p' low', (∀ f, N ≤ f →
        Yields s.toSh (searchChild key closed 0 f (p :: rest)) (false, q :: p' :: rest)) ∧
        OnRoute s key closed (s.fcf F) low' q := by
  intro n
  induction n with
  | zero => intro low p rest hn; exact absurd hn (Nat.not_lt_zero _)
  | succ n ih =>
    intro low p rest hn h
    obtain ⟨c, h1, h2, h3, h4⟩ := h.live hI hC
    have hl : c.isLeaf = false := by rw [h4.isLeaf]; simp [hF]
    have hll : c.liveLeaf = false := by simp [Chain.liveLeaf, hl]
    have hwf := h4.wf
    simp only [hF, ne_eq, not_false_eq_true, decide_true] at hwf
    rcases childStep_spec hwf h4.ents key closed h.low with
      ⟨q, sep, e1, e2, e3⟩ | ⟨w, sep, e1, e2, e3⟩ | ⟨e1, e2⟩
    · refine ⟨1, q, p, sep, ?_, .child h.route h1 hl e1, e2, e3⟩
      intro f hf
      obtain ⟨f, rfl⟩ := Nat.exists_eq_add_of_le' hf
      refine .load h1 ?_
      simp only [hll, Bool.false_eq_true, if_false, e1]
      exact .ret _
    · have hw := hC.set p c w h.route h1 hl e1
      rcases hI.p.cell w _ _ e2 with e | ⟨lq, d1, d2⟩
      · exact absurd e hw
      refine ⟨2, s.cells w, p, lq, ?_, .cell h.route h1 hl e1, d1, ?_⟩
      · intro f hf
        obtain ⟨f, rfl⟩ := Nat.exists_eq_add_of_le' hf
        refine .load h1 ?_
        simp only [hll, Bool.false_eq_true, if_false, e1]
        refine Yields.bind (a := s.cells w) (.loadCell ?_) (.ret _)
        simp only [hw, if_false]
        exact .ret _
      · intro x hx
        have a1 := d2 x hx
        have a2 := e3 sep rfl
        cases closed <;> simp at a1 a2 ⊢ <;> order
    · obtain ⟨b, b1, b2, b3⟩ := h4.sibling e2
      have hlt := after_lt hI (low := low) b2 (fun x hx => by
        subst hx; exact h4.wf.nonempty x b rfl b1)
      obtain ⟨N, q, p', low', g1, g2⟩ := ih (low := some b) (p := c.nextPid) (rest := rest)
        (by omega) ⟨.sibling h.route h1 hl e1, b2, b3⟩
      refine ⟨N + 1, q, p', low', ?_, g2⟩
      intro f hf
      obtain ⟨f, rfl⟩ := Nat.exists_eq_add_of_le' (Nat.le_trans (Nat.le_add_left 1 N) hf)
      refine .load h1 ?_
      have hne : c.nextPid ≠ 0 := hI.info_ne_zero b2
      simp only [hll, Bool.false_eq_true, if_false, e1, hne]
      exact g1 f (by omega)

theorem searchLeafLoop_yields (hI : Inv cfg s) (hC : Spec.Calm s.toSh key closed) :
    ∀ (n : Nat) {F : Nat} {low : Option K} {p : PID} {rest : Stk}, F < n →
      OnRoute s key closed F low p →
      ∃ N q rest' low', (∀ f, N ≤ f →
        Yields s.toSh (searchLeafLoop key closed f (p :: rest)) (q :: rest')) ∧
        OnRoute s key closed 0 low' q := by
  intro n
  induction n with
  | zero => intro F low p rest hn; exact absurd hn (Nat.not_lt_zero _)
  | succ n ih =>
    intro F low p rest hn h
    obtain ⟨c, h1, h2, h3, h4⟩ := h.live hI hC
    by_cases hF : F = 0
    · subst hF
      refine ⟨1, p, rest, low, ?_, h⟩
      intro f hf
      obtain ⟨f, rfl⟩ := Nat.exists_eq_add_of_le' hf
      refine .load h1 ?_
      simp only [h4.isLeaf, decide_true, if_true]
      exact .ret _
    · obtain ⟨N, q, p', low', g1, g2⟩ := searchChild_yields hI hC hF _ (rest := rest)
        (Nat.lt_succ_self _) h
      have hlt : s.fcf F < F := hI.l.fcf F (Nat.pos_of_ne_zero hF) (hI.l.fam p F low h.info)
      obtain ⟨N', q', rest', low'', g3, g4⟩ := ih (rest := p' :: rest) (by omega) g2
      refine ⟨max N N' + 1, q', rest', low'', ?_, g4⟩
      intro f hf
      obtain ⟨f, rfl⟩ := Nat.exists_eq_add_of_le' (Nat.le_trans (Nat.le_add_left 1 _) hf)
      refine .load h1 ?_
      simp only [h4.isLeaf, hF, decide_false, Bool.false_eq_true, if_false]
      exact (g1 f (by omega)).bind (g3 f (by omega))

theorem searchLeaf_yields (hI : Inv cfg s) (hC : Spec.Calm s.toSh key closed) :
    ∃ N q rest low, (∀ f, N ≤ f → Yields s.toSh (searchLeaf key closed f) (q :: rest)) ∧
      OnRoute s key closed 0 low q := by
  obtain ⟨F, hF⟩ := hI.p.root
  obtain ⟨N, q, rest, low, h1, h2⟩ := searchLeafLoop_yields hI hC (F + 1) (rest := [])
    (Nat.lt_succ_self _) (low := none) ⟨.root, hF, by intro l h; cases h⟩
  exact ⟨N, q, rest, low, fun f hf => .loadRoot (h1 f hf), h2⟩

theorem readLoop_yields (hI : Inv cfg s) (hC : Spec.Calm s.toSh key true) :
    ∀ (n : Nat) {low : Option K} {p : PID} {rest : Stk}, (after s 0 low).card < n →
      OnRoute s key true 0 low p →
      ∃ N, ∀ f, N ≤ f → Yields s.toSh (readLoop key f (p :: rest)) (s.m key) := by
  intro n
  induction n with
  | zero => intro low p rest hn; exact absurd hn (Nat.not_lt_zero _)
  | succ n ih =>
    intro low p rest hn h
    obtain ⟨c, h1, h2, h3, h4⟩ := h.live hI hC
    have hli : c.liveInner = false := by simp [Chain.liveInner, h4.isLeaf]
    have hl : c.isLeaf = true := by rw [h4.isLeaf]; simp
    by_cases hh : HighOK c.high key true
    · obtain ⟨o, hb1, hb2⟩ := (readChain_spec h4.wf key).2 hh
      have hv := hI.l.val p c low key h3 h.info ⟨h.low, hh⟩
      change _ = (s.m key).map Pay.val at hv
      have hmo : s.m key = o := by
        rw [hv] at hb2
        cases e1 : s.m key <;> cases e2 : o <;> simp_all
      refine ⟨1, ?_⟩
      intro f hf
      obtain ⟨f, rfl⟩ := Nat.exists_eq_add_of_le' hf
      refine .load h1 ?_
      simp only [hli, Bool.false_eq_true, if_false, hb1, hmo]
      exact .ret _
    · have hb1 := (readChain_spec h4.wf key).1 hh
      obtain ⟨b, b1, b2, b3⟩ := h4.sibling hh
      have hlt := after_lt hI (low := low) b2 (fun x hx => by
        subst hx; exact h4.wf.nonempty x b rfl b1)
      obtain ⟨N, g1⟩ := ih (low := some b) (p := c.nextPid) (rest := rest) (by omega)
        ⟨.leaf h.route h1 hl b1 (b3 b rfl), b2, b3⟩
      refine ⟨N + 1, ?_⟩
      intro f hf
      obtain ⟨f, rfl⟩ := Nat.exists_eq_add_of_le' (Nat.le_trans (Nat.le_add_left 1 N) hf)
      refine .load h1 ?_
      simp only [hli, Bool.false_eq_true, if_false, hb1]
      exact g1 f (by omega)

/-- A read that runs alone returns what the map holds. -/
theorem read_yields (hI : Inv cfg s) (hC : Spec.Calm s.toSh key true) :
    ∃ N, ∀ f, N ≤ f → Yields s.toSh (runOp cfg f (.read key)) (.payload (s.m key)) := by
  obtain ⟨N, q, rest, low, h1, h2⟩ := searchLeaf_yields hI hC
  obtain ⟨N', h3⟩ := readLoop_yields hI hC _ (rest := rest) (Nat.lt_succ_self _) h2
  refine ⟨max N N', fun f hf => ?_⟩
  exact (h1 f (by omega)).bind ((h3 f (by omega)).bind (.ret _))

end BwTree
