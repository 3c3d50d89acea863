import Verif.Conc.Ops

/-!
# Specifications of scans (proof side)

One node visit takes effect at its last load of a head.
-/

namespace BwTree

set_option linter.unusedSectionVars false

variable {K V : Type} [LinearOrder K] {cfg : Cfg K} {s s' : St K V} {C : Ctx} {key : K}
  {closed : Bool}

/-- A live head whose range contains the key. -/
structure HeadAt (s : St K V) (cfg : Cfg K) (F : Nat) (key : K) (closed : Bool) (p : PID)
    (c : Chain K V) (low : Option K) : Prop where
  live : c.isRemoved = false
  info : s.info p = some (F, low)
  cont : s.lv.cont p = some c
  wf : PageWF cfg s.lv F low c
  lowOK : LowOK low key closed
  highOK : HighOK c.high key closed

/-- `GetHead` without a target; the caller may choose a ghost update at the load that returns. -/
theorem getHead0_spec : ∀ (f : Nat) {stk : Stk} {F : Nat} {s : St K V}
    {R : Regime} {Q : Option (Chain K V × Stk) → St K V → Prop}, Inv cfg s → stk ≠ [] →
    StkOK R s F key closed stk → (R = C.reg ∨ ∃ p, stk = [p]) → (C.reg ≠ .free → F = 0) →
    (∀ s' F p rest c low, Rely C.t s s' → Inv cfg s' → HeadAt s' cfg F key closed p c low →
      (C.reg ≠ .free → F = 0) →
      ∃ s'', s''.toSh = s'.toSh ∧ Inv cfg s'' ∧ GuarM C s' s'' ∧ Q (some (c, p :: rest)) s'') →
    wp cfg C (getHead cfg key closed 0 f stk) Q s := by
  intro f
  induction f with
  | zero => intro stk F s R Q _ _ _ _ _ _; trivial
  | succ f ih =>
    intro stk F s R Q hI hne hs hR hz hQ
    cases stk with
    | nil => exact absurd rfl hne
    | cons p rest =>
    apply wp_bind
    apply loadValidHead_spec f hs.adj.head_ne
    intro s1 c r1 i1 hc hw
    have hs1 := hs.mono hI.l r1.mono
    cases hrem : c.isRemoved with
    | true =>
      obtain ⟨b, rfl⟩ := isRemoved_true hrem
      refine ⟨s1, rfl, i1, GuarM.rfl, ?_⟩
      have hst : dcValidate key closed (Chain.removed (K := K) (V := V) b) = .removed := rfl
      simp only [hst]
      by_cases hrest : rest = []
      · simp only [hrest, if_true, ne_eq, not_true_eq_false, if_false]
        apply wp_bind
        apply searchLeaf_spec
        intro s2 x r2 i2 h1 h2
        apply ih i2 h1 h2 (Or.inl rfl) (fun _ => rfl)
        intro s3 F' p' rest' c' low' r3
        exact hQ s3 F' p' rest' c' low' (r1.trans (r2.trans r3))
      · simp only [hrest, if_false]
        have hR' : R = C.reg := by
          rcases hR with e | ⟨q, e⟩
          · exact e
          · cases e; exact absurd rfl hrest
        subst hR'
        obtain ⟨G, hG0, hGF, hG⟩ := hs1.tail hrest
        apply wp_bind
        apply searchChild_spec f i1 hrest hG (fun _ => Nat.pos_iff_ne_zero.1 hG0)
        intro s2 x r2 i2 hp
        rcases hp with ⟨_, _, e, _⟩ | ⟨_, _, e⟩ | ⟨_, e2, F', e3, e4⟩
        · exact absurd rfl e
        · exact absurd rfl e
        · simp only [e2, if_false]
          apply ih i2 e2 e3 (Or.inl rfl) (fun hR => by
            rw [e4 (Or.inr hR), r2.mono.fcf G (hG.adj.head_lt i1.l hrest), hGF]; exact hz hR)
          intro s3 F' p' rest' c' low' r3
          exact hQ s3 F' p' rest' c' low' (r1.trans (r2.trans r3))
    | false =>
      obtain ⟨low, l1, l2, l3, l4⟩ := hs1.live i1 hc hrem
      by_cases hh : HighOK c.high key closed
      · have hst := (dcValidate_spec l4.wf key closed).1 hh
        simp only [hst]
        exact hQ s1 F p rest c low r1 i1 ⟨hrem, l1, l3, l4, l2, hh⟩ hz
      · have hst := (dcValidate_spec l4.wf key closed).2 hh
        refine ⟨s1, rfl, i1, GuarM.rfl, ?_⟩
        simp only [hst]
        obtain ⟨b, b1, b2, b3⟩ := l4.sibling hh
        simp only [i1.info_ne_zero b2, if_false]
        apply ih i1 (by simp) (hs1.swap b2 b3) (by
          rcases hR with e | ⟨q, e⟩
          · exact Or.inl e
          · cases e; exact Or.inr ⟨_, rfl⟩) hz
        intro s3 F' p' rest' c' low' r3
        exact hQ s3 F' p' rest' c' low' (r1.trans r3)

/-- Result of a visit: it has taken effect, and the next visit is well prepared. -/
def VisPost (C : Ctx) (b e : Spec.Bound K) (x : List (K × V) × Option (K × PID)) (s : St K V) :
    Prop :=
  s.ops C.t = .done (.visit b e) (.page x.1 (x.2.map Prod.fst)) ∧
    ∀ k p, x.2 = some (k, p) → s.info p = some (0, some k)

theorem Inv.visit (hc : CfgOK2 cfg) (hI : Inv cfg s) (hp : C.pure = false) {b e : Spec.Bound K}
    {p : PID} {c : Chain K V} {low : Option K} (ho : s.ops C.t = .pending (.visit b e))
    (hi : s.info p = some (0, low)) (hcont : s.lv.cont p = some c) (hw : PageWF cfg s.lv 0 low c)
    (hb0 : b = none → low = none)
    (hb : ∀ x cl, b = some (x, cl) → LowOK low x cl ∧ HighOK c.high x cl) :
    ∃ x s', scanOut cfg b e c = some x ∧ s'.toSh = s.toSh ∧ Inv cfg s' ∧ GuarM C s s' ∧
      VisPost C b e x s' := by
  have hwf := hw.wf
  simp only [ne_eq, not_true_eq_false, decide_false] at hwf
  obtain ⟨recs, nx, h1, h2, h3⟩ := scanOut_spec hc.toCfgOK hwf (m := s.m)
    (fun k hk => hI.l.val p c low k hcont hi hk) (e := e) hb0 hb
  obtain ⟨i2, g2⟩ := hI.fin (C := C) hp ho (.visit b e recs _ h2)
  refine ⟨(recs, nx), s.fin C.t _ _, h1, rfl, i2, g2, by simp [St.fin, Spec.setOp], ?_⟩
  intro k q hkq
  obtain ⟨e1, e2⟩ := h3 k q hkq
  change s.info q = _
  rw [e2]
  exact hw.link k e1

theorem scanFrom_spec (hc : CfgOK2 cfg) (hp : C.pure = false) {e : Spec.Bound K} : ∀ (f : Nat)
    {stk : Stk} {F : Nat} {R : Regime} {s : St K V}, Inv cfg s →
    s.ops C.t = .pending (.visit (some (key, closed)) e) → stk ≠ [] → StkOK R s F key closed stk →
    (R = C.reg ∨ ∃ p, stk = [p]) → (C.reg ≠ .free → F = 0) →
    wp cfg C (scanFrom cfg key closed e f stk) (VisPost C (some (key, closed)) e) s := by
  intro f
  cases f with
  | zero => intro stk F R s _ _ _ _ _ _; trivial
  | succ f =>
    intro stk F R s hI ho hne hs hR hz
    apply wp_bind
    apply getHead0_spec f hI hne hs hR hz
    intro s1 F' p rest c low r1 i1 h hz'
    have hli := liveInner_eq h.live h.wf.isLeaf
    by_cases hF : F' = 0
    · subst hF
      obtain ⟨x, s2, e1, e2, e3, e4, e5⟩ := i1.visit hc hp (b := some (key, closed)) (e := e)
        (r1.ops.trans ho) h.info h.cont h.wf (fun e => by cases e)
        (fun y cl hy => by cases hy; exact ⟨h.lowOK, h.highOK⟩)
      refine ⟨s2, e2, e3, e4, ?_⟩
      simp only [ne_eq, not_true_eq_false, decide_false] at hli
      simp only [h.live, hli, Bool.false_eq_true, if_false, e1]
      exact e5
    · refine ⟨s1, rfl, i1, GuarM.rfl, ?_⟩
      simp only [ne_eq, hF, not_false_eq_true, decide_true] at hli
      simp only [h.live, hli, Bool.false_eq_true, if_false, if_true]
      show C.reg.fl _
      by_cases hR : C.reg = .free
      · rw [hR]; trivial
      · exact absurd (hz' hR) hF

theorem Inv.slot_leaf (hI : Inv cfg s) {p : PID} {F : Nat} {low : Option K}
    (hi : s.info p = some (F, low)) : ∃ c, s.mt p = some c ∧ (c.isLeaf = decide (F = 0)) := by
  obtain ⟨c, h2, h3⟩ := hI.p.slot p F low hi
  refine ⟨c, h2, ?_⟩
  cases hr : c.isRemoved with
  | true => obtain ⟨b, rfl⟩ := isRemoved_true hr; exact h3 b rfl
  | false => exact (hI.live hi h2 hr).2.isLeaf

theorem leftmostLoop_spec : ∀ (f : Nat) {p : PID} {F : Nat} {s : St K V}
    {Q : PID → St K V → Prop}, s.info p = some (F, none) →
    (∀ s' q, Rely C.t s s' → Inv cfg s' → s'.info q = some (0, none) → Q q s') →
    wp cfg C (leftmostLoop f p) Q s := by
  intro f
  induction f with
  | zero => intro p F s Q _ _; trivial
  | succ f ih =>
    intro p F s Q hi hQ
    apply wp_load
    intro s1 r1 i1 o1
    have hi1 := r1.mono.info _ _ hi
    obtain ⟨c, hc, hleaf⟩ := i1.slot_leaf hi1
    refine ⟨c, hc, ?_⟩
    by_cases hF : F = 0
    · subst hF
      simp only [hleaf, decide_true, if_true]
      exact hQ s1 p r1 i1 hi1
    · simp only [hleaf, hF, decide_false, Bool.false_eq_true, if_false]
      cases hrem : c.isRemoved with
      | true =>
        simp only [if_true]
        show C.reg.fl _
        obtain ⟨b, rfl⟩ := isRemoved_true hrem
        cases hR : C.reg with
        | free => trivial
        | fixed r B => exact Or.inr (Or.inl rfl)
        | nomark => rw [hR] at o1; exact absurd hc (o1 p b)
      | false =>
        simp only [Bool.false_eq_true, if_false]
        obtain ⟨_, hw⟩ := i1.live hi1 hc hrem
        have hwf := hw.wf
        simp only [hF, ne_eq, not_false_eq_true, decide_true] at hwf
        obtain ⟨q, hq1, hq2⟩ := hwf.leftmostChild hw.ents
        simp only [hq1]
        apply ih hq2
        intro s2 q' r2
        exact hQ s2 q' (r1.trans r2)

theorem scanLeft_spec (hc : CfgOK2 cfg) (hp : C.pure = false) {e : Spec.Bound K} : ∀ (f : Nat)
    {p : PID} {s : St K V}, s.ops C.t = .pending (.visit none e) → s.info p = some (0, none) →
    wp cfg C (scanLeft cfg e f p) (VisPost C none e) s := by
  intro f
  induction f with
  | zero => intro p s _ _; trivial
  | succ f ih =>
    intro p s ho hi s1 r1 i1 o1
    have hi1 := r1.mono.info _ _ hi
    have ho1 : s1.ops C.t = .pending (.visit none e) := r1.ops.trans ho
    obtain ⟨c, hcm, _⟩ := i1.p.slot p 0 none hi1
    refine ⟨c, hcm, ?_⟩
    cases hrem : c.isRemoved with
    | true =>
      refine ⟨s1, rfl, i1, GuarM.rfl, ?_⟩
      simp only [hrem, if_true]
      exact ih ho1 hi1
    | false =>
      obtain ⟨hcont, hw⟩ := i1.live hi1 hcm hrem
      obtain ⟨x, s2, e1, e2, e3, e4, e5⟩ := i1.visit hc hp (b := none) (e := e) ho1 hi1 hcont hw
        (fun _ => rfl) (fun y cl hy => by cases hy)
      refine ⟨s2, e2, e3, e4, ?_⟩
      simp only [hrem, Bool.false_eq_true, if_false, e1]
      exact e5

theorem scanFirst_spec (hc : CfgOK2 cfg) (hp : C.pure = false) (f : Nat) {b e : Spec.Bound K}
    (ho : s.ops C.t = .pending (.visit b e)) :
    wp cfg C (scanFirst cfg f b e) (VisPost C b e) s := by
  cases b with
  | some x =>
    obtain ⟨k, cl⟩ := x
    apply wp_bind
    apply searchLeaf_spec
    intro s1 x r1 i1 hx hs
    exact scanFrom_spec hc hp f i1 (r1.ops.trans ho) hx hs (Or.inl rfl) (fun _ => rfl)
  | none =>
    apply wp_bind
    apply wp_loadRoot
    intro s1 r1 i1 o1
    obtain ⟨F, hF⟩ := i1.p.root
    apply leftmostLoop_spec f hF
    intro s2 q r2 i2 hq
    exact scanLeft_spec hc hp f (r2.ops.trans (r1.ops.trans ho)) hq

theorem scanNext_spec (hc : CfgOK2 cfg) (hp : C.pure = false) (f : Nat) {p : PID} {e : Spec.Bound K}
    (hI : Inv cfg s) (ho : s.ops C.t = .pending (.visit (some (key, true)) e))
    (hi : s.info p = some (0, some key)) :
    wp cfg C (scanNext cfg f p key e) (VisPost C (some (key, true)) e) s := by
  refine scanFrom_spec (F := 0) (R := .free) hc hp f hI ho (by simp) ?_ (Or.inr ⟨p, rfl⟩)
    (fun _ => rfl)
  refine ⟨⟨⟨_, hi⟩, Or.inl rfl⟩, ?_, fun _ _ _ _ _ => trivial⟩
  intro q hq
  simp at hq; subst hq
  exact Or.inr ⟨0, _, hi, by intro l hl; cases hl; simp⟩

end BwTree
