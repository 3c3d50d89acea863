import Verif.Conc.Pages

/-!
# The atomic steps preserve the invariant (helper lemmas)
-/

namespace BwTree

set_option linter.unusedSectionVars false

variable {K V : Type} [LinearOrder K] {cfg : Cfg K} {s : St K V} {C : Ctx}

/-! ## Facts about one state -/

theorem St.cont_live {p : PID} {x : Nat × Option K} {c : Chain K V} (hi : s.info p = some x)
    (hm : s.mt p = some c) (hr : c.isRemoved = false) : s.cont p = some c := by
  unfold St.cont
  rw [hi, hm]
  cases c with
  | removed b => cases hr
  | _ => rfl

theorem St.cont_pend {p : PID} {x : Nat × Option K} {b : Bool} (hi : s.info p = some x)
    (hm : s.mt p = some (.removed b)) : s.cont p = (s.pend p).map .base := by
  unfold St.cont; rw [hi, hm]

theorem Inv.live (h : Inv cfg s) {p : PID} {F : Nat} {low : Option K} {c : Chain K V}
    (hi : s.info p = some (F, low)) (hm : s.mt p = some c) (hr : c.isRemoved = false) :
    s.lv.cont p = some c ∧ PageWF cfg s.lv F low c := by
  have := St.cont_live hi hm hr
  exact ⟨this, h.l.page p c F low this hi⟩

theorem Inv.own_none (h : Inv cfg s) {p : PID} {c : Chain K V}
    (hi : s.info p ≠ none) (hm : s.mt p = some c) (hr : c.isRemoved = false)
    (hw : c.needWait cfg = false) : s.own p = none := by
  cases e : s.own p with
  | none => rfl
  | some t =>
    obtain ⟨c', h1, h2⟩ := h.p.owned p t e hi
    rw [hm] at h1; cases h1
    rcases h2 with h2 | ⟨⟨b, h2⟩, _⟩
    · rw [hw] at h2; cases h2
    · subst h2; cases hr

/-- Only pages nobody else owns and that are not protected change. -/
theorem guar_mk {s' : St K V} (P : PID → Prop)
    (hP : ∀ q, P q → (s.own q = none ∨ s.own q = some C.t) ∧ ¬ C.X q)
    (hA : ∀ q u, P q → s'.own q = some u → s.own q = some u ∨
      (u = C.t ∧ ∀ b, s.mt q ≠ some (.removed b)))
    (hN : ∀ q n, P q → s'.pend q = some n → s.pend q = some n ∨
      ∃ c, s.mt q = some c ∧ c.isRemoved = false ∧ IsCons c n)
    (hq : ∀ q, ¬ P q → s'.own q = s.own q ∧ s'.mt q = s.mt q ∧ s'.pend q = s.pend q ∧
      (s.info q = none → s'.info q = none) ∧ (s'.est q = .deleted → s.est q = .deleted))
    (mono : Mono s s')
    (unp : ∀ u q, u ≠ C.t → s.info q ≠ none → s.est q = .unposted u → s'.est q = .unposted u)
    (lin : Lin C s s') : Guar C s s' := by
  have hsame : ∀ u q, ¬ P q → Same u q s s' := by
    intro u q hn e
    obtain ⟨a1, a2, a3, a4, a5⟩ := hq q hn
    exact ⟨by rw [a1]; exact e, a2, a3, a4, a5⟩
  refine ⟨fun u hu => ⟨mono, fun q => ?_, fun q => unp u q hu, ?_⟩, mono, fun q hX => ?_, lin,
    fun q u hu => ?_, fun q n hu => ?_⟩
  · by_cases hn : P q
    · intro e
      rcases (hP q hn).1 with h1 | h1
      · rw [e] at h1; cases h1
      · rw [e] at h1; cases h1; exact absurd rfl hu
    · exact hsame u q hn
  · rcases lin with ⟨_, e⟩ | ⟨_, op, r, _, _, e⟩
    · rw [e]
    · rw [e]; simp [Spec.setOp, hu]
  · by_cases hn : P q
    · exact absurd hX (hP q hn).2
    · exact hsame _ q hn
  · by_cases hn : P q
    · exact hA q u hn hu
    · exact Or.inl (by rw [← (hq q hn).1]; exact hu)
  · by_cases hn : P q
    · exact hN q n hn hu
    · exact Or.inl (by rw [← (hq q hn).2.2.1]; exact hu)

/-! ## New contents for a live page -/

/-- The state after new contents `c'` were put in slot `p`. -/
def St.put (cfg : Cfg K) (s : St K V) (t : Nat) (p : PID) (c' : Chain K V) (est' : PID → Est)
    (m' : K → Option V) (ops' : Nat → Spec.OpSt K V) : St K V :=
  { s with mt := upd s.mt p (some c'),
           own := upd s.own p (if c'.needWait cfg then some t else none),
           est := est', m := m', ops := ops' }

theorem Inv.put (h : Inv cfg s) {p : PID} {c c' : Chain K V} {F : Nat} {low : Option K}
    (hi : s.info p = some (F, low)) (hm : s.mt p = some c) (hr : c.isRemoved = false)
    (ho : s.own p = none ∨ s.own p = some C.t) (hX : ¬ C.X p)
    (hw : PageWF cfg s.lv F low c') (hh : c'.high = c.high) (hnx : c'.nextPid = c.nextPid)
    {est' : PID → Est} {m' : K → Option V} {ops' : Nat → Spec.OpSt K V}
    (he : ∀ sep q, (sep, Pay.child q) ∈ c'.flatBody →
      est' q = .posted F ∧ ∃ c0, s.cont q = some c0)
    (hoth : ∀ p0 c0 F0 low0 sep q, p0 ≠ p → s.cont p0 = some c0 → s.info p0 = some (F0, low0) →
      (sep, Pay.child q) ∈ c0.flatBody → est' q = s.est q)
    (hdel : ∀ q, s.est q = .deleted → est' q = .deleted)
    (hdel' : ∀ q, est' q = .deleted → s.est q = .deleted ∨
      (s.info q ≠ none ∧ (∃ b, s.mt q = some (.removed b)) ∧ s.own q = some C.t ∧ ¬ C.X q))
    (hun : ∀ u q, u ≠ C.t → s.info q ≠ none → s.est q = .unposted u → est' q = .unposted u)
    (hm' : ∀ k, ¬ (F = 0 ∧ InR low c.high k) → m' k = s.m k)
    (hv : F = 0 → ∀ k, InR low c.high k → alook c'.flatBody k = (m' k).map Pay.val)
    (hlin : Lin C s (s.put cfg C.t p c' est' m' ops')) :
    Inv cfg (s.put cfg C.t p c' est' m' ops') ∧ Guar C s (s.put cfg C.t p c' est' m' ops') := by
  have hr' := hw.not_removed
  have hrem : ∀ q b, s.mt q = some (.removed b) → q ≠ p := by
    rintro q b e rfl; rw [hm] at e; cases e; cases hr
  refine ⟨⟨?_, ?_⟩, ?_⟩
  · have hl := h.l.replace (L := s.lv) (est' := est') (m' := m') (St.cont_live hi hm hr) hi hw hh
      hnx he hoth (fun q hd e => hd (hdel q e)) hm' hv
    have e : (s.put cfg C.t p c' est' m' ops').lv =
        { s.lv with cont := upd s.lv.cont p (some c'), est := est', m := m' } := by
      have : (s.put cfg C.t p c' est' m' ops').cont = upd s.cont p (some c') := by
        funext q
        by_cases e : q = p
        · subst e
          rw [upd_same]
          exact St.cont_live (s := s.put cfg C.t q c' est' m' ops') hi (by simp [St.put]) hr'
        · rw [upd_ne _ _ e]
          simp only [St.cont, St.put, upd_ne _ _ e]
      unfold St.lv
      rw [this]; rfl
    rw [e]; exact hl
  · refine ⟨h.p.npos, ?_, ?_, ?_, ?_, ?_, ?_, h.p.root, h.p.cell, h.p.cfresh, ?_⟩
    · intro q hq
      have hf := h.p.fresh q hq
      have hne : q ≠ p := by rintro rfl; rw [hf.2.1] at hi; cases hi
      simp only [St.put, upd_ne _ _ hne]
      exact hf
    · intro q F0 l0 hq
      by_cases e : q = p
      · subst e
        refine ⟨c', by simp [St.put], ?_⟩
        rintro b rfl; cases hr'
      · simp only [St.put, upd_ne _ _ e]
        exact h.p.slot q F0 l0 hq
    · intro q c0 hq hc hn
      by_cases e : q = p
      · subst e
        simp only [St.put, upd_same, Option.some.injEq] at hc
        subst hc
        simp [St.put, hn]
      · simp only [St.put, upd_ne _ _ e] at hc ⊢
        exact h.p.frozen q c0 hq hc hn
    · intro q t hq hi0
      by_cases e : q = p
      · subst e
        simp only [St.put, upd_same] at hq ⊢
        refine ⟨c', rfl, Or.inl ?_⟩
        by_contra hn
        simp [hn] at hq
      · simp only [St.put, upd_ne _ _ e] at hq ⊢
        exact h.p.owned q t hq hi0
    · intro q n hq
      obtain ⟨h1, h2, ⟨b, h3⟩, h4⟩ := h.p.pend q n hq
      have e := hrem q b h3
      simp only [St.put, upd_ne _ _ e]
      exact ⟨h1, h2, ⟨b, h3⟩, h4⟩
    · intro q hq
      have : s.info q ≠ none ∧ ∃ b, s.mt q = some (.removed b) := by
        rcases hdel' q hq with e | e
        · exact h.p.del q e
        · exact ⟨e.1, e.2.1⟩
      obtain ⟨h1, b, h2⟩ := this
      have e := hrem q b h2
      simp only [St.put, upd_ne _ _ e]
      exact ⟨h1, b, h2⟩
    · intro q c0 hq hc
      have hne : q ≠ p := by rintro rfl; simp only [St.put, hi] at hq; cases hq
      simp only [St.put, upd_ne _ _ hne] at hc; exact h.p.unpub q c0 hq hc
  · apply guar_mk (fun q => q = p ∨ (est' q = .deleted ∧ s.est q ≠ .deleted))
    · rintro q (rfl | ⟨e1, e2⟩)
      · exact ⟨ho, hX⟩
      · rcases hdel' q e1 with e | e
        · exact absurd e e2
        · exact ⟨Or.inr e.2.2.1, e.2.2.2⟩
    · intro q u _ hu
      by_cases e : q = p
      · subst e
        simp only [St.put, upd_same] at hu
        split at hu
        · cases hu; exact Or.inr ⟨rfl, fun b hb => hrem q b hb rfl⟩
        · cases hu
      · simp only [St.put, upd_ne _ _ e] at hu; exact Or.inl hu
    · exact fun _ _ _ hu => Or.inl hu
    · intro q hn
      simp only [not_or, not_and, not_not] at hn
      simp only [St.put, upd_ne _ _ hn.1]
      simpa using hn.2
    · exact ⟨fun _ _ e => e, Nat.le_refl _, fun _ _ => rfl, fun _ _ e => e, hdel⟩
    · exact hun
    · exact hlin

/-! ## Structure modifications -/

section
variable {p r np : PID} {F : Nat} {low : Option K} {c : Chain K V}

/-- A page ID is reserved. -/
theorem Inv.newPid (h : Inv cfg s) :
    Inv cfg { s with npid := s.npid + 1, own := upd s.own s.npid (some C.t) } ∧
    (¬ C.X s.npid → Guar C s { s with npid := s.npid + 1, own := upd s.own s.npid (some C.t) }) := by
  have hf := h.p.fresh s.npid (Or.inl (Nat.le_refl _))
  refine ⟨⟨h.l, ?_⟩, fun hX => ?_⟩
  · refine ⟨Nat.succ_pos _, ?_, h.p.slot, ?_, ?_, ?_, h.p.del, h.p.root, h.p.cell, h.p.cfresh,
      h.p.unpub⟩
    · intro q hq
      simp only at hq ⊢
      have hne : q ≠ s.npid := by
        rintro rfl
        rcases hq with e | e
        · exact Nat.not_succ_le_self _ e
        · exact Nat.ne_of_gt h.p.npos e
      rw [upd_ne _ _ hne]
      exact h.p.fresh q (hq.imp_left (fun e => Nat.le_of_succ_le e))
    · intro q c0 hq hc hn
      simp only
      by_cases e : q = s.npid
      · subst e; simp
      · rw [upd_ne _ _ e]; exact h.p.frozen q c0 hq hc hn
    · intro q t hq hi0
      simp only at hq hi0
      by_cases e : q = s.npid
      · subst e; exact absurd hf.2.1 hi0
      · rw [upd_ne _ _ e] at hq; exact h.p.owned q t hq hi0
    · intro q n hq
      simp only at hq
      by_cases e : q = s.npid
      · subst e; rw [hf.2.2.2] at hq; cases hq
      · simp only [upd_ne _ _ e]; exact h.p.pend q n hq
  · apply guar_mk (fun q => q = s.npid)
    · rintro q rfl; exact ⟨Or.inl hf.2.2.1, hX⟩
    · rintro q u rfl hu
      simp only [upd_same, Option.some.injEq] at hu
      exact Or.inr ⟨hu.symm, by rw [hf.1]; simp⟩
    · exact fun _ _ _ hu => Or.inl hu
    · intro q hn
      simp only [upd_ne _ _ hn]; simp
    · exact ⟨fun _ _ e => e, Nat.le_refl _, fun _ _ => rfl, fun _ _ e => e, fun _ e => e⟩
    · exact fun _ _ _ _ e => e
    · exact Or.inl ⟨rfl, rfl⟩

/-- An own page that is not published yet is filled. -/
theorem Inv.stage (h : Inv cfg s) (ho : s.own r = some C.t) (hi : s.info r = none) (hX : ¬ C.X r)
    {n : Node K V} (hc : c = .base n) (hn : NodeWF cfg n) (hsz : n.size ≤ cfg.page) :
    Inv cfg { s with mt := upd s.mt r (some c) } ∧
    Guar C s { s with mt := upd s.mt r (some c) } := by
  refine ⟨⟨?_, ?_⟩, ?_⟩
  · have e : St.lv { s with mt := upd s.mt r (some c) } = s.lv := by
      have : St.cont { s with mt := upd s.mt r (some c) } = s.cont := by
        funext q
        by_cases e : q = r
        · subst e; simp only [St.cont, hi]
        · simp only [St.cont, upd_ne _ _ e]
      unfold St.lv; rw [this]
    rw [e]; exact h.l
  · refine ⟨h.p.npos, ?_, ?_, ?_, ?_, ?_, ?_, h.p.root, h.p.cell, h.p.cfresh, ?_⟩
    · intro q hq
      have hf := h.p.fresh q hq
      have hne : q ≠ r := by rintro rfl; rw [hf.2.2.1] at ho; cases ho
      simp only [upd_ne _ _ hne]; exact hf
    · intro q F0 l0 hq
      have hne : q ≠ r := by rintro rfl; simp only [hi] at hq; cases hq
      simp only [upd_ne _ _ hne]; exact h.p.slot q F0 l0 hq
    · intro q c0 hq hc hn
      have hne : q ≠ r := by rintro rfl; exact hq hi
      simp only [upd_ne _ _ hne] at hc; exact h.p.frozen q c0 hq hc hn
    · intro q t hq hi0
      have hne : q ≠ r := by rintro rfl; exact hi0 hi
      simp only [upd_ne _ _ hne]; exact h.p.owned q t hq hi0
    · intro q n hq
      have hp := h.p.pend q n hq
      have hne : q ≠ r := by rintro rfl; exact hp.2.1 hi
      simp only [upd_ne _ _ hne]; exact hp
    · intro q hq
      have hp := h.p.del q hq
      have hne : q ≠ r := by rintro rfl; exact hp.1 hi
      simp only [upd_ne _ _ hne]; exact hp
    · intro q c0 hq hc0
      by_cases e : q = r
      · subst e
        simp only [upd_same, Option.some.injEq] at hc0
        exact ⟨n, by rw [← hc0, hc], hn, hsz⟩
      · simp only [upd_ne _ _ e] at hc0; exact h.p.unpub q c0 hq hc0
  · apply guar_mk (fun q => q = r)
    · rintro q rfl; exact ⟨Or.inr ho, hX⟩
    · exact fun q u _ hu => Or.inl hu
    · exact fun _ _ _ hu => Or.inl hu
    · intro q hn
      simp only [upd_ne _ _ hn]; simp
    · exact ⟨fun _ _ e => e, Nat.le_refl _, fun _ _ => rfl, fun _ _ e => e, fun _ e => e⟩
    · exact fun _ _ _ _ e => e
    · exact Or.inl ⟨rfl, rfl⟩

/-- The state after the left half of a split was stored. -/
def St.doSplit (s : St K V) (t F : Nat) (sep : K) (p r : PID) (cl : Chain K V) : St K V :=
  { s with mt := upd s.mt p (some cl),
           info := upd s.info r (some (F, some sep)),
           est := upd s.est r (.unposted t),
           own := upd (upd s.own p none) r none }

theorem needWait_base (cfg : Cfg K) (n : Node K V) : (Chain.base n).needWait cfg = false := rfl

theorem Inv.doSplit (h : Inv cfg s) {nl nr : Node K V} {sep : K}
    (hi : s.info p = some (F, low)) (hm : s.mt p = some c) (hrm : c.isRemoved = false)
    (hop : s.own p = some C.t) (hXp : ¬ C.X p) (hor : s.own r = some C.t) (hir : s.info r = none)
    (hmr : s.mt r = some (.base nr)) (hXr : ¬ C.X r)
    (hwl : PageWF cfg { s.lv with info := upd s.info r (some (F, some sep)) } F low (.base nl))
    (hwr : PageWF cfg { s.lv with info := upd s.info r (some (F, some sep)) } F (some sep)
      (.base nr))
    (hhl : nl.high = some sep) (hhr : nr.high = c.high)
    (hnl : nl.next = r) (hnr : nr.next = c.nextPid)
    (hb : (Chain.base nl).flatBody ++ (Chain.base nr).flatBody = c.flatBody)
    (hs1 : LowOK low sep false) (hs2 : HighOK c.high sep true) :
    Inv cfg (s.doSplit C.t F sep p r (.base nl)) ∧
    Guar C s (s.doSplit C.t F sep p r (.base nl)) := by
  have hpr : p ≠ r := by rintro rfl; rw [hi] at hir; cases hir
  refine ⟨⟨?_, ?_⟩, ?_⟩
  · have hl := h.l.split (L := s.lv) (t := C.t) (St.cont_live hi hm hrm) hi hir hwl hwr hhl hhr
      hnl hnr hb hs1 hs2
    have e : (s.doSplit C.t F sep p r (.base nl)).lv =
        { s.lv with info := upd s.lv.info r (some (F, some sep)),
                    cont := upd (upd s.lv.cont p (some (.base nl))) r (some (.base nr)),
                    est := upd s.lv.est r (.unposted C.t) } := by
      have : (s.doSplit C.t F sep p r (.base nl)).cont =
          upd (upd s.cont p (some (.base nl))) r (some (.base nr)) := by
        funext q
        by_cases e : q = r
        · subst e
          simp only [upd_same, St.cont, St.doSplit, upd_ne _ _ (Ne.symm hpr), hmr]
        · by_cases e' : q = p
          · subst e'
            simp only [upd_same, St.cont, St.doSplit, upd_ne _ _ e, hi]
          · simp only [St.cont, St.doSplit, upd_ne _ _ e, upd_ne _ _ e']
      unfold St.lv; rw [this]; rfl
    rw [e]; exact hl
  · refine ⟨h.p.npos, ?_, ?_, ?_, ?_, ?_, ?_, ?_, ?_, h.p.cfresh, ?_⟩
    · intro q hq
      have hf := h.p.fresh q hq
      have hn1 : q ≠ p := by rintro rfl; rw [hf.2.1] at hi; cases hi
      have hn2 : q ≠ r := by rintro rfl; rw [hf.2.2.1] at hor; cases hor
      simp only [St.doSplit, upd_ne _ _ hn1, upd_ne _ _ hn2]; exact hf
    · intro q F0 l0 hq
      by_cases e : q = r
      · subst e
        simp only [St.doSplit, upd_ne _ _ (Ne.symm hpr), hmr]
        exact ⟨_, rfl, by intro b hb; cases hb⟩
      · simp only [St.doSplit, upd_ne _ _ e] at hq ⊢
        by_cases e' : q = p
        · subst e'
          simp only [upd_same]
          exact ⟨_, rfl, by intro b hb; cases hb⟩
        · rw [upd_ne _ _ e']; exact h.p.slot q F0 l0 hq
    · intro q c0 hq hc hn
      by_cases e : q = r
      · subst e
        simp only [St.doSplit, upd_ne _ _ (Ne.symm hpr), hmr] at hc
        cases hc; rw [needWait_base] at hn; cases hn
      · simp only [St.doSplit, upd_ne _ _ e] at hq hc ⊢
        by_cases e' : q = p
        · subst e'
          simp only [upd_same] at hc
          cases hc; rw [needWait_base] at hn; cases hn
        · rw [upd_ne _ _ e'] at hc ⊢; exact h.p.frozen q c0 hq hc hn
    · intro q t hq hi0
      by_cases e : q = r
      · subst e; simp [St.doSplit] at hq
      · by_cases e' : q = p
        · subst e'; simp [St.doSplit, upd_ne _ _ hpr] at hq
        · simp only [St.doSplit, upd_ne _ _ e, upd_ne _ _ e'] at hq hi0 ⊢
          exact h.p.owned q t hq hi0
    · intro q n hq
      obtain ⟨h1, h2, ⟨b, h3⟩, h4⟩ := h.p.pend q n hq
      have hn1 : q ≠ p := by rintro rfl; rw [hm] at h3; cases h3; cases hrm
      have hn2 : q ≠ r := by rintro rfl; exact h2 hir
      simp only [St.doSplit, upd_ne _ _ hn1, upd_ne _ _ hn2]
      exact ⟨h1, h2, ⟨b, h3⟩, h4⟩
    · intro q hq
      have hn2 : q ≠ r := by rintro rfl; simp [St.doSplit] at hq
      simp only [St.doSplit, upd_ne _ _ hn2] at hq ⊢
      obtain ⟨h2, b, h3⟩ := h.p.del q hq
      have hn1 : q ≠ p := by rintro rfl; rw [hm] at h3; cases h3; cases hrm
      rw [upd_ne _ _ hn1]; exact ⟨h2, b, h3⟩
    · obtain ⟨G, hG⟩ := h.p.root
      have : s.root ≠ r := by intro e; rw [e, hir] at hG; cases hG
      exact ⟨G, by simp only [St.doSplit, upd_ne _ _ this]; exact hG⟩
    · intro w G k hw
      rcases h.p.cell w G k hw with e | ⟨l, e1, e2⟩
      · exact Or.inl e
      · have : s.cells w ≠ r := by intro e; rw [e, hir] at e1; cases e1
        exact Or.inr ⟨l, by simp only [St.doSplit, upd_ne _ _ this]; exact e1, e2⟩
    · intro q c0 hq hc
      have hn2 : q ≠ r := by rintro rfl; simp [St.doSplit] at hq
      simp only [St.doSplit, upd_ne _ _ hn2] at hq hc
      have hn1 : q ≠ p := by rintro rfl; rw [hi] at hq; cases hq
      rw [upd_ne _ _ hn1] at hc; exact h.p.unpub q c0 hq hc
  · apply guar_mk (fun q => q = p ∨ q = r)
    · rintro q (rfl | rfl)
      · exact ⟨Or.inr hop, hXp⟩
      · exact ⟨Or.inr hor, hXr⟩
    · rintro q u (rfl | rfl) hu
      · simp [St.doSplit, upd_ne _ _ hpr] at hu
      · simp [St.doSplit] at hu
    · exact fun _ _ _ hu => Or.inl hu
    · intro q hn
      simp only [not_or] at hn
      simp only [St.doSplit, upd_ne _ _ hn.1, upd_ne _ _ hn.2]; simp
    · refine ⟨?_, Nat.le_refl _, fun _ _ => rfl, fun _ _ e => e, ?_⟩
      · intro q x hq
        have : q ≠ r := by rintro rfl; rw [hir] at hq; cases hq
        simp only [St.doSplit, upd_ne _ _ this]; exact hq
      · intro q hq
        have : q ≠ r := by rintro rfl; exact (h.p.del q hq).1 hir
        simp only [St.doSplit, upd_ne _ _ this]; exact hq
    · intro u q _ hn hq
      have : q ≠ r := by rintro rfl; exact hn hir
      simp only [St.doSplit, upd_ne _ _ this]; exact hq
    · exact Or.inl ⟨rfl, rfl⟩

/-- The state after a page was marked removed. -/
def St.doRemove (s : St K V) (t : Nat) (p : PID) (b : Bool) (n : Node K V) : St K V :=
  { s with mt := upd s.mt p (some (.removed b)),
           own := upd s.own p (some t), pend := upd s.pend p (some n) }

theorem needWait_removed (hpos : 0 < cfg.maxDelta) (b : Bool) :
    (Chain.removed (K := K) (V := V) b).needWait cfg = false := by
  show (true && (decide (cfg.maxDelta ≤ 0) || decide ((cfg.page : Int) < 0))) = false
  rw [decide_eq_false (by omega), decide_eq_false (by omega)]; rfl

theorem Inv.doRemove (h : Inv cfg s) {n : Node K V}
    (hi : s.info p = some (F, low)) (hm : s.mt p = some c) (hrm : c.isRemoved = false)
    (hop : s.own p = none ∨ s.own p = some C.t) (hXp : ¬ C.X p)
    (hw : PageWF cfg s.lv F low (.base n)) (hb : (Chain.base n).flatBody = c.flatBody)
    (hh : (Chain.base n).high = c.high) (hsz : n.size ≤ cfg.minSize) (hcons : IsCons c n) :
    Inv cfg (s.doRemove C.t p (decide (F = 0)) n) ∧
    Guar C s (s.doRemove C.t p (decide (F = 0)) n) := by
  have hcont := St.cont_live hi hm hrm
  refine ⟨⟨?_, ?_⟩, ?_⟩
  · have hl := h.l.replace (L := s.lv) (est' := s.est) (m' := s.m) hcont hi hw hh hcons.2.2.2.1
      (by intro sep q hq; rw [hb] at hq; exact h.l.ents p c F low sep q hcont hi hq)
      (fun _ _ _ _ _ _ _ _ _ _ => rfl) (fun _ e => e) (fun _ _ => rfl)
      (by rintro rfl k hk; rw [hb]; exact h.l.val p c low k hcont hi hk)
    have e : (s.doRemove C.t p (decide (F = 0)) n).lv =
        { s.lv with cont := upd s.lv.cont p (some (.base n)), est := s.est, m := s.m } := by
      have : (s.doRemove C.t p (decide (F = 0)) n).cont = upd s.cont p (some (.base n)) := by
        funext q
        by_cases e : q = p
        · subst e
          simp only [upd_same, St.cont, St.doRemove, hi, Option.map]
        · simp only [St.cont, St.doRemove, upd_ne _ _ e]
      unfold St.lv; rw [this]; rfl
    rw [e]; exact hl
  · refine ⟨h.p.npos, ?_, ?_, ?_, ?_, ?_, ?_, h.p.root, h.p.cell, h.p.cfresh, ?_⟩
    · intro q hq
      have hf := h.p.fresh q hq
      have hn1 : q ≠ p := by rintro rfl; rw [hf.2.1] at hi; cases hi
      simp only [St.doRemove, upd_ne _ _ hn1]; exact hf
    · intro q F0 l0 hq
      by_cases e' : q = p
      · subst e'
        refine ⟨_, by simp [St.doRemove]; rfl, ?_⟩
        intro b hb
        simp only [St.doRemove] at hq
        rw [hi] at hq; cases hq; cases hb; rfl
      · simp only [St.doRemove, upd_ne _ _ e']; exact h.p.slot q F0 l0 hq
    · intro q c0 hq hc hn
      by_cases e' : q = p
      · subst e'; simp [St.doRemove]
      · simp only [St.doRemove, upd_ne _ _ e'] at hc ⊢; exact h.p.frozen q c0 hq hc hn
    · intro q t hq hi0
      by_cases e' : q = p
      · subst e'
        exact ⟨_, by simp [St.doRemove]; rfl, Or.inr ⟨⟨_, rfl⟩, by simp [St.doRemove]⟩⟩
      · simp only [St.doRemove, upd_ne _ _ e'] at hq hi0 ⊢
        exact h.p.owned q t hq hi0
    · intro q m hq
      by_cases e' : q = p
      · subst e'
        simp only [St.doRemove, upd_same, Option.some.injEq] at hq ⊢
        subst hq
        exact ⟨by simp, by rw [hi]; simp, ⟨_, rfl⟩, hsz⟩
      · simp only [St.doRemove, upd_ne _ _ e'] at hq ⊢; exact h.p.pend q m hq
    · intro q hq
      by_cases e' : q = p
      · subst e'
        obtain ⟨_, b, e⟩ := h.p.del q hq
        rw [hm] at e; cases e; cases hrm
      · simp only [St.doRemove, upd_ne _ _ e']; exact h.p.del q hq
    · intro q c0 hq hc
      have hne : q ≠ p := by rintro rfl; simp only [St.doRemove, hi] at hq; cases hq
      simp only [St.doRemove, upd_ne _ _ hne] at hc; exact h.p.unpub q c0 hq hc
  · apply guar_mk (fun q => q = p)
    · rintro q rfl; exact ⟨hop, hXp⟩
    · rintro q u rfl hu
      simp only [St.doRemove, upd_same, Option.some.injEq] at hu
      refine Or.inr ⟨hu.symm, fun b hb => ?_⟩
      rw [hm] at hb; cases hb; cases hrm
    · rintro q m rfl hu
      simp only [St.doRemove, upd_same, Option.some.injEq] at hu
      subst hu
      exact Or.inr ⟨c, hm, hrm, hcons⟩
    · intro q hn
      simp only [St.doRemove, upd_ne _ _ hn]; simp
    · exact ⟨fun _ _ e => e, Nat.le_refl _, fun _ _ => rfl, fun _ _ e => e, fun _ e => e⟩
    · exact fun _ _ _ _ e => e
    · exact Or.inl ⟨rfl, rfl⟩

/-- The state after a removal was undone. -/
def St.undo (s : St K V) (p : PID) (n : Node K V) : St K V :=
  { s with mt := upd s.mt p (some (.base n)),
           own := upd s.own p none, pend := upd s.pend p none }

theorem Inv.undo (h : Inv cfg s) {n : Node K V} {b : Bool}
    (hi : s.info p = some (F, low)) (hm : s.mt p = some (.removed b))
    (hp : s.pend p = some n) (hop : s.own p = some C.t) (hXp : ¬ C.X p)
    (hd : s.est p ≠ .deleted) :
    Inv cfg (s.undo p n) ∧ Guar C s (s.undo p n) := by
  refine ⟨⟨?_, ?_⟩, ?_⟩
  · have e : (s.undo p n).lv = s.lv := by
      have : (s.undo p n).cont = s.cont := by
        funext q
        by_cases e : q = p
        · subst e
          simp only [upd_same, St.cont, St.undo, hi, hm, hp, Option.map]
        · simp only [St.cont, St.undo, upd_ne _ _ e]
      unfold St.lv; rw [this]; rfl
    rw [e]; exact h.l
  · refine ⟨h.p.npos, ?_, ?_, ?_, ?_, ?_, ?_, h.p.root, h.p.cell, h.p.cfresh, ?_⟩
    · intro q hq
      have hf := h.p.fresh q hq
      have hn1 : q ≠ p := by rintro rfl; rw [hf.2.1] at hi; cases hi
      simp only [St.undo, upd_ne _ _ hn1]; exact hf
    · intro q F0 l0 hq
      by_cases e' : q = p
      · subst e'
        refine ⟨_, by simp [St.undo]; rfl, ?_⟩
        intro b hb; cases hb
      · simp only [St.undo, upd_ne _ _ e']; exact h.p.slot q F0 l0 hq
    · intro q c0 hq hc hn
      by_cases e' : q = p
      · subst e'; simp [St.undo] at hc; subst hc; rw [needWait_base] at hn; cases hn
      · simp only [St.undo, upd_ne _ _ e'] at hc ⊢; exact h.p.frozen q c0 hq hc hn
    · intro q t hq hi0
      by_cases e' : q = p
      · subst e'; simp [St.undo] at hq
      · simp only [St.undo, upd_ne _ _ e'] at hq hi0 ⊢
        exact h.p.owned q t hq hi0
    · intro q m hq
      by_cases e' : q = p
      · subst e'
        simp [St.undo] at hq
      · simp only [St.undo, upd_ne _ _ e'] at hq ⊢; exact h.p.pend q m hq
    · intro q hq
      have e' : q ≠ p := by rintro rfl; exact hd hq
      simp only [St.undo, upd_ne _ _ e']; exact h.p.del q hq
    · intro q c0 hq hc
      have hne : q ≠ p := by rintro rfl; simp only [St.undo, hi] at hq; cases hq
      simp only [St.undo, upd_ne _ _ hne] at hc; exact h.p.unpub q c0 hq hc
  · apply guar_mk (fun q => q = p)
    · rintro q rfl; exact ⟨Or.inr hop, hXp⟩
    · rintro q u rfl hu
      simp [St.undo] at hu
    · rintro q m rfl hu
      simp [St.undo] at hu
    · intro q hn
      simp only [St.undo, upd_ne _ _ hn]; simp
    · exact ⟨fun _ _ e => e, Nat.le_refl _, fun _ _ => rfl, fun _ _ e => e, fun _ e => e⟩
    · exact fun _ _ _ _ e => e
    · exact Or.inl ⟨rfl, rfl⟩

/-- The state after a merge delta was installed. -/
def St.doMerge (cfg : Cfg K) (s : St K V) (t : Nat) (p q : PID) (c' : Chain K V) : St K V :=
  { s with mt := upd s.mt p (some c'),
           own := upd (upd s.own p (if c'.needWait cfg then some t else none)) q none,
           pend := upd s.pend q none }

theorem Inv.doMerge (hpos : 0 < cfg.maxDelta) (h : Inv cfg s) {q : PID} {n : Node K V} {b : Bool} {dk : K} {c' : Chain K V}
    (hi : s.info p = some (F, low)) (hm : s.mt p = some c) (hrm : c.isRemoved = false)
    (hop : s.own p = none) (hXp : ¬ C.X p)
    (hiq : s.info q = some (F, some dk)) (hmq : s.mt q = some (.removed b))
    (hpq : s.pend q = some n) (hoq : s.own q = some C.t) (hXq : ¬ C.X q)
    (hdq : s.est q = .deleted)
    (hw : PageWF cfg s.lv F low c') (hh : c.high = some dk) (hh' : c'.high = (Chain.base n).high)
    (hnx : c'.nextPid = (Chain.base n).nextPid)
    (hb : c'.flatBody = c.flatBody ++ (Chain.base n).flatBody) :
    Inv cfg (s.doMerge cfg C.t p q c') ∧ Guar C s (s.doMerge cfg C.t p q c') := by
  have hr' := hw.not_removed
  have hne : p ≠ q := by rintro rfl; rw [hm] at hmq; cases hmq; cases hrm
  refine ⟨⟨?_, ?_⟩, ?_⟩
  · have hl := h.l.merge (L := s.lv) (St.cont_live hi hm hrm) hi
      (cq := .base n) (by show s.cont q = _; rw [St.cont_pend hiq hmq, hpq]; rfl) hiq hne hdq hw hh
      hh' hnx hb
    have e : (s.doMerge cfg C.t p q c').lv =
        { s.lv with cont := upd (upd s.lv.cont p (some c')) q none } := by
      have : (s.doMerge cfg C.t p q c').cont = upd (upd s.cont p (some c')) q none := by
        funext x
        by_cases e : x = q
        · subst e
          simp only [upd_same, St.cont, St.doMerge, hiq, upd_ne _ _ (Ne.symm hne), hmq, Option.map]
        · by_cases e' : x = p
          · subst e'
            rw [upd_ne _ _ e, upd_same]
            exact St.cont_live (s := s.doMerge cfg C.t x q c') hi (by simp [St.doMerge]) hr'
          · simp only [St.cont, St.doMerge, upd_ne _ _ e, upd_ne _ _ e']
      unfold St.lv; rw [this]; rfl
    rw [e]; exact hl
  · refine ⟨h.p.npos, ?_, ?_, ?_, ?_, ?_, ?_, h.p.root, h.p.cell, h.p.cfresh, ?_⟩
    · intro x hx
      have hf := h.p.fresh x hx
      have hn1 : x ≠ p := by rintro rfl; rw [hf.2.1] at hi; cases hi
      have hn2 : x ≠ q := by rintro rfl; rw [hf.2.1] at hiq; cases hiq
      simp only [St.doMerge, upd_ne _ _ hn1, upd_ne _ _ hn2]; exact hf
    · intro x F0 l0 hx
      by_cases e' : x = p
      · subst e'
        refine ⟨c', by simp [St.doMerge], ?_⟩
        rintro b rfl; cases hr'
      · simp only [St.doMerge, upd_ne _ _ e']; exact h.p.slot x F0 l0 hx
    · intro x c0 hx hc hn
      by_cases e' : x = p
      · subst e'
        simp only [St.doMerge, upd_same, Option.some.injEq] at hc
        subst hc
        simp [St.doMerge, hn, upd_ne _ _ hne]
      · simp only [St.doMerge, upd_ne _ _ e'] at hc ⊢
        by_cases e : x = q
        · subst e
          rw [hmq] at hc; cases hc
          rw [needWait_removed hpos] at hn; cases hn
        · rw [upd_ne _ _ e, upd_ne _ _ e']; exact h.p.frozen x c0 hx hc hn
    · intro x t hx hi0
      by_cases e : x = q
      · subst e; simp [St.doMerge] at hx
      · by_cases e' : x = p
        · subst e'
          simp only [St.doMerge, upd_ne _ _ hne, upd_same] at hx ⊢
          refine ⟨c', rfl, Or.inl ?_⟩
          by_contra hn
          simp [hn] at hx
        · simp only [St.doMerge, upd_ne _ _ e', upd_ne _ _ e] at hx hi0 ⊢
          exact h.p.owned x t hx hi0
    · intro x m hx
      have e : x ≠ q := by rintro rfl; simp [St.doMerge] at hx
      simp only [St.doMerge, upd_ne _ _ e] at hx ⊢
      obtain ⟨h1, h2, ⟨b', h3⟩, h4⟩ := h.p.pend x m hx
      have hn1 : x ≠ p := by rintro rfl; rw [hm] at h3; cases h3; cases hrm
      rw [upd_ne _ _ hn1, upd_ne _ _ hn1]; exact ⟨h1, h2, ⟨b', h3⟩, h4⟩
    · intro x hx
      obtain ⟨h2, b', h3⟩ := h.p.del x hx
      have hn1 : x ≠ p := by rintro rfl; rw [hm] at h3; cases h3; cases hrm
      simp only [St.doMerge, upd_ne _ _ hn1]; exact ⟨h2, b', h3⟩
    · intro x c0 hx hc
      have hn1 : x ≠ p := by rintro rfl; simp only [St.doMerge, hi] at hx; cases hx
      simp only [St.doMerge, upd_ne _ _ hn1] at hc; exact h.p.unpub x c0 hx hc
  · apply guar_mk (fun x => x = p ∨ x = q)
    · rintro x (rfl | rfl)
      · exact ⟨Or.inl hop, hXp⟩
      · exact ⟨Or.inr hoq, hXq⟩
    · rintro x u (rfl | rfl) hu
      · simp only [St.doMerge, upd_ne _ _ hne, upd_same] at hu
        split at hu
        · cases hu
          refine Or.inr ⟨rfl, fun b' hb' => ?_⟩
          rw [hm] at hb'; cases hb'; cases hrm
        · cases hu
      · simp [St.doMerge] at hu
    · rintro x m (rfl | rfl) hu
      · simp only [St.doMerge, upd_ne _ _ hne] at hu
        exact Or.inl hu
      · simp [St.doMerge] at hu
    · intro x hn
      simp only [not_or] at hn
      simp only [St.doMerge, upd_ne _ _ hn.1, upd_ne _ _ hn.2]; simp
    · exact ⟨fun _ _ e => e, Nat.le_refl _, fun _ _ => rfl, fun _ _ e => e, fun _ e => e⟩
    · exact fun _ _ _ _ e => e
    · exact Or.inl ⟨rfl, rfl⟩

end

end BwTree
