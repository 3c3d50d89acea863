import Verif.Conc.Solo
import Verif.Conc.SeqOps
import Verif.Conc.Sure
import Verif.Spec.Quiet

/-!
# Scans that run alone (helper lemmas)

In a state that satisfies the invariant, in which no page makes its visitors wait and no live leaf has
a removed right sibling, the visits of a scan end.
-/

namespace BwTree

set_option linter.unusedSectionVars false

variable {K V : Type} [LinearOrder K] {cfg : Cfg K} {s : St K V} {key : K} {closed : Bool}

/-- No page makes its visitors wait, and no live leaf has a removed right sibling. -/
structure Still (cfg : Cfg K) (s : St K V) : Prop where
  wait : ∀ p c, s.mt p = some c → c.needWait cfg = false
  next : ∀ p low c h, s.info p = some (0, low) → s.mt p = some c → c.isRemoved = false →
    c.high = some h → ∃ c', s.mt c.nextPid = some c' ∧ c'.isRemoved = false

/-- A live leaf. -/
structure LeafPage (s : St K V) (low : Option K) (p : PID) : Prop where
  info : s.info p = some (0, low)
  live : ∃ c, s.mt p = some c ∧ c.isRemoved = false

/-- What a visit leaves. -/
structure VisitOK (s : St K V) (b e : Spec.Bound K) (x : List (K × V) × Option (K × PID)) : Prop where
  page : Spec.PageOK s.m b e x.1 (x.2.map Prod.fst)
  next : ∀ k p, x.2 = some (k, p) → LeafPage s (some k) p

theorem Still.head (hS : Still cfg s) {p : PID} {c : Chain K V} (hm : s.mt p = some c) (f : Nat) :
    Yields s.toSh (loadValidHead cfg (f + 1) p) c := by
  refine .load hm ?_
  simp only [hS.wait p c hm, Bool.false_eq_true, if_false]
  exact .ret _

theorem getHead_yields (hI : Inv cfg s) (hS : Still cfg s) :
    ∀ (n : Nat) {low : Option K} {p : PID} {rest : Stk}, (after s 0 low).card < n →
      LeafPage s low p → LowOK low key closed →
      ∃ N q c low', (∀ f, N ≤ f →
        Yields s.toSh (getHead cfg key closed 0 f (p :: rest)) (some (c, q :: rest))) ∧
        s.info q = some (0, low') ∧ s.mt q = some c ∧ c.isRemoved = false ∧
        LowOK low' key closed ∧ HighOK c.high key closed := by
  intro n
  induction n with
  | zero => intro low p rest hn; exact absurd hn (Nat.not_lt_zero _)
  | succ n ih =>
    intro low p rest hn h hlow
    obtain ⟨hi, c, hm, hr⟩ := h
    obtain ⟨hcont, hw⟩ := hI.live hi hm hr
    by_cases hh : HighOK c.high key closed
    · refine ⟨2, p, c, low, ?_, hi, hm, hr, hlow, hh⟩
      intro f hf
      obtain ⟨f, rfl⟩ := Nat.exists_eq_add_of_le' hf
      refine (hS.head hm f).bind ?_
      simp only [(dcValidate_spec hw.wf key closed).1 hh]
      exact .ret _
    · obtain ⟨b, b1, b2, b3⟩ := hw.sibling hh
      have hlt := after_lt hI (low := low) b2 (fun x hx => by
        subst hx; exact hw.wf.nonempty x b rfl b1)
      obtain ⟨N, q, c', low', g1, g2⟩ := ih (low := some b) (p := c.nextPid) (rest := rest) (by omega)
        ⟨b2, hS.next p low c b hi hm hr b1⟩ b3
      refine ⟨N + 2, q, c', low', ?_, g2⟩
      intro f hf
      obtain ⟨f, rfl⟩ := Nat.exists_eq_add_of_le' (Nat.le_trans (Nat.le_add_left 2 N) hf)
      refine (hS.head hm f).bind ?_
      have hne : c.nextPid ≠ 0 := hI.info_ne_zero b2
      simp only [(dcValidate_spec hw.wf key closed).2 hh, hne, if_false]
      exact g1 (f + 1) (by omega)

theorem Still.visit (hc : CfgOK2 cfg) (hI : Inv cfg s) (hS : Still cfg s) {b e : Spec.Bound K}
    {p : PID} {low : Option K} {c : Chain K V} (hi : s.info p = some (0, low))
    (hm : s.mt p = some c) (hr : c.isRemoved = false) (hb0 : b = none → low = none)
    (hb : ∀ x cl, b = some (x, cl) → LowOK low x cl ∧ HighOK c.high x cl) :
    ∃ x, scanOut cfg b e c = some x ∧ VisitOK s b e x := by
  obtain ⟨hcont, hw⟩ := hI.live hi hm hr
  have hwf := hw.wf
  simp only [ne_eq, not_true_eq_false, decide_false] at hwf
  obtain ⟨recs, nx, h1, h2, h3⟩ := scanOut_spec hc.toCfgOK hwf (m := s.m)
    (fun k hk => hI.l.val p c low k hcont hi hk) (e := e) hb0 hb
  refine ⟨(recs, nx), h1, h2, ?_⟩
  intro k q hkq
  obtain ⟨e1, e2⟩ := h3 k q hkq
  rw [e2]
  exact ⟨hw.link k e1, hS.next p low c k hi hm hr e1⟩

theorem scanFrom_yields (hc : CfgOK2 cfg) (hI : Inv cfg s) (hS : Still cfg s) {e : Spec.Bound K}
    {low : Option K} {p : PID} {rest : Stk} (h : LeafPage s low p) (hlow : LowOK low key closed) :
    ∃ N x, (∀ f, N ≤ f → Yields s.toSh (scanFrom cfg key closed e f (p :: rest)) x) ∧
      VisitOK s (some (key, closed)) e x := by
  obtain ⟨N, q, c, low', g1, g2, g3, g4, g5, g6⟩ := getHead_yields hI hS _ (rest := rest)
    (Nat.lt_succ_self _) h hlow
  obtain ⟨_, hw⟩ := hI.live g2 g3 g4
  have hli := liveInner_eq g4 hw.isLeaf
  simp only [ne_eq, not_true_eq_false, decide_false] at hli
  obtain ⟨x, e1, e2⟩ := hS.visit hc hI (b := some (key, closed)) (e := e) g2 g3 g4
    (fun e => by cases e) (fun y cl hy => by cases hy; exact ⟨g5, g6⟩)
  refine ⟨N + 1, x, fun f hf => ?_, e2⟩
  obtain ⟨f, rfl⟩ := Nat.exists_eq_add_of_le' (Nat.le_trans (Nat.le_add_left 1 N) hf)
  refine (g1 f (by omega)).bind ?_
  simp only [g4, hli, Bool.false_eq_true, if_false, e1]
  exact .ret _

/-- `p` is on the way to the leftmost leaf. -/
structure OnLeft (s : St K V) (F : Nat) (p : PID) : Prop where
  route : Spec.LeftRoute s.toSh p
  info : s.info p = some (F, none)

theorem leftmostLoop_yields (hI : Inv cfg s)
    (hC : ∀ p b, Spec.LeftRoute s.toSh p → s.mt p ≠ some (.removed b)) :
    ∀ (n : Nat) {F : Nat} {p : PID}, F < n → OnLeft s F p →
      ∃ N q, (∀ f, N ≤ f → Yields s.toSh (leftmostLoop f p) q) ∧ LeafPage s none q := by
  intro n
  induction n with
  | zero => intro F p hn; exact absurd hn (Nat.not_lt_zero _)
  | succ n ih =>
    intro F p hn h
    obtain ⟨c, hm, _⟩ := hI.p.slot p F none h.info
    have hr : c.isRemoved = false := by
      cases c with
      | removed b => exact absurd hm (hC p b h.route)
      | base n => rfl
      | delta d nx => rfl
    obtain ⟨_, hw⟩ := hI.live h.info hm hr
    by_cases hF : F = 0
    · subst hF
      refine ⟨1, p, fun f hf => ?_, h.info, c, hm, hr⟩
      obtain ⟨f, rfl⟩ := Nat.exists_eq_add_of_le' hf
      refine .load hm ?_
      simp only [hw.isLeaf, decide_true, if_true]
      exact .ret _
    · have hl : c.isLeaf = false := by rw [hw.isLeaf]; simp [hF]
      have hwf := hw.wf
      simp only [hF, ne_eq, not_false_eq_true, decide_true] at hwf
      obtain ⟨q, hq1, hq2⟩ := hwf.leftmostChild hw.ents
      have hlt : s.fcf F < F := hI.l.fcf F (Nat.pos_of_ne_zero hF) (hI.l.fam p F none h.info)
      obtain ⟨N, q', g1, g2⟩ := ih (F := s.fcf F) (p := q) (by omega) ⟨.child h.route hm hl hq1, hq2⟩
      refine ⟨N + 1, q', fun f hf => ?_, g2⟩
      obtain ⟨f, rfl⟩ := Nat.exists_eq_add_of_le' (Nat.le_trans (Nat.le_add_left 1 N) hf)
      refine .load hm ?_
      simp only [hl, hr, Bool.false_eq_true, if_false, hq1]
      exact g1 f (by omega)

/-- The first visit. -/
theorem scanFirst_yields (hc : CfgOK2 cfg) (hI : Inv cfg s) (hS : Still cfg s) {b e : Spec.Bound K}
    (hb : Spec.CalmBegin s.toSh b)
    (hw : ∀ p c k cl w, s.mt p = some c → childStep k cl c = .cell w → s.cells w ≠ 0) :
    ∃ N x, (∀ f, N ≤ f → Yields s.toSh (scanFirst cfg f b e) x) ∧ VisitOK s b e x := by
  cases b with
  | some y =>
    obtain ⟨k, cl⟩ := y
    have hC : Spec.Calm s.toSh k cl := ⟨hb, fun p c w _ hm _ hs => hw p c k cl w hm hs⟩
    obtain ⟨N, q, rest, low, h1, h2⟩ := searchLeaf_yields hI hC
    obtain ⟨c, g1, g2, _⟩ := h2.live hI hC
    obtain ⟨N', x, h3, h4⟩ := scanFrom_yields hc hI hS (e := e) (rest := rest)
      ⟨h2.info, c, g1, g2⟩ h2.low
    exact ⟨max N N', x, fun f hf => (h1 f (by omega)).bind (h3 f (by omega)), h4⟩
  | none =>
    obtain ⟨F, hF⟩ := hI.p.root
    obtain ⟨N, q, h1, h2, c, h3, h4⟩ := leftmostLoop_yields hI hb (F + 1) (Nat.lt_succ_self _)
      ⟨.root, hF⟩
    obtain ⟨x, e1, e2⟩ := hS.visit hc hI (b := none) (e := e) h2 h3 h4 (fun _ => rfl)
      (fun y cl hy => by cases hy)
    refine ⟨N + 1, x, fun f hf => ?_, e2⟩
    obtain ⟨f, rfl⟩ := Nat.exists_eq_add_of_le' (Nat.le_trans (Nat.le_add_left 1 N) hf)
    refine Yields.bind (a := q) (.loadRoot (h1 (f + 1) (by omega))) (.load h3 ?_)
    simp only [h4, Bool.false_eq_true, if_false, e1]
    exact .ret _

/-- The visits after the first. -/
theorem scanNext_yields (hc : CfgOK2 cfg) (hI : Inv cfg s) (hS : Still cfg s) {e : Spec.Bound K}
    {p : PID} (h : LeafPage s (some key) p) :
    ∃ N x, (∀ f, N ≤ f → Yields s.toSh (scanNext cfg f p key e) x) ∧
      VisitOK s (some (key, true)) e x :=
  scanFrom_yields hc hI hS h (by intro l hl; cases hl; simp)

/-! ## In the system -/

/-- Loads of one thread. -/
theorem Yields.sure {S₀ S : Sys K V} {h : List (Spec.Event K V)} {t : Nat} {call : Spec.Call K V}
    {prog : Prog K V (Out K V)} {a : Out K V} {sh : Sh K V} (hy : Yields sh prog a) (hsh : S.sh = sh)
    (hr : SureRun cfg S₀ h S) (ht : S.th t = .run call prog) :
    ∃ S', SureRun cfg S₀ h S' ∧ S'.sh = S.sh ∧ S'.th t = .run call (.ret a) ∧
      (∀ u, u ≠ t → S'.th u = S.th u) ∧ S'.it = S.it := by
  have step : ∀ {p p' : Prog K V (Out K V)} {S : Sys K V}, SureRun cfg S₀ h S → S.sh = sh →
      S.th t = .run call p → Sure sh p sh p' →
      (∀ S : Sys K V, SureRun cfg S₀ h S → S.sh = sh → S.th t = .run call p' →
        ∃ S', SureRun cfg S₀ h S' ∧ S'.sh = S.sh ∧ S'.th t = .run call (.ret a) ∧
          (∀ u, u ≠ t → S'.th u = S.th u) ∧ S'.it = S.it) →
      ∃ S', SureRun cfg S₀ h S' ∧ S'.sh = S.sh ∧ S'.th t = .run call (.ret a) ∧
          (∀ u, u ≠ t → S'.th u = S.th u) ∧ S'.it = S.it := by
    intro p p' S hr hs ht hst ih
    obtain ⟨S', g1, g2, g3, g4, g5⟩ := ih _ (hr.tau (.access S t call p p' sh ht (by rw [hs]; exact hst)))
      rfl (upd_same ..)
    exact ⟨S', g1, g2.trans hs.symm, g3, fun u hu => (g4 u hu).trans (upd_ne _ _ hu), g5⟩
  induction hy generalizing S with
  | ret a => exact ⟨S, hr, rfl, ht, fun _ _ => rfl, rfl⟩
  | load hm _ ih => exact step hr hsh ht (.firm (.mk (.load _ _ _ _ hm) (by rintro _ _ _ _ ⟨⟩))) fun S g1 g2 g3 => ih g2 g1 g3 step
  | loadRoot _ ih => exact step hr hsh ht (.firm (.mk (.loadRoot _ _) (by rintro _ _ _ _ ⟨⟩))) fun S g1 g2 g3 => ih g2 g1 g3 step
  | loadCell _ ih => exact step hr hsh ht (.firm (.mk (.loadCell _ _ _) (by rintro _ _ _ _ ⟨⟩))) fun S g1 g2 g3 => ih g2 g1 g3 step

/-- A visit of one thread while the others are idle. -/
theorem Yields.visit {S₀ S : Sys K V} {h : List (Spec.Event K V)} {t : Nat} {b e : Spec.Bound K}
    {prog : Prog K V (List (K × V) × Option (K × PID))} {x : List (K × V) × Option (K × PID)}
    (hy : Yields S.sh prog x) (hr : SureRun cfg S₀ h S) (hq : ∀ t, S.th t = .idle)
    (hs : SysStep cfg S (some (.inv t (.visit b e)))
      { S with th := upd S.th t (.run (.visit b e) (prog.bind fun x => .ret (visitOut e x))) }) :
    ∃ S', SureRun cfg S₀ (h ++ Spec.scanEvents t e [⟨b, x.1, x.2.map Prod.fst⟩]) S' ∧ S'.sh = S.sh ∧
      (∀ t, S'.th t = .idle) ∧ S'.it t = x.2.map fun y => (y.2, y.1, e) := by
  obtain ⟨S1, g1, g2, g3, g4, _⟩ := Yields.sure (t := t) (call := .visit b e) (cfg := cfg) (S₀ := S₀)
    (h := h ++ [.inv t (.visit b e)])
    (S := { S with th := upd S.th t (.run (.visit b e) (prog.bind fun x => .ret (visitOut e x))) })
    (hy.bind (g := fun x => .ret (visitOut e x)) (.ret _)) rfl (hr.event (.event hs)) (upd_same ..)
  have g5 := g1.event (.event (.retVisit S1 t b e _ g3))
  rw [List.append_assoc] at g5
  refine ⟨_, g5, g2, fun u => ?_, upd_same ..⟩
  by_cases hu : u = t
  · subst hu; exact upd_same ..
  · exact (upd_ne _ _ hu).trans ((g4 u hu).trans ((upd_ne _ _ hu).trans (hq u)))

/-- The iterator reaches the end. -/
theorem scan_rest (hc : CfgOK2 cfg) (hI : Inv cfg s) (hS : Still cfg s) {S₀ : Sys K V} {t : Nat}
    {e : Spec.Bound K} : ∀ (N : Nat) {S : Sys K V} {h : List (Spec.Event K V)} {p : PID} {k : K},
    (after s 0 (some k)).card < N → S.sh = s.toSh → SureRun cfg S₀ h S → (∀ t, S.th t = .idle) →
    S.it t = some (p, k, e) → LeafPage s (some k) p →
    ∃ vs S', SureRun cfg S₀ (h ++ Spec.scanEvents t e vs) S' ∧ S'.sh = S.sh ∧ (∀ t, S'.th t = .idle) ∧
      Spec.Linked (some (k, true)) vs ∧ Spec.Finished vs ∧
      ∀ v ∈ vs, Spec.PageOK s.m v.b e v.recs v.next := by
  intro N
  induction N with
  | zero => intro S h p k hn; exact absurd hn (Nat.not_lt_zero _)
  | succ N ih =>
    intro S h p k hn hsh hr hq hit hp
    obtain ⟨f, ⟨recs, nx⟩, h1, h2⟩ := scanNext_yields hc hI hS (e := e) hp
    obtain ⟨S1, g1, g2, g3, g4⟩ := Yields.visit (by rw [hsh]; exact h1 f (Nat.le_refl _)) hr hq
      (.next S t f p k e (hq t) hit)
    cases nx with
    | none =>
      refine ⟨_, S1, g1, g2, g3, ⟨rfl, fun h => absurd rfl h⟩, ⟨_, rfl, rfl⟩, fun v hv => ?_⟩
      rw [List.mem_singleton] at hv; subst hv; exact h2.page
    | some y =>
      obtain ⟨k', p'⟩ := y
      have hn' := h2.next k' p' rfl
      have hlt : k < k' := by
        rcases h2.page.next_from k' k true rfl rfl with e | ⟨e, _⟩
        · exact e
        · cases e
      have hcard := after_lt hI (low := some k) hn'.info (by intro x hx; cases hx; exact hlt)
      have hN : (after s 0 (some k')).card < N := by omega
      obtain ⟨vs, S2, e1, e2, e3, e4, e5, e6⟩ := ih hN (g2.trans hsh) g1 g3 g4 hn'
      refine ⟨⟨some (k, true), recs, some k'⟩ :: vs, S2, ?_, e2.trans g2, e3,
        ⟨rfl, fun _ => ⟨k', rfl, e4⟩⟩, ?_, fun v hv => ?_⟩
      · rw [List.append_assoc] at e1; exact e1
      · obtain ⟨v, d1, d2⟩ := e5
        refine ⟨v, ?_, d2⟩
        cases vs with
        | nil => cases d1
        | cons a b => rw [List.getLast?_cons_cons]; exact d1
      · rcases List.mem_cons.mp hv with rfl | hv
        · exact h2.page
        · exact e6 v hv

/-- A whole scan. -/
theorem scan_whole (hc : CfgOK2 cfg) (hI : Inv cfg s) (hS : Still cfg s) {S₀ S : Sys K V}
    {h : List (Spec.Event K V)} (t : Nat) {b e : Spec.Bound K} (hsh : S.sh = s.toSh)
    (hr : SureRun cfg S₀ h S) (hq : ∀ t, S.th t = .idle) (hb : Spec.CalmBegin S.sh b)
    (hw : ∀ p c k cl w, s.mt p = some c → childStep k cl c = .cell w → s.cells w ≠ 0) :
    ∃ vs S', SureRun cfg S₀ (h ++ Spec.scanEvents t e vs) S' ∧ S'.sh = S.sh ∧ (∀ t, S'.th t = .idle) ∧
      Spec.Linked b vs ∧ Spec.Finished vs ∧ ∀ v ∈ vs, Spec.PageOK s.m v.b e v.recs v.next := by
  obtain ⟨f, ⟨recs, nx⟩, h1, h2⟩ := scanFirst_yields hc hI hS (b := b) (e := e) (by rw [← hsh]; exact hb) hw
  obtain ⟨S1, g1, g2, g3, g4⟩ := Yields.visit (by rw [hsh]; exact h1 f (Nat.le_refl _)) hr hq
    (.scan S t f b e (hq t))
  cases nx with
  | none =>
    refine ⟨_, S1, g1, g2, g3, ⟨rfl, fun h => absurd rfl h⟩, ⟨_, rfl, rfl⟩, fun v hv => ?_⟩
    rw [List.mem_singleton] at hv; subst hv; exact h2.page
  | some y =>
    obtain ⟨k', p'⟩ := y
    obtain ⟨vs, S2, e1, e2, e3, e4, e5, e6⟩ := scan_rest hc hI hS _ (Nat.lt_succ_self _)
      (g2.trans hsh) g1 g3 g4 (h2.next k' p' rfl)
    refine ⟨⟨b, recs, some k'⟩ :: vs, S2, ?_, e2.trans g2, e3,
      ⟨rfl, fun _ => ⟨k', rfl, e4⟩⟩, ?_, fun v hv => ?_⟩
    · rw [List.append_assoc] at e1; exact e1
    · obtain ⟨v, d1, d2⟩ := e5
      refine ⟨v, ?_, d2⟩
      cases vs with
      | nil => cases d1
      | cons a b => rw [List.getLast?_cons_cons]; exact d1
    · rcases List.mem_cons.mp hv with rfl | hv
      · exact h2.page
      · exact e6 v hv

end BwTree
