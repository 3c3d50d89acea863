import Verif.Conc.TotMerge
import Verif.Conc.SeqInit

/-!
# The operations of a thread that runs alone end (helper lemmas)
-/

namespace BwTree

set_option linter.unusedSectionVars false

variable {K V : Type} [LinearOrder K] {cfg : Cfg K} {fl : Nat → Option PID} {F G H : Nat}
  {low : Option K} {p q : PID} {s s' : St K V} {t j : Nat} {key : K} {closed : Bool}

theorem SI.words0 (h : SI cfg nil nil nil fl s) (hH : H ≠ 0) : Words s key closed H :=
  h.words hH (fun _ _ _ e => e.elim)

theorem SI.live00 (h : SI cfg nil nil nil fl s) : LiveAt s H 0 := h.liveAt (fun _ e => e.elim)

theorem NW.head (h : NW cfg noP s) (hi : s.info p = some (F, low)) {c : Chain K V}
    (hm : s.mt p = some c) : c.needWait cfg = false := by
  cases e : c.needWait cfg with
  | false => rfl
  | true => exact (h p c (by rw [hi]; simp) hm e).elim

theorem searchLeafLoop_tot (h : SI cfg nil nil nil fl s) : ∀ (n : Nat) {H f : Nat} {p : PID}
    {rest : Stk} {c : Chain K V}, H < n → n + np s + 2 ≤ f →
    StkOK .free s H key closed (p :: rest) → s.cont p = some c →
    rt s.toSh (searchLeafLoop key closed f (p :: rest)) (OnLeaf s key closed) := by
  intro n
  induction n with
  | zero => intro H f p rest c hn; exact absurd hn (Nat.not_lt_zero _)
  | succ n ih =>
    intro H f p rest c hn hf hs hc
    obtain ⟨f, rfl⟩ := Nat.exists_eq_add_of_le' (Nat.le_trans (Nat.le_add_left 1 _) hf)
    obtain ⟨⟨low, hi⟩, _⟩ := hs.adj
    obtain ⟨hm, hr⟩ := h.live0 hi hc
    refine ⟨c, hm, ?_⟩
    have hleaf := (h.inv.live hi hm hr).2.isLeaf
    by_cases hH : H = 0
    · subst hH
      simp only [hleaf, decide_true, if_true]
      exact ⟨p, rest, c, rfl, hs, hc⟩
    · simp only [hleaf, hH, decide_false, Bool.false_eq_true, if_false]
      apply rt_then (searchChild_live h hH (fun l e => h.inv.info_ne_zero e rfl)
        h.live00 (h.words0 hH) (by omega) hs hc)
      rintro x ⟨_, q, p', cp, x2, x3, x4, cq, lq, q1, q2, q3, q4⟩
      have hlt := h.inv.l.fcf H (Nat.pos_of_ne_zero hH) (h.inv.l.fam _ _ _ hi)
      change s.fcf H < H at hlt
      rw [x2] at x3 ⊢
      exact ih (by omega) (by omega) x3 q2

theorem searchLeaf_tot (h : SI cfg nil nil nil fl s) {f : Nat} (hf : s.nfam + np s + 2 ≤ f) :
    rt s.toSh (searchLeaf key closed f) (OnLeaf s key closed) := by
  obtain ⟨T, c, hT, hc⟩ := h.root_page
  exact searchLeafLoop_tot h s.nfam (h.inv.l.fam _ _ _ hT) hf (StkOK.root hT trivial) hc

theorem getHeadKC_rt (h : SI cfg nil nil nil fl s) (hw : NW cfg noP s) : ∀ (n : Nat) {f : Nat}
    {p : PID} {low : Option K} {rest : Stk} {c : Chain K V}, s.info p = some (0, low) →
    (after s 0 low).card < n → n + 1 ≤ f →
    StkOK .free s 0 key true (p :: rest) → s.cont p = some c →
    rt s.toSh (getHeadKC cfg key f (p :: rest)) (fun _ => True) := by
  intro n
  induction n with
  | zero => intro f p low rest c _ hn; exact absurd hn (Nat.not_lt_zero _)
  | succ n ih =>
    intro f p low rest c hi hn hf hs hc
    obtain ⟨f, rfl⟩ := Nat.exists_eq_add_of_le' (Nat.le_trans (Nat.le_add_left 1 _) hf)
    obtain ⟨hm, hr⟩ := h.live0 hi hc
    apply rt_then (loadValidHead_rt hm (hw.head hi hm) (by omega))
    rintro _ rfl
    obtain ⟨low', l1, l2, l3, l4⟩ := hs.live h.inv hm hr
    rw [hi] at l1; cases l1
    have hli := liveInner_eq hr l4.isLeaf
    simp only [ne_eq, not_true_eq_false, decide_false] at hli
    simp only [hli, Bool.false_eq_true, if_false]
    by_cases hh : HighOK c.high key true
    · obtain ⟨b, hb1, hb2⟩ := (keyCheck_spec l4.wf key).2 hh
      simp only [hb1]
      trivial
    · have hb1 := (keyCheck_spec l4.wf key).1 hh
      simp only [hb1]
      obtain ⟨b, b1, b2, b3⟩ := l4.sibling hh
      obtain ⟨c', hc'⟩ := h.inv.l.linkl p c b hc b1
      have hlt := after_lt h.inv (low := low) b2 (fun x hx => by
        subst hx; exact l4.wf.nonempty x b rfl b1)
      exact ih b2 (by omega) (by omega) (hs.swap b2 b3) hc'

theorem getHeadKC_tot (h : SI cfg nil nil nil fl s) (hw : NW cfg noP s) {f : Nat}
    (hf : np s + 2 ≤ f) {stk : Stk} (ho : OnLeaf s key true stk) :
    rt s.toSh (getHeadKC cfg key f stk) (fun x => ∃ p rest low, x.1 = p :: rest ∧
      LeafAt cfg .free s key p rest x.2.1 low ∧ (x.2.2 = true ↔ alook x.2.1.flatBody key ≠ none)) := by
  have h1 := getHeadKC_solo h f ho
  obtain ⟨p, rest, c, rfl, hs, hc⟩ := ho
  obtain ⟨⟨low, hi⟩, _⟩ := hs.adj
  have := after_card (s := s) 0 low
  exact rt_mono (rt_and (getHeadKC_rt h hw (np s + 1) hi (by omega) (by omega) hs hc) h1)
    (fun _ x => x.2)

theorem readLoop_rt (h : SI cfg nil nil nil fl s) : ∀ (n : Nat) {f : Nat}
    {p : PID} {low : Option K} {rest : Stk} {c : Chain K V}, s.info p = some (0, low) →
    (after s 0 low).card < n → n ≤ f →
    StkOK .free s 0 key true (p :: rest) → s.cont p = some c →
    rt s.toSh (readLoop key f (p :: rest)) (fun _ => True) := by
  intro n
  induction n with
  | zero => intro f p low rest c _ hn; exact absurd hn (Nat.not_lt_zero _)
  | succ n ih =>
    intro f p low rest c hi hn hf hs hc
    obtain ⟨f, rfl⟩ := Nat.exists_eq_add_of_le' (Nat.le_trans (Nat.le_add_left 1 _) hf)
    obtain ⟨hm, hr⟩ := h.live0 hi hc
    refine ⟨c, hm, ?_⟩
    obtain ⟨low', l1, l2, l3, l4⟩ := hs.live h.inv hm hr
    rw [hi] at l1; cases l1
    have hli := liveInner_eq hr l4.isLeaf
    simp only [ne_eq, not_true_eq_false, decide_false] at hli
    simp only [hli, Bool.false_eq_true, if_false]
    by_cases hh : HighOK c.high key true
    · obtain ⟨o, hb1, _⟩ := (readChain_spec l4.wf key).2 hh
      simp only [hb1]
      trivial
    · have hb1 := (readChain_spec l4.wf key).1 hh
      simp only [hb1]
      obtain ⟨b, b1, b2, b3⟩ := l4.sibling hh
      obtain ⟨c', hc'⟩ := h.inv.l.linkl p c b hc b1
      have hlt := after_lt h.inv (low := low) b2 (fun x hx => by
        subst hx; exact l4.wf.nonempty x b rfl b1)
      exact ih b2 (by omega) (by omega) (hs.swap b2 b3) hc'

/-- What a call leaves behind that runs alone and ends. -/
structure TDone (cfg : Cfg K) (s s' : St K V) : Prop where
  si : SI0 cfg s'
  mono : Mono s s'
  nw : NW cfg noP s'

/-- Loop iterations that suffice for a call. -/
noncomputable def need (cfg : Cfg K) (s : St K V) : Nat :=
  Bnd cfg s + 3 * ((potB cfg + 1) * (cfg.leafLen + cfg.maxKey)) + 8

theorem writeLoop_tot (hR : Roomy cfg) (hc : CfgOK2 cfg) {op : Spec.Op K V} (hop : op.isRead = false)
    (h : SI cfg nil nil nil fl s) (hnw : NW cfg noP s) (ho : s.ops t = .pending (.op op)) {f : Nat}
    (hf : need cfg s + j ≤ f) {stk : Stk} (hs : OnLeaf s (opKey op) true stk) :
    tp j (writeLoop cfg op (opKey op) f stk) (fun _ s' => TDone cfg s s') s := by
  induction j using Nat.strongRecOn generalizing stk f with | _ j ih => ?_
  have hf0 := hf
  unfold need Bnd at hf
  obtain ⟨f, rfl⟩ := Nat.exists_eq_add_of_le' (show 1 ≤ f by omega)
  apply tp_of_rt (getHeadKC_tot h hnw (f := f) (by omega) hs)
  rintro ⟨stk', c, b⟩ ⟨p, rest, low, x1, hl, hb⟩
  simp only at x1 hl hb
  subst x1
  have hfo := LeafAt.found h.inv hl.info hl.cont hl.range hb
  have hw := writeDelta_spec (cfg := cfg) hop hfo
  cases hd : writeDelta cfg op b with
  | inl r => simp only; exact ⟨⟨fl, h⟩, Mono.rfl, hnw⟩
  | inr x =>
    obtain ⟨d, diff⟩ := x
    rw [hd] at hw
    simp only
    refine Or.inr ⟨hl.mt, fun _ i hi => ih i hi (by omega) ⟨p, rest, c, rfl, hl.stk, hl.cont⟩, ?_⟩
    have hdiff : c.size - (cfg.leafLen + cfg.maxKey) ≤ (Chain.push d c diff).size ∧
        (Chain.push d c diff).size ≤ c.size + (cfg.leafLen + cfg.maxKey) := by
      have : (Chain.push d c diff).size = c.size + diff := rfl
      rw [this]
      have hk : cfg.entLen false (opKey op) ≤ cfg.leafLen + cfg.maxKey :=
        Nat.add_le_add_left (hc.keys _) _
      cases op <;> simp only [writeDelta] at hd <;> (try split at hd) <;>
        simp only [Sum.inr.injEq, Prod.mk.injEq, reduceCtorEq] at hd <;>
        (try (obtain ⟨_, rfl⟩ := hd)) <;> omega
    have hB : ∀ {m' : K → Option V} {ops' : Nat → Spec.OpSt K V},
        (Chain.push d c diff).isRemoved = false →
        Bnd cfg (s.put cfg t p (Chain.push d c diff) s.est m' ops') ≤
          Bnd cfg s + 3 * ((potB cfg + 1) * (cfg.leafLen + cfg.maxKey)) := by
      intro m' ops' j4
      have j6 := Phi_putLeaf (t := t) (m' := m') (ops' := ops') h.inv hl.info hl.mt hl.live j4 hdiff
      unfold Bnd
      change np s + s.nfam + 3 * Phi cfg _ ≤ _
      have := Nat.mul_le_mul_left 3 j6
      rw [Nat.mul_add] at this
      exact Nat.le_trans (Nat.add_le_add_left this _) (by omega)
    have key : ∃ s3 : St K V, s3.toSh =
        { s.toSh with mt := upd s.mt p (some (Chain.push d c diff)) } ∧
        SI cfg nil nil nil fl s3 ∧ Mono s s3 ∧
        (Chain.push d c diff).high = c.high ∧
        (Chain.push d c diff).isRemoved = false ∧
        s3.own p = (if (Chain.push d c diff).needWait cfg then some t else none) ∧
        s3.mt p = some (Chain.push d c diff) ∧
        NW cfg (fun q => q = p ∧ (Chain.push d c diff).needWait cfg = true) s3 ∧
        Bnd cfg s3 ≤ Bnd cfg s + 3 * ((potB cfg + 1) * (cfg.leafLen + cfg.maxKey)) := by
      rcases hw with ⟨ty, v, e1, e2, e3⟩ | ⟨e1, e2, e3, e4⟩
      · subst e1
        obtain ⟨j1, j2, j3, j4⟩ := h.inv.putRec (C := solo t) (ty := ty) (diff := diff) hc rfl
          ho e2 hl.info hl.mt hl.live hl.nowait (fun e => e) hl.range
          (by
            rcases e3 with ⟨x1, x2, x3⟩ | ⟨x1, x2, x3⟩
            · refine Or.inl ⟨x1, ?_, x3⟩
              cases ha : alook c.flatBody (opKey op) with
              | none => rfl
              | some y =>
                have := hb.mpr (by rw [ha]; simp)
                rw [x2] at this; cases this
            · exact Or.inr ⟨x1, hb.mp x2, x3⟩)
        have j5 := h.putLeaf (t := t) hl.info hl.mt hl.live j4 rfl j1 j2.mono
        refine ⟨_, rfl, j5.1, j2.mono, j3, j4, by simp [St.put, solo], by simp [St.put],
          hnw.put (fun _ _ e => e.elim) (fun e => ⟨rfl, e⟩), ?_⟩
        exact hB j4
      · subst e1 e2
        obtain ⟨j1, j2, j3, j4⟩ := h.inv.delRec (C := solo t) hc.maxPos rfl ho
          e4 hl.info hl.mt hl.live hl.nowait (fun e => e) hl.range (hb.mp e3)
        have j5 := h.putLeaf (t := t) hl.info hl.mt hl.live j4 rfl j1 j2.mono
        refine ⟨_, rfl, j5.1, j2.mono, j3, j4, by simp [St.put, solo], by simp [St.put],
          hnw.put (fun _ _ e => e.elim) (fun e => ⟨rfl, e⟩), ?_⟩
        exact hB j4
    obtain ⟨s3, k1, i3, m3, k2, k3, k5, k6, k7, k8⟩ := key
    refine ⟨s3, k1, ?_⟩
    simp only [if_true]
    split
    · next hcons =>
      apply tp_then (trySMOs_tot (t := t) hR hc f (N := Bnd cfg s3)
        (by unfold Bnd at k8 ⊢; omega) nil nil nil fl 0 low (opKey op) _ p rest s3 i3
        (fun _ e => e.elim) (fun _ e => e.elim) (fun _ e => e.elim) (fun q c h1 h2 h3 => (k7 q c h1 h2 h3).1)
        (m3.info _ _ hl.info) (hl.stk.mono h.inv.l m3)
        (by rw [k2]; exact hl.range) k3 k6 (by intro hw; rw [k5, hw]; rfl) (Nat.le_refl _))
      rintro _ s4 ⟨⟨fl', _, i4⟩, f4, n4, _, _, _⟩
      exact ⟨⟨fl', i4⟩, m3.trans f4.mono, n4⟩
    · next hcons =>
      have hnwt := wait_of_cons hR (by simpa using hcons)
      exact ⟨⟨fl, i3⟩, m3, fun q c h1 h2 h3 => by
        have := (k7 q c h1 h2 h3).2; rw [hnwt] at this; cases this⟩

/-- The point operations end. -/
theorem runOp_tot (hR : Roomy cfg) (hc : CfgOK2 cfg) {f : Nat} {op : Spec.Op K V}
    (h : SI cfg nil nil nil fl s) (hnw : NW cfg noP s) (ho : s.ops t = .pending (.op op))
    (hf : need cfg s + j ≤ f) : tp j (runOp cfg f op) (fun _ s' => TDone cfg s s') s := by
  have hf' := hf
  unfold need Bnd at hf'
  apply tp_of_rt (searchLeaf_tot h (f := f) (by omega))
  intro x hx
  cases op with
  | read k =>
    obtain ⟨p, rest, c, rfl, hs, hcc⟩ := hx
    obtain ⟨⟨low, hi⟩, _⟩ := hs.adj
    have := after_card (s := s) 0 low
    apply tp_of_rt (readLoop_rt h (np s + 1) hi (by omega) (by omega) hs hcc)
    intro _ _
    exact ⟨⟨fl, h⟩, Mono.rfl, hnw⟩
  | write k v => exact writeLoop_tot hR hc rfl h hnw ho hf hx
  | insert k v => exact writeLoop_tot hR hc rfl h hnw ho hf hx
  | update k v => exact writeLoop_tot hR hc rfl h hnw ho hf hx
  | delete k => exact writeLoop_tot hR hc rfl h hnw ho hf hx

/-! ## Scans -/

theorem getHead0_tot (h : SI cfg nil nil nil fl s) (hnw : NW cfg noP s) {f : Nat}
    (hf : s.nfam + np s + 4 ≤ f) {p : PID} {rest : Stk}
    (hs : StkOK .free s 0 key closed (p :: rest)) (hd : rest = [] ∨ ∃ c, s.cont p = some c) :
    rt s.toSh (getHead cfg key closed 0 f (p :: rest)) (fun o => ∃ c q rest' low,
      o = some (c, q :: rest') ∧ HeadAt s cfg 0 key closed q c low) := by
  refine rt_mono (rt_and (P := fun _ => True) ?_ (getHead0_solo h f hs hd)) (fun _ x => x.2)
  have hlive : ∀ {f : Nat} {p : PID} {rest : Stk} {c : Chain K V}, np s + 2 ≤ f →
      StkOK .free s 0 key closed (p :: rest) → s.cont p = some c →
      rt s.toSh (getHead cfg key closed 0 f (p :: rest)) (fun _ => True) := by
    intro f p rest c hf hs hc
    obtain ⟨⟨low, hi⟩, _⟩ := hs.adj
    have := after_card (s := s) 0 low
    exact rt_mono (getHead_rt h h.live00 hnw (np s + 1) hi (by omega) (by omega) hs hc
      (h.inv.info_ne_zero hi)) (fun _ _ => trivial)
  obtain ⟨⟨low, hi⟩, _⟩ := hs.adj
  obtain ⟨c, hm, _⟩ := h.inv.p.slot p 0 low hi
  cases hrem : c.isRemoved with
  | false => exact hlive (by omega) hs (h.inv.live hi hm hrem).1
  | true =>
    obtain ⟨f, rfl⟩ := Nat.exists_eq_add_of_le' (Nat.le_trans (Nat.le_add_left 1 _) hf)
    obtain ⟨b, rfl⟩ := isRemoved_true hrem
    apply rt_then (loadValidHead_rt hm (hnw.head hi hm) (by omega))
    rintro _ rfl
    have hst : dcValidate key closed (Chain.removed (K := K) (V := V) b) = .removed := rfl
    have hrest : rest = [] := by
      rcases hd with e | ⟨c', e⟩
      · exact e
      · obtain ⟨hm', hr⟩ := h.live0 hi e
        rw [hm] at hm'; cases hm'; cases hr
    simp only [hst, hrest, if_true, ne_eq, not_true_eq_false, if_false]
    apply rt_then (searchLeaf_tot h (by omega))
    rintro x ⟨p', rest', c', rfl, x1, x2⟩
    exact hlive (by omega) x1 x2

theorem scanFrom_tot (hc : CfgOK2 cfg) (h : SI cfg nil nil nil fl s) (hnw : NW cfg noP s)
    {e : Spec.Bound K} {f : Nat} (hf : s.nfam + np s + 5 ≤ f) {p : PID} {rest : Stk}
    (hs : StkOK .free s 0 key closed (p :: rest)) (hd : rest = [] ∨ ∃ c, s.cont p = some c) :
    rt s.toSh (scanFrom cfg key closed e f (p :: rest)) (VisOK s) := by
  obtain ⟨f, rfl⟩ := Nat.exists_eq_add_of_le' (Nat.le_trans (Nat.le_add_left 1 _) hf)
  apply rt_then (getHead0_tot h hnw (by omega) hs hd)
  rintro o ⟨c, q, rest', low, rfl, hh⟩
  have hli := liveInner_eq hh.live hh.wf.isLeaf
  simp only [ne_eq, not_true_eq_false, decide_false] at hli
  obtain ⟨x, e1, e2⟩ := h.inv.visOut hc (b := some (key, closed)) (e := e) hh.info hh.cont hh.wf
    (fun e => by cases e) (fun y cl hy => by cases hy; exact ⟨hh.lowOK, hh.highOK⟩)
  simp only [hh.live, hli, Bool.false_eq_true, if_false, e1]
  exact e2

theorem leftmostLoop_tot (h : SI cfg nil nil nil fl s) : ∀ (n : Nat) {f : Nat} {p : PID} {F : Nat}
    {c : Chain K V}, F < n → n ≤ f → s.info p = some (F, none) → s.cont p = some c →
    rt s.toSh (leftmostLoop f p) (fun q => s.info q = some (0, none) ∧ ∃ c, s.cont q = some c) := by
  intro n
  induction n with
  | zero => intro f p F c hn; exact absurd hn (Nat.not_lt_zero _)
  | succ n ih =>
    intro f p F c hn hf hi hc
    obtain ⟨f, rfl⟩ := Nat.exists_eq_add_of_le' (Nat.le_trans (Nat.le_add_left 1 _) hf)
    obtain ⟨hm, hr⟩ := h.live0 hi hc
    refine ⟨c, hm, ?_⟩
    have hw := (h.inv.live hi hm hr).2
    by_cases hF : F = 0
    · subst hF
      simp only [hw.isLeaf, decide_true, if_true]
      exact ⟨hi, c, hc⟩
    · simp only [hw.isLeaf, hF, decide_false, hr, Bool.false_eq_true, if_false]
      have hwf := hw.wf
      simp only [hF, ne_eq, not_false_eq_true, decide_true] at hwf
      obtain ⟨q, hq1, hq2⟩ := hwf.leftmostChild hw.ents
      simp only [hq1]
      obtain ⟨y, hy⟩ := hwf.leftmost_pre hq1
      obtain ⟨c', hc'⟩ := h.x.pre p c y q hc hy
      have hlt := h.inv.l.fcf F (Nat.pos_of_ne_zero hF) (h.inv.l.fam _ _ _ hi)
      change s.fcf F < F at hlt
      have hn' : s.fcf F < n := by omega
      exact ih hn' (by omega) hq2 hc'

theorem scanFirst_tot (hc : CfgOK2 cfg) (h : SI cfg nil nil nil fl s) (hnw : NW cfg noP s)
    {f : Nat} (hf : s.nfam + np s + 5 ≤ f) {b e : Spec.Bound K} :
    rt s.toSh (scanFirst cfg f b e) (VisOK s) := by
  cases b with
  | some x =>
    obtain ⟨k, cl⟩ := x
    apply rt_then (searchLeaf_tot h (by omega))
    rintro x ⟨p', rest', c', rfl, x1, x2⟩
    exact scanFrom_tot hc h hnw hf x1 (Or.inr ⟨c', x2⟩)
  | none =>
    obtain ⟨T, c, hT, hcc⟩ := h.root_page
    refine rt_then (p := .loadRoot fun r => leftmostLoop f r)
      (leftmostLoop_tot h s.nfam (h.inv.l.fam _ _ _ hT) (by omega) hT hcc) ?_
    rintro q ⟨hq, c', hc'⟩
    obtain ⟨f, rfl⟩ := Nat.exists_eq_add_of_le' (Nat.le_trans (Nat.le_add_left 1 _) hf)
    obtain ⟨hm, hr⟩ := h.live0 hq hc'
    refine ⟨c', hm, ?_⟩
    obtain ⟨hcont, hw⟩ := h.inv.live hq hm hr
    obtain ⟨x, e1, e2⟩ := h.inv.visOut hc (b := none) (e := e) hq hcont hw
      (fun _ => rfl) (fun y cl hy => by cases hy)
    simp only [hr, Bool.false_eq_true, if_false, e1]
    exact e2

theorem scanNext_tot (hc : CfgOK2 cfg) (h : SI cfg nil nil nil fl s) (hnw : NW cfg noP s)
    {f : Nat} (hf : s.nfam + np s + 5 ≤ f) {e : Spec.Bound K} (hi : s.info p = some (0, some key)) :
    rt s.toSh (scanNext cfg f p key e) (VisOK s) := by
  refine scanFrom_tot hc h hnw hf ⟨⟨⟨_, hi⟩, Or.inl rfl⟩, ?_, fun _ _ _ _ _ => trivial⟩ (Or.inl rfl)
  intro q hq
  simp at hq; subst hq
  exact Or.inr ⟨0, _, hi, by intro l hl; cases hl; simp⟩

/-! ## Initial states -/

theorem NW.bases (h : ∀ p c, s.mt p = some c → ∃ n, c = .base n) : NW cfg noP s := by
  intro q c _ h2 h3
  obtain ⟨n, rfl⟩ := h q c h2
  simp [Chain.needWait, Chain.isDelta] at h3

theorem Init.tot (hc : CfgOK2 cfg) {m : K → Option V} {sh : Sh K V} (h : Init cfg m sh) :
    ∃ s : St K V, s.toSh = sh ∧ SI0 cfg s ∧ NW cfg noP s := by
  obtain ⟨s, h1, h2⟩ := h.si0 hc
  refine ⟨s, h1, h2, NW.bases ?_⟩
  intro p c hm
  change s.toSh.mt p = some c at hm
  rw [h1] at hm
  cases h with
  | empty =>
    by_cases e : p = 1
    · subst e
      exact ⟨_, (Option.some.inj hm).symm⟩
    · simp only [initSh, upd_ne _ _ e] at hm; cases hm
  | @bulk ids threads es T root npid fix inj fresh ne sorted run bound =>
    simp only [bulkSh] at hm
    obtain ⟨n, _, e⟩ := Option.map_eq_some_iff.mp hm
    exact ⟨n, e.symm⟩

end BwTree
