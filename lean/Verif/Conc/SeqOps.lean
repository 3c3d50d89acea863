import Verif.Conc.SeqSmo
import Verif.Conc.Sound

/-!
# Operations of a thread that runs alone (helper lemmas)
-/

namespace BwTree

set_option linter.unusedSectionVars false

variable {K V : Type} [LinearOrder K] {cfg : Cfg K} {fl : Nat → Option PID} {F G H : Nat}
  {low : Option K} {p q : PID} {s s' : St K V} {t : Nat} {key : K} {closed : Bool}

/-- No page, no word. -/
abbrev nil {α : Type} : α → Prop := fun _ => False

/-- What holds between the calls of a thread that runs alone. -/
def SI0 (cfg : Cfg K) (s : St K V) : Prop := ∃ fl, SI cfg nil nil nil fl s

theorem SI.live0 (h : SI cfg nil nil nil fl s) {c : Chain K V} (hi : s.info p = some (F, low))
    (hc : s.cont p = some c) : s.mt p = some c ∧ c.isRemoved = false :=
  h.liveAt (x := 0) (fun _ e => e.elim) p c low (h.inv.info_ne_zero hi) hi hc

theorem Inv.down0 (h : Inv cfg s) : ∀ F, F < s.nfam → Down s.fcf F 0 := by
  intro F
  induction F using Nat.strong_induction_on with
  | _ F ih =>
    intro hF
    by_cases e : F = 0
    · subst e; exact .refl _
    · have := h.l.fcf F (Nat.pos_of_ne_zero e) hF
      change s.fcf F < F at this
      exact .step e (ih _ this (Nat.lt_trans this hF))

theorem SI.root_page (h : SI cfg nil nil nil fl s) :
    ∃ T c, s.info s.root = some (T, none) ∧ s.cont s.root = some c := by
  obtain ⟨T, hT⟩ := h.inv.p.root
  obtain ⟨c, hc⟩ := h.x.rootc
  exact ⟨T, c, hT, hc⟩

/-- A stack whose top is a present leaf. -/
def OnLeaf (s : St K V) (key : K) (closed : Bool) (stk : Stk) : Prop :=
  ∃ p rest c, stk = p :: rest ∧ StkOK .free s 0 key closed (p :: rest) ∧ s.cont p = some c

theorem searchLeafLoop_solo (h : SI cfg nil nil nil fl s) : ∀ (f : Nat) {H : Nat} {p : PID}
    {rest : Stk} {c : Chain K V}, StkOK .free s H key closed (p :: rest) → s.cont p = some c →
    ro s.toSh (searchLeafLoop key closed f (p :: rest)) (OnLeaf s key closed) := by
  intro f
  induction f with
  | zero => intro H p rest c _ _; trivial
  | succ f ih =>
    intro H p rest c hs hc c1 hc1
    obtain ⟨⟨low, hi⟩, _⟩ := hs.adj
    obtain ⟨hm, hr⟩ := h.live0 hi hc
    change s.mt p = some c1 at hc1
    rw [hm] at hc1; cases hc1
    have hleaf := (h.inv.live hi hm hr).2.isLeaf
    by_cases hH : H = 0
    · subst hH
      simp only [hleaf, decide_true, if_true]
      exact ⟨p, rest, c, rfl, hs, hc⟩
    · simp only [hleaf, hH, decide_false, Bool.false_eq_true, if_false]
      apply ro_then (searchChild_exact h hH (fun l e => h.inv.info_ne_zero e rfl)
        (h.liveAt (fun _ e => e.elim)) f hs hc)
      rintro x ⟨_, q, p', cp, x2, x3, x4, cq, lq, q1, q2, q3, q4⟩
      rw [x2] at x3 ⊢
      exact ih x3 q2

theorem searchLeaf_solo (h : SI cfg nil nil nil fl s) (f : Nat) :
    ro s.toSh (searchLeaf key closed f) (OnLeaf s key closed) := by
  obtain ⟨T, c, hT, hc⟩ := h.root_page
  exact searchLeafLoop_solo h f (StkOK.root hT trivial) hc

theorem getHeadKC_solo (h : SI cfg nil nil nil fl s) : ∀ (f : Nat) {stk : Stk},
    OnLeaf s key true stk →
    ro s.toSh (getHeadKC cfg key f stk) (fun x => ∃ p rest low, x.1 = p :: rest ∧
      LeafAt cfg .free s key p rest x.2.1 low ∧ (x.2.2 = true ↔ alook x.2.1.flatBody key ≠ none)) := by
  intro f
  induction f with
  | zero => intro stk _; trivial
  | succ f ih =>
    rintro stk ⟨p, rest, c, rfl, hs, hc⟩
    apply ro_then (loadValidHead_ro f)
    rintro c1 ⟨hc1, hw⟩
    obtain ⟨⟨low, hi⟩, _⟩ := hs.adj
    obtain ⟨hm, hr⟩ := h.live0 hi hc
    rw [hm] at hc1; cases hc1
    obtain ⟨low', l1, l2, l3, l4⟩ := hs.live h.inv hm hr
    have hli := liveInner_eq hr l4.isLeaf
    simp only [ne_eq, not_true_eq_false, decide_false] at hli
    simp only [hli, Bool.false_eq_true, if_false]
    by_cases hh : HighOK c.high key true
    · obtain ⟨b, hb1, hb2⟩ := (keyCheck_spec l4.wf key).2 hh
      simp only [hb1]
      exact ⟨p, rest, low', rfl, ⟨hm, hw, hr, l1, l3, ⟨l2, hh⟩, l4, hs⟩, hb2⟩
    · have hb1 := (keyCheck_spec l4.wf key).1 hh
      simp only [hb1]
      obtain ⟨b, b1, b2, b3⟩ := l4.sibling hh
      obtain ⟨c', hc'⟩ := h.inv.l.linkl p c b hc b1
      exact ih ⟨_, _, c', rfl, hs.swap b2 b3, hc'⟩

theorem readLoop_solo (h : SI cfg nil nil nil fl s) : ∀ (f : Nat) {stk : Stk},
    OnLeaf s key true stk → ro s.toSh (readLoop key f stk) (fun _ => True) := by
  intro f
  induction f with
  | zero => intro stk _; trivial
  | succ f ih =>
    rintro stk ⟨p, rest, c, rfl, hs, hc⟩ c1 hc1
    obtain ⟨⟨low, hi⟩, _⟩ := hs.adj
    obtain ⟨hm, hr⟩ := h.live0 hi hc
    change s.mt p = some c1 at hc1
    rw [hm] at hc1; cases hc1
    obtain ⟨low', l1, l2, l3, l4⟩ := hs.live h.inv hm hr
    have hli := liveInner_eq hr l4.isLeaf
    simp only [ne_eq, not_true_eq_false, decide_false] at hli
    simp only [hli, Bool.false_eq_true, if_false]
    by_cases hh : HighOK c.high key true
    · obtain ⟨o, hb1, _⟩ := (readChain_spec l4.wf key).2 hh
      simp only [hb1]
      trivial
    · have hb1 := (readChain_spec l4.wf key).1 hh
      simp only [hb1]
      obtain ⟨b, b1, b2, b3⟩ := l4.sibling hh
      obtain ⟨c', hc'⟩ := h.inv.l.linkl p c b hc b1
      exact ih ⟨_, _, c', rfl, hs.swap b2 b3, hc'⟩

/-- What a call of a thread that runs alone leaves behind. -/
def SDone (cfg : Cfg K) (s s' : St K V) : Prop := SI0 cfg s' ∧ Mono s s'

theorem writeLoop_solo (hc : CfgOK2 cfg) {op : Spec.Op K V} (hop : op.isRead = false)
    (h : SI cfg nil nil nil fl s) (ho : s.ops t = .pending (.op op)) : ∀ (f : Nat) {stk : Stk},
    OnLeaf s (opKey op) true stk →
    sp (writeLoop cfg op (opKey op) f stk) (fun _ s' => SDone cfg s s') s := by
  intro f
  induction f with
  | zero => intro stk _; trivial
  | succ f ih =>
    intro stk hs
    apply sp_of_ro (getHeadKC_solo h f hs)
    rintro ⟨stk', c, b⟩ ⟨p, rest, low, x1, hl, hb⟩
    simp only at x1 hl hb
    subst x1
    have hf := LeafAt.found h.inv hl.info hl.cont hl.range hb
    have hw := writeDelta_spec (cfg := cfg) hop hf
    cases hd : writeDelta cfg op b with
    | inl r => simp only; exact ⟨⟨fl, h⟩, Mono.rfl⟩
    | inr x =>
      obtain ⟨d, diff⟩ := x
      rw [hd] at hw
      simp only
      refine ⟨?_, fun hm => ?_⟩
      · simp only [Bool.false_eq_true, if_false]
        exact ih ⟨p, rest, c, rfl, hl.stk, hl.cont⟩
      · have key : ∃ s3 : St K V, s3.toSh =
            { s.toSh with mt := upd s.mt p (some (Chain.push d c diff)) } ∧
            SI cfg nil nil nil fl s3 ∧ Mono s s3 ∧
            (Chain.push d c diff).high = c.high ∧
            (Chain.push d c diff).isRemoved = false ∧
            s3.own p = (if (Chain.push d c diff).needWait cfg then some t else none) ∧
            s3.mt p = some (Chain.push d c diff) := by
          rcases hw with ⟨ty, v, e1, e2, e3⟩ | ⟨e1, e2, e3, e4⟩
          · subst e1
            obtain ⟨j1, j2, j3, j4⟩ := h.inv.putRec (C := solo t) (ty := ty) (diff := diff) hc rfl
              ho e2 hl.info hl.mt hl.live hl.nowait (fun e => e) hl.range
              (by
                rcases e3 with ⟨x1, x2, x3⟩ | ⟨x1, x2, x3⟩
                · refine Or.inl ⟨x1, ?_, x3⟩
                  cases ha : alook c.flatBody (opKey op) with
                  | none => rfl
                  | some y =>
                    have := hb.mpr (by rw [ha]; simp)
                    rw [x2] at this; cases this
                · exact Or.inr ⟨x1, hb.mp x2, x3⟩)
            have j5 := h.putLeaf (t := t) hl.info hl.mt hl.live j4 rfl j1 j2.mono
            exact ⟨_, rfl, j5.1, j2.mono, j3, j4, by simp [St.put, solo], by simp [St.put]⟩
          · subst e1 e2
            obtain ⟨j1, j2, j3, j4⟩ := h.inv.delRec (C := solo t) hc.maxPos rfl ho
              e4 hl.info hl.mt hl.live hl.nowait (fun e => e) hl.range (hb.mp e3)
            have j5 := h.putLeaf (t := t) hl.info hl.mt hl.live j4 rfl j1 j2.mono
            exact ⟨_, rfl, j5.1, j2.mono, j3, j4, by simp [St.put, solo], by simp [St.put]⟩
        obtain ⟨s3, k1, i3, m3, k2, k3, k5, k6⟩ := key
        refine ⟨s3, k1, ?_⟩
        simp only [if_true]
        split
        · apply sp_then (trySMOs_solo (t := t) hc f nil nil nil fl 0 low (opKey op) _ p rest s3 i3
            (fun _ e => e.elim) (fun _ e => e.elim) (m3.info _ _ hl.info) (hl.stk.mono h.inv.l m3)
            (by rw [k2]; exact hl.range) k3 (by intro hw; rw [k5, hw]; exact ⟨rfl, k6⟩))
          rintro _ s4 ⟨fl', _, i4, f4⟩
          exact ⟨⟨fl', i4⟩, m3.trans f4.mono⟩
        · exact ⟨⟨fl, i3⟩, m3⟩

theorem SI.setOps (h : SI cfg nil nil nil fl s) (ops : Nat → Spec.OpSt K V) :
    SI cfg nil nil nil fl { s with ops := ops } :=
  ⟨h.inv.setOps ops, h.x, h.pend, h.cell⟩

/-- The point operations. -/
theorem runOp_solo (hc : CfgOK2 cfg) (f : Nat) {op : Spec.Op K V}
    (h : SI cfg nil nil nil fl s) (ho : s.ops t = .pending (.op op)) :
    sp (runOp cfg f op) (fun _ s' => SDone cfg s s') s := by
  apply sp_of_ro (searchLeaf_solo h f)
  intro x hx
  cases op with
  | read k =>
    apply sp_of_ro (readLoop_solo h f hx)
    intro _ _
    exact ⟨⟨fl, h⟩, Mono.rfl⟩
  | write k v => exact writeLoop_solo hc rfl h ho f hx
  | insert k v => exact writeLoop_solo hc rfl h ho f hx
  | update k v => exact writeLoop_solo hc rfl h ho f hx
  | delete k => exact writeLoop_solo hc rfl h ho f hx

/-! ## Scans -/

theorem getHead0_solo (h : SI cfg nil nil nil fl s) : ∀ (f : Nat) {p : PID} {rest : Stk},
    StkOK .free s 0 key closed (p :: rest) → (rest = [] ∨ ∃ c, s.cont p = some c) →
    ro s.toSh (getHead cfg key closed 0 f (p :: rest)) (fun o => ∃ c q rest' low,
      o = some (c, q :: rest') ∧ HeadAt s cfg 0 key closed q c low) := by
  intro f
  induction f with
  | zero => intro p rest _ _; trivial
  | succ f ih =>
    intro p rest hs hd
    apply ro_then (loadValidHead_ro f)
    rintro c ⟨hc, hw⟩
    obtain ⟨⟨low, hi⟩, _⟩ := hs.adj
    cases hrem : c.isRemoved with
    | true =>
      obtain ⟨b, rfl⟩ := isRemoved_true hrem
      have hst : dcValidate key closed (Chain.removed (K := K) (V := V) b) = .removed := rfl
      have hrest : rest = [] := by
        rcases hd with e | ⟨c', e⟩
        · exact e
        · obtain ⟨hm, hr⟩ := h.live0 hi e
          rw [hm] at hc; cases hc; cases hr
      simp only [hst, hrest, if_true, ne_eq, not_true_eq_false, if_false]
      apply ro_then (searchLeaf_solo h f)
      rintro x ⟨p', rest', c', rfl, x1, x2⟩
      exact ih x1 (Or.inr ⟨c', x2⟩)
    | false =>
      obtain ⟨low', l1, l2, l3, l4⟩ := hs.live h.inv hc hrem
      by_cases hh : HighOK c.high key closed
      · have hst := (dcValidate_spec l4.wf key closed).1 hh
        simp only [hst]
        exact ⟨c, p, rest, low', rfl, hrem, l1, l3, l4, l2, hh⟩
      · have hst := (dcValidate_spec l4.wf key closed).2 hh
        simp only [hst]
        obtain ⟨b, b1, b2, b3⟩ := l4.sibling hh
        simp only [h.inv.info_ne_zero b2, if_false]
        exact ih (hs.swap b2 b3) (Or.inr (h.inv.l.linkl p c b l3 b1))

/-- The iterator a visit leaves. -/
def VisOK (s : St K V) (x : List (K × V) × Option (K × PID)) : Prop :=
  ∀ k p, x.2 = some (k, p) → s.info p = some (0, some k)

theorem Inv.visOut (hc : CfgOK2 cfg) (hI : Inv cfg s) {b e : Spec.Bound K} {c : Chain K V}
    (hi : s.info p = some (0, low)) (hcont : s.lv.cont p = some c) (hw : PageWF cfg s.lv 0 low c)
    (hb0 : b = none → low = none)
    (hb : ∀ x cl, b = some (x, cl) → LowOK low x cl ∧ HighOK c.high x cl) :
    ∃ x, scanOut cfg b e c = some x ∧ VisOK s x := by
  have hwf := hw.wf
  simp only [ne_eq, not_true_eq_false, decide_false] at hwf
  obtain ⟨recs, nx, h1, h2, h3⟩ := scanOut_spec hc.toCfgOK hwf (m := s.m)
    (fun k hk => hI.l.val p c low k hcont hi hk) (e := e) hb0 hb
  refine ⟨(recs, nx), h1, ?_⟩
  intro k q hkq
  obtain ⟨e1, e2⟩ := h3 k q hkq
  rw [e2]
  exact hw.link k e1

theorem scanFrom_solo (hc : CfgOK2 cfg) (h : SI cfg nil nil nil fl s) {e : Spec.Bound K}
    (f : Nat) {p : PID} {rest : Stk}
    (hs : StkOK .free s 0 key closed (p :: rest)) (hd : rest = [] ∨ ∃ c, s.cont p = some c) :
    ro s.toSh (scanFrom cfg key closed e f (p :: rest)) (VisOK s) := by
  cases f with
  | zero => trivial
  | succ f =>
    apply ro_then (getHead0_solo h f hs hd)
    rintro o ⟨c, q, rest', low, rfl, hh⟩
    have hli := liveInner_eq hh.live hh.wf.isLeaf
    simp only [ne_eq, not_true_eq_false, decide_false] at hli
    obtain ⟨x, e1, e2⟩ := h.inv.visOut hc (b := some (key, closed)) (e := e) hh.info hh.cont hh.wf
      (fun e => by cases e) (fun y cl hy => by cases hy; exact ⟨hh.lowOK, hh.highOK⟩)
    simp only [hh.live, hli, Bool.false_eq_true, if_false, e1]
    exact e2

theorem ChainWF.leftmost_pre {c : Chain K V} (h : ChainWF cfg true none c) {q : PID}
    (hq : c.leftmostChild = some q) : ∃ y, (y, Pay.child q) ∈ c.pre := by
  induction c with
  | base n =>
    have hli : n.leftInner = true := by simp [Node.leftInner, h.1, h.2.1]
    show ∃ y, (y, Pay.child q) ∈ n.pre
    simp only [Node.pre, hli, if_true]
    simp only [Chain.leftmostChild] at hq
    split at hq
    · next y p' l e =>
      cases hq
      exact ⟨y, by simp [e]⟩
    · cases hq
  | removed l => exact h.elim
  | delta d nx ih => exact ih h.next hq

theorem leftmostLoop_solo (h : SI cfg nil nil nil fl s) : ∀ (f : Nat) {p : PID} {F : Nat}
    {c : Chain K V}, s.info p = some (F, none) → s.cont p = some c →
    ro s.toSh (leftmostLoop f p) (fun q => s.info q = some (0, none) ∧ ∃ c, s.cont q = some c) := by
  intro f
  induction f with
  | zero => intro p F c _ _; trivial
  | succ f ih =>
    intro p F c hi hc c1 hc1
    obtain ⟨hm, hr⟩ := h.live0 hi hc
    change s.mt p = some c1 at hc1
    rw [hm] at hc1; cases hc1
    have hw := (h.inv.live hi hm hr).2
    by_cases hF : F = 0
    · subst hF
      simp only [hw.isLeaf, decide_true, if_true]
      exact ⟨hi, c, hc⟩
    · simp only [hw.isLeaf, hF, decide_false, hr, Bool.false_eq_true, if_false]
      have hwf := hw.wf
      simp only [hF, ne_eq, not_false_eq_true, decide_true] at hwf
      obtain ⟨q, hq1, hq2⟩ := hwf.leftmostChild hw.ents
      simp only [hq1]
      obtain ⟨y, hy⟩ := hwf.leftmost_pre hq1
      obtain ⟨c', hc'⟩ := h.x.pre p c y q hc hy
      exact ih hq2 hc'

theorem scanLeft_solo (hc : CfgOK2 cfg) (h : SI cfg nil nil nil fl s) {e : Spec.Bound K}
    (f : Nat) {c : Chain K V} (hi : s.info p = some (0, none)) (hcc : s.cont p = some c) :
    ro s.toSh (scanLeft cfg e f p) (VisOK s) := by
  cases f with
  | zero => trivial
  | succ f =>
    intro c1 hc1
    obtain ⟨hm, hr⟩ := h.live0 hi hcc
    change s.mt p = some c1 at hc1
    rw [hm] at hc1; cases hc1
    obtain ⟨hcont, hw⟩ := h.inv.live hi hm hr
    obtain ⟨x, e1, e2⟩ := h.inv.visOut hc (b := none) (e := e) hi hcont hw
      (fun _ => rfl) (fun y cl hy => by cases hy)
    simp only [hr, Bool.false_eq_true, if_false, e1]
    exact e2

theorem scanFirst_solo (hc : CfgOK2 cfg) (h : SI cfg nil nil nil fl s) (f : Nat)
    {b e : Spec.Bound K} : ro s.toSh (scanFirst cfg f b e) (VisOK s) := by
  cases b with
  | some x =>
    obtain ⟨k, cl⟩ := x
    apply ro_then (searchLeaf_solo h f)
    rintro x ⟨p', rest', c', rfl, x1, x2⟩
    exact scanFrom_solo hc h f x1 (Or.inr ⟨c', x2⟩)
  | none =>
    obtain ⟨T, c, hT, hcc⟩ := h.root_page
    refine ro_then (p := .loadRoot fun r => leftmostLoop f r) (leftmostLoop_solo h f hT hcc) ?_
    rintro q ⟨hq, c', hc'⟩
    exact scanLeft_solo hc h f hq hc'

theorem scanNext_solo (hc : CfgOK2 cfg) (h : SI cfg nil nil nil fl s) (f : Nat)
    {e : Spec.Bound K} (hi : s.info p = some (0, some key)) :
    ro s.toSh (scanNext cfg f p key e) (VisOK s) := by
  refine scanFrom_solo hc h f ⟨⟨⟨_, hi⟩, Or.inl rfl⟩, ?_, fun _ _ _ _ _ => trivial⟩ (Or.inl rfl)
  intro q hq
  simp at hq; subst hq
  exact Or.inr ⟨0, _, hi, by intro l hl; cases hl; simp⟩

end BwTree
