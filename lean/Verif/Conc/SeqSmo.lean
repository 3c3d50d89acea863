import Verif.Conc.SeqSearch

/-!
# Structure modifications of a thread that runs alone (helper lemmas)
-/

namespace BwTree

set_option linter.unusedSectionVars false

variable {K V : Type} [LinearOrder K] {cfg : Cfg K} {E D : PID → Prop}
  {W : Nat → Prop} {fl : Nat → Option PID} {F G H : Nat} {low : Option K}
  {p q r rp tgt : PID} {s s' : St K V} {t : Nat} {key : K} {closed : Bool}

/-- What a structure modification of a page of family `F` leaves behind. -/
def SPost (cfg : Cfg K) (E D : PID → Prop) (W : Nat → Prop) (fl : Nat → Option PID) (F : Nat)
    (s s' : St K V) : Prop :=
  ∃ fl', (∀ w q, fl w = some q → fl' w = some q) ∧ SI cfg E D W fl' s' ∧ Frame F s s'

theorem SI.post (h : SI cfg E D W fl s') (f : Frame F s s') : SPost cfg E D W fl F s s' :=
  ⟨fl, fun _ _ e => e, h, f⟩

theorem SPost.pre {fl' : Nat → Option PID} {s1 : St K V} (h : SPost cfg E D W fl' G s1 s')
    (hf : ∀ w q, fl w = some q → fl' w = some q) (hF : F ≤ G) (f : Frame F s s1) :
    SPost cfg E D W fl F s s' := by
  obtain ⟨fl'', a, b, c⟩ := h
  exact ⟨fl'', fun w q e => a w q (hf w q e), b, f.trans (c.le hF)⟩

/-- The specification of `TrySMOs` for a thread that runs alone. -/
def SoloSmo (cfg : Cfg K) (t : Nat) (smo : Chain K V → Stk → Prog K V Unit) : Prop :=
  ∀ (E D : PID → Prop) (W : Nat → Prop) (fl : Nat → Option PID) (F : Nat) (low : Option K) (k : K)
    (head : Chain K V) (p : PID) (rest : Stk) (s : St K V),
    SI cfg E D W fl s → Below s F E → Below s F D → s.info p = some (F, low) →
    StkOK .free s F k true (p :: rest) → InR low head.high k → head.isRemoved = false →
    (head.needWait cfg = true → s.own p = some t ∧ s.mt p = some head) →
    sp (smo head (p :: rest)) (fun _ s' => SPost cfg E D W fl F s s') s

theorem Below.not_in (h : Below s F D) (hH : F ≤ H) : ∀ q, D q → ∀ l, s.info q ≠ some (H, l) := by
  intro q hq l e
  obtain ⟨G, l', e1, e2⟩ := h q hq
  rw [e1] at e; cases e
  omega

theorem SI.liveAbove (h : SI cfg E D W fl s) {D' : PID → Prop} (hD : Below s F D') {x : PID}
    (hx : ∀ q, D q → D' q ∨ q = x) : ∀ H, Down s.fcf H F → LiveAt s H x := by
  intro H hd q c l hne hi hc
  have hle := hd.le h.inv.l.fcf (h.inv.l.fam _ _ _ hi)
  refine h.liveAt ?_ q c l hne hi hc
  intro y hy
  rcases hx y hy with e | e
  · exact Or.inr (hD.not_in hle y e)
  · exact Or.inl e

/-! ## Split -/

theorem splitLoop_solo {smo : Chain K V → Stk → Prog K V Unit} (hsmo : SoloSmo cfg t smo)
    (hc : CfgOK2 cfg) {sep : K} {cr : Chain K V} {lp : PID} {rInner : Bool}
    (hri : rInner = decide (F ≠ 0)) : ∀ (f : Nat) {stk : Stk} {s : St K V},
    SI cfg (fun q => E q ∨ q = rp) D W fl s → Below s F E → Below s F D →
    s.info lp = some (F, low) → s.info rp = some (F, some sep) → s.est rp = .unposted t →
    s.cont rp = some cr → ParOK .free s F sep true stk →
    sp (splitLoop cfg smo sep cr.high rInner rp lp f stk) (fun _ s' => SPost cfg E D W fl F s s') s := by
  intro f
  induction f with
  | zero => intro stk s _ _ _ _ _ _ _ _; trivial
  | succ f ih =>
    intro stk s hI hE hD hl hr he hcr hp
    cases stk with
    | nil =>
      apply sp_bind
      show sp (if s.root ≠ lp then .ret false else _) _ s
      by_cases hroot : s.root = lp
      · simp only [hroot, ne_eq, not_true_eq_false, if_false]
        obtain ⟨F0, hF0⟩ := hI.inv.p.root
        rw [hroot, hl] at hF0
        cases hF0
        have hfr := hI.inv.p.fresh s.npid (Or.inl (Nat.le_refl _))
        obtain ⟨i1, f1⟩ := hI.newPid t F
        have hn1 : s.info s.npid = none := hfr.2.1
        have ho1 : upd s.own s.npid (some t) s.npid = some t := upd_same _ _ _
        have hwr : NodeWF cfg (newRoot (V := V) cfg sep lp rp) ∧
            (newRoot (V := V) cfg sep lp rp).size ≤ cfg.page := by
          obtain ⟨i5, g5⟩ := i1.inv.pubRoot (C := solo t) hc hn1 ho1 (fun e => e) hl hr he
          have hpg := i5.l.page s.npid (.base (newRoot cfg sep lp rp)) s.nfam none
            (St.cont_live (x := (s.nfam, none)) (by simp [St.pubRoot]) (by simp [St.pubRoot]) rfl)
            (by simp [St.pubRoot, St.lv])
          exact ⟨hpg.wf.2.2, hpg.base⟩
        obtain ⟨i2, f2⟩ := i1.stage F ho1 hn1 hwr.1 hwr.2
        obtain ⟨i3, f3, e3⟩ := i2.growRoot (np := s.npid) (rp := rp) (F := F) (sep := sep) hc hn1 ho1
          hroot hl hr he (upd_same _ _ _)
        have f123 := f1.trans (f2.trans f3)
        exact ⟨_, rfl, _, rfl, _, e3, i3.post f123⟩
      · simp only [hroot, ne_eq, not_false_eq_true, if_true]
        apply sp_ret
        simp only [Bool.false_eq_true, if_false]
        apply sp_of_ro (searchTarget_exact hI hri hr hcr (by intro G e; rw [he] at e; cases e) ?_ f
          (by intro p rest e; cases e))
        · rintro x ⟨hx, hs⟩
          cases x with
          | nil => exact absurd rfl hx
          | cons y ys => exact ih hI hE hD hl hr he hcr (StkOK.par (C := solo t) hs)
        · exact hI.liveAbove hD (fun q hq => Or.inl hq)
    | cons x xs =>
      rcases hp with e | ⟨_, G, g1, g2, g3⟩
      · cases e
      have hGlt := g3.adj.head_lt hI.inv.l (by simp)
      have hFG : F < G := by
        have := hI.inv.l.fcf G g1 hGlt
        change s.fcf G < G at this
        omega
      apply sp_of_ro (getHead_gen hI.inv hr f (Nat.le_of_lt hFG) (by simp) g3)
      intro o ho
      cases o with
      | none => exact ih hI hE hD hl hr he hcr (Or.inl rfl)
      | some y =>
        obtain ⟨c, stk'⟩ := y
        obtain ⟨q, rest, lq, e0, e1, e2, e3, e4, e5, e6, e7, e8⟩ := ho
        subst e0
        have hhigh : HighOK c.high sep true := by
          rcases e8 with h | ⟨_, b, _, hb⟩
          · exact h
          · rw [hr] at hb; cases hb; exact absurd hFG (Nat.lt_irrefl _)
        refine ⟨?_, fun hm => ?_⟩
        · simp only [Bool.false_eq_true, if_false]
          exact ih hI hE hD hl hr he hcr (Or.inr ⟨by simp, G, g1, g2, e7⟩)
        · obtain ⟨i3, f3, hh, hrm⟩ := hI.putEntry hc hE g1 g2 e4 hm e3 e2 ⟨e5, hhigh⟩ hr he hcr
          refine ⟨s.put cfg t q _ (upd s.est rp (.posted G)) s.m s.ops, rfl, ?_⟩
          simp only [if_true]
          split
          · refine sp_mono (hsmo E D W fl G lq sep _ _ _ _ i3 (hE.mono f3.mono (Nat.le_of_lt hFG))
              (hD.mono f3.mono (Nat.le_of_lt hFG)) e4 (e7.mono hI.inv.l f3.mono) ?_ hrm ?_) ?_
            · rw [hh]; exact ⟨e5, hhigh⟩
            · intro hw; simp [St.put, hw]
            · intro _ s' hs'
              exact hs'.pre (fun _ _ e => e) (Nat.le_of_lt hFG) f3
          · exact i3.post f3

/-- `Split` of a frozen page of this thread. -/
theorem split_solo {smo : Chain K V → Stk → Prog K V Unit} (hsmo : SoloSmo cfg t smo)
    (hc : CfgOK2 cfg) (f : Nat) {c : Chain K V} {k : K} {rest : Stk} {lr rr : List (K × Pay V)}
    {x : K × Pay V} {l r : Node K V} (hI : SI cfg E D W fl s) (hE : Below s F E) (hD : Below s F D)
    (hi : s.info p = some (F, low)) (hm : s.mt p = some c) (hrm : c.isRemoved = false)
    (hop : s.own p = some t) (hs : StkOK .free s F k true (p :: rest)) (hk : HighOK c.high k true)
    (hl : ∀ rp, { l with next := rp } = splitL cfg (decide (F ≠ 0)) c lr x.1 rp)
    (hr : r = splitR cfg (decide (F ≠ 0)) c x rr)
    (hlr : lr ≠ []) (hcat : lr ++ x :: rr = c.flat)
    (hsm : cfg.lsz (decide (F ≠ 0)) c lr - (cfg.recLen (decide (F ≠ 0)) + cfg.maxKey) ≤
        ((cfg.page - cfg.hdr) / 2 : Int) ∨ lr.length = 1)
    (hlg : ((cfg.page - cfg.hdr) / 2 : Int) < cfg.lsz (decide (F ≠ 0)) c lr) :
    sp (split cfg smo f l r x.1 (p :: rest)) (fun _ s' => SPost cfg E D W fl F s s') s := by
  have hfr := hI.inv.p.fresh s.npid (Or.inl (Nat.le_refl _))
  obtain ⟨i1, f1⟩ := hI.newPid t F
  have hpne : p ≠ s.npid := by
    intro e
    rw [e, hfr.2.1] at hi; cases hi
  have hn1 : s.info s.npid = none := hfr.2.1
  obtain ⟨hcont, hpw⟩ := hI.inv.live hi hm hrm
  obtain ⟨w1, w2, w3, w4, w5, w6, w7, w8, w9⟩ := hpw.split hc hlr hcat hsm hlg (r := s.npid) hfr.2.1
  obtain ⟨_, _, v3, v4, _⟩ := split_wf hpw.wf hlr hcat s.npid
  rw [← hr] at w2 w4 w5 w9 v4
  rw [← hl] at w1 w3 w5 w8 v3
  have ho1 : upd s.own s.npid (some t) s.npid = some t := upd_same _ _ _
  obtain ⟨i2, f2⟩ := i1.stage F (n := r) ho1 hn1 w2.wf.2.2 w2.base
  obtain ⟨i3, f3⟩ := i2.doSplit (t := t) (p := p) (r := s.npid) (nr := r)
    (nl := { l with next := s.npid }) hi
    (by show upd s.mt s.npid _ p = _; rw [upd_ne _ _ hpne]; exact hm) hrm
    (by show upd s.own s.npid _ p = _; rw [upd_ne _ _ hpne]; exact hop) ho1 hn1 (upd_same _ _ _)
    ⟨w1.wf, w1.ents, w1.link, w1.size, w1.base⟩ ⟨w2.wf, w2.ents, w2.link, w2.size, w2.base⟩ w3 w4 w8 w9 v3 v4 w5 w6 w7
  have f123 := f1.trans (f2.trans f3)
  suffices hgoal : sp (splitLoop cfg smo x.1 r.high r.inner s.npid p f rest)
      (fun _ s' => SPost cfg E D W fl F s s')
      (St.doSplit { s with npid := s.npid + 1, own := upd s.own s.npid (some t),
                           mt := upd s.mt s.npid (some (.base r)) } t F x.1 p s.npid
        (.base { l with next := s.npid })) from
    ⟨{ s with npid := s.npid + 1, own := upd s.own s.npid (some t) }, rfl,
      { s with npid := s.npid + 1, own := upd s.own s.npid (some t),
               mt := upd s.mt s.npid (some (.base r)) }, rfl, _, rfl, hgoal⟩
  have hi3 := f123.mono.info _ _ hi
  have hs3 := hs.mono hI.inv.l f123.mono
  have hE3 := hE.mono f123.mono (Nat.le_refl _)
  have hD3 := hD.mono f123.mono (Nat.le_refl _)
  have hr3 : upd s.info s.npid (some (F, some x.1)) s.npid = some (F, some x.1) := upd_same _ _ _
  have he3 : upd s.est s.npid (.unposted t) s.npid = .unposted t := upd_same _ _ _
  have hm3 : upd (upd s.mt s.npid (some (.base r))) p (some (.base { l with next := s.npid }))
      s.npid = some (.base r) := by rw [upd_ne _ _ (Ne.symm hpne), upd_same]
  generalize hs' : St.doSplit _ t F x.1 p s.npid _ = s3 at *
  have hr3 : s3.info s.npid = some (F, some x.1) := by rw [← hs']; exact hr3
  have he3 : s3.est s.npid = .unposted t := by rw [← hs']; exact he3
  have hm3 : s3.mt s.npid = some (.base r) := by rw [← hs']; exact hm3
  clear hs'
  have hcr := St.cont_live hr3 hm3 rfl
  refine sp_mono (splitLoop_solo (cr := .base r) hsmo hc (by rw [hr]; rfl) f i3 hE3 hD3 hi3 hr3 he3 hcr ?_)
    (fun _ s' h => h.pre (fun _ _ e => e) (Nat.le_refl _) f123)
  rcases StkOK.par (C := solo t) hs3 with e | ⟨e, G, h1, h2, h3⟩
  · exact Or.inl e
  · refine Or.inr ⟨e, G, h1, h2, ?_⟩
    refine h3.toLow i3.inv.l ?_ hcr hr3 ?_
    · rw [← h2]; exact .step (by omega) (.refl _)
    · rw [w4]; exact hk

/-! ## Merge -/

theorem RemAt.frame {rem : PID} {n : Node K V} (h : RemAt (solo t) s F low rem n)
    (f : Frame G s s') (hF : F < G) : RemAt (solo t) s' F low rem n := by
  obtain ⟨e1, e2, e3, _⟩ := f.keep _ _ _ h.info hF
  obtain ⟨b, hb⟩ := h.mt
  exact ⟨f.mono.info _ _ h.info, e2.trans h.own, e3.trans h.pend, ⟨b, e1.trans hb⟩, h.nX⟩

/-- The left neighbour of the removed page. -/
def LeftOf (s : St K V) (F : Nat) (dk : K) (q : PID) : Prop :=
  ∃ c0 l0, s.cont q = some c0 ∧ s.info q = some (F, l0) ∧ LowOK l0 dk false ∧ c0.high = some dk

/-- After the index entry was deleted. -/
def DelPost (cfg : Cfg K) (t : Nat) (E D : PID → Prop) (W : Nat → Prop) (fl : Nat → Option PID)
    (F : Nat) (dk : K) (rem : PID) (n : Node K V) (w : Nat) (s s' : St K V) : Prop :=
  ∃ fl' q, (∀ w q, fl w = some q → fl' w = some q) ∧ fl' w = some q ∧
    SI cfg (fun q => E q ∨ q = rem) (fun q => D q ∨ q = rem) (fun x => W x ∨ x = w) fl' s' ∧
    Frame F s s' ∧ RemAt (solo t) s' F (some dk) rem n ∧ s'.est rem = .deleted ∧ LeftOf s' F dk q

theorem deleteLoop_solo {smo : Chain K V → Stk → Prog K V Unit} (hsmo : SoloSmo cfg t smo)
    (hc : CfgOK2 cfg) {dk : K} {w : Nat} {rem : PID} {n : Node K V} {G : Nat}
    (hG : 0 < G) : ∀ (f : Nat) {sib : Option K} {stk : Stk} {s : St K V},
    SI cfg E (fun q => D q ∨ q = rem) W fl s → Below s F E → Below s F D →
    RemAt (solo t) s F (some dk) rem n →
    s.cellInfo w = some (F, dk) → w < s.ncell → s.cells w = 0 → fl w = none →
    stk ≠ [] → s.fcf G = F → StkOK .free s G dk true stk →
    sp (deleteLoop cfg smo dk n.high w f sib stk) (fun o s' => (o = none ∧ s' = s) ∨
      (o = some w ∧ DelPost cfg t E D W fl F dk rem n w s s')) s := by
  intro f
  induction f with
  | zero => intro sib stk s _ _ _ _ _ _ _ _ _ _ _; trivial
  | succ f ih =>
    intro sib stk s hI hE hD hrem hcell hw1 hw2 hw3 hne hGF hs
    have hGlt := hs.adj.head_lt hI.inv.l hne
    have hFG : F < G := by
      have := hI.inv.l.fcf G hG hGlt
      change s.fcf G < G at this
      omega
    apply sp_of_ro (getHeadForMerge_gen hG hI.inv f hne hs)
    intro x hx
    cases hb : x.2.2.1 with
    | false =>
      simp only [Bool.false_eq_true, if_false]
      exact Or.inl ⟨rfl, rfl⟩
    | true =>
      simp only [if_true]
      obtain ⟨q, rest, lq, e0, e1, e2, e3, e4, e5, e6, e7, e8⟩ := hx hb
      simp only [e0] at e7 ⊢
      refine ⟨?_, fun hm => ?_⟩
      · simp only [Bool.false_eq_true, if_false]
        exact ih hI hE hD hrem hcell hw1 hw2 hw3 (by simp) hGF e7
      · obtain ⟨b, hmr⟩ := hrem.mt
        obtain ⟨L0, c0, l0, i3, f3, hh, hrm, hrange, hqr, d1, d2, d3, d4⟩ := hI.putDelEntry hc.maxPos hE
          hG hGF e4 hm e3 e2 e8 hrem hcell hw1 hw2 hw3
        have hrem3 : RemAt (solo t) (s.put cfg t q (Chain.push (deleteDelta dk n.high w) x.2.1
            (-(cfg.entLen true dk : Int))) (upd s.est rem .deleted) s.m s.ops) F (some dk) rem n := by
          refine ⟨hrem.info, ?_, hrem.pend, ⟨b, ?_⟩, hrem.nX⟩
          · simp only [St.put, upd_ne _ _ (Ne.symm hqr)]; exact hrem.own
          · simp only [St.put, upd_ne _ _ (Ne.symm hqr)]; exact hmr
        have hd3 : (s.put cfg t q (Chain.push (deleteDelta dk n.high w) x.2.1
            (-(cfg.entLen true dk : Int))) (upd s.est rem .deleted) s.m s.ops).est rem = .deleted := by
          simp [St.put]
        have hext : ∀ x y, fl x = some y → upd fl w (some L0) x = some y := by
          intro x y e
          rw [upd_ne]
          · exact e
          · rintro rfl; rw [hw3] at e; cases e
        refine ⟨s.put cfg t q _ (upd s.est rem .deleted) s.m s.ops, rfl, ?_⟩
        simp only [if_true]
        split
        · apply sp_bind
          refine sp_mono (hsmo _ _ _ _ G lq dk _ _ _ _ i3
            ((hE.mono f3.mono (Nat.le_refl _)).add hrem3.info hFG)
            ((hD.mono f3.mono (Nat.le_refl _)).add hrem3.info hFG) e4
            (e7.mono hI.inv.l f3.mono) ?_ hrm ?_) ?_
          · rw [hh]; exact hrange
          · intro hw; simp [St.put, hw]
          · rintro _ s' ⟨fl', a1, a2, a3⟩
            apply sp_ret
            right
            refine ⟨rfl, fl', L0, fun x y e => a1 _ _ (hext x y e), a1 _ _ (upd_same _ _ _), a2,
              f3.trans (a3.le (Nat.le_of_lt hFG)), hrem3.frame a3 hFG, a3.mono.del _ hd3, c0, l0, ?_,
              a3.mono.info _ _ d2, d3, d4⟩
            rw [a3.cont d2 hFG]; exact d1
        · exact Or.inr ⟨rfl, _, L0, hext, upd_same _ _ _, i3, f3, hrem3, hd3, c0, l0, d1, d2, d3, d4⟩

theorem mergeLoop_solo {smo : Chain K V → Stk → Prog K V Unit} (hsmo : SoloSmo cfg t smo)
    (hc : CfgOK2 cfg) {dk : K} {w : Nat} {rem L0 : PID} {n : Node K V} (hfw : fl w = some L0) :
    ∀ (f : Nat) (b : Bool) {stk : Stk} {s : St K V},
    SI cfg (fun q => E q ∨ q = rem) (fun q => D q ∨ q = rem) (fun x => W x ∨ x = w) fl s →
    Below s F E → Below s F D → RemAt (solo t) s F (some dk) rem n → s.est rem = .deleted →
    LeftOf s F dk L0 → s.cellInfo w = some (F, dk) →
    (b = true → ParOK .free s F dk false stk) →
    (b = false → stk ≠ [] ∧ StkOK .free s F dk false stk) →
    sp (mergeLoop cfg smo n dk w rem f b stk) (fun _ s' => SPost cfg E D W fl F s s') s := by
  intro f
  induction f with
  | zero => intro b stk s _ _ _ _ _ _ _ _ _; trivial
  | succ f ih =>
    intro b stk s hI hE hD hrem hd hleft hcell h1 h2
    have hnw := hI.inv.l.page rem _ F _ hrem.cont hrem.info
    cases b with
    | true =>
      cases stk with
      | nil =>
        apply sp_of_ro (searchTarget_exact (tInner := n.inner) hI hnw.wf.1 hrem.info hrem.cont
          (by intro G e; rw [hd] at e; cases e) (hI.liveAbove hD (fun q hq => hq)) f
          (by intro p rest e; cases e))
        rintro x ⟨hx, hs⟩
        refine ih false hI hE hD hrem hd hleft hcell (fun e => by cases e) (fun _ => ⟨hx, ?_⟩)
        exact hs.toOpen hI.inv.l (.refl _) hrem.cont hrem.info hd
      | cons y ys =>
        rcases h1 rfl with e | ⟨_, G, g1, g2, g3⟩
        · cases e
        have hGlt := g3.adj.head_lt hI.inv.l (by simp)
        have hFG := hI.inv.l.fcf G g1 hGlt
        change s.fcf G < G at hFG
        apply sp_of_ro (searchChild_gen hI.inv (hI.inv.info_ne_zero hrem.info) f (by simp) g3
          (Nat.pos_iff_ne_zero.1 g1))
        intro x hx
        rcases hx with ⟨_, _, _, F', lo, e4, e5, _⟩ | ⟨_, e2, _⟩ | ⟨_, e2, F', e3, e4⟩
        · rw [hrem.info] at e5; cases e5; omega
        · simp only [e2, if_true]
          exact ih true hI hE hD hrem hd hleft hcell
            (fun _ => Or.inl rfl) (fun e => by cases e)
        · simp only [e2, if_false]
          have : F' = F := by
            rw [e4 (Or.inl (hI.inv.info_ne_zero hrem.info))]; exact g2
          subst this
          exact ih false hI hE hD hrem hd hleft hcell
            (fun e => by cases e) (fun _ => ⟨e2, e3⟩)
    | false =>
      obtain ⟨hne, hs⟩ := h2 rfl
      have key : sp ((getHead cfg dk false rem f stk).bind fun o =>
          match o with
          | none => mergeLoop cfg smo n dk w rem f true []
          | some (_, []) => .ub
          | some (c, p :: rest) =>
            let nc := Chain.push (mergeDelta n dk) c (cfg.nodeDiff n)
            .cas p c nc fun b =>
              if b then
                .storeCell w p (if nc.needConsolidation cfg then smo nc (p :: rest) else .ret ())
              else mergeLoop cfg smo n dk w rem f false (p :: rest))
          (fun _ s' => SPost cfg E D W fl F s s') s := by
        apply sp_of_ro (getHead_gen hI.inv hrem.info f (Nat.le_refl _) hne hs)
        intro o ho
        cases o with
        | none => exact ih true hI hE hD hrem hd hleft hcell (fun _ => Or.inl rfl) (fun e => by cases e)
        | some y =>
          obtain ⟨c, stk'⟩ := y
          obtain ⟨q, rest, lq, e0, e1, e2, e3, e4, e5, e6, e7, e8⟩ := ho
          subst e0
          have hhigh : HighOK c.high dk false := by
            rcases e8 with h | ⟨h, b, hb1, hb⟩
            · exact h
            · rw [hrem.info] at hb; cases hb
              exfalso
              apply h
              intro y hy
              rw [hb1] at hy; cases hy
              simp
          refine ⟨?_, fun hm => ?_⟩
          · simp only [Bool.false_eq_true, if_false]
            exact ih false hI hE hD hrem hd hleft hcell (fun e => by cases e)
              (fun _ => ⟨by simp, e7⟩)
          · -- the page found is the left neighbour
            have hq0 : q = L0 := by
              obtain ⟨c0, l0, a1, a2, a3, a4⟩ := hleft
              by_contra hne
              have hcq := St.cont_live e4 e1 e3
              rcases hI.inv.l.disj q L0 c c0 F lq l0 hcq a1 e4 a2 hne with
                ⟨x, y, b1, b2, b3⟩ | ⟨x, y, b1, b2, b3⟩
              · have b4 := hhigh x b1
                have b5 := a3 y b2
                simp only [Bool.false_eq_true, if_false] at b4 b5
                order
              · rw [a4] at b1; cases b1
                have b5 := e5 y b2
                simp only [Bool.false_eq_true, if_false] at b5
                order
            obtain ⟨i3, f3, hrange, hrm, hne'⟩ := hI.merge hc.maxPos e4 hm e3 e2 e5 hhigh hrem hd
            obtain ⟨i4, f4⟩ := i3.storeCell (G := F) (f3.mono.cell _ _ hcell) (f3.mono.info _ _ e4) e5
              (by rw [hfw, hq0])
            have f34 := f3.trans f4
            refine ⟨s.doMerge cfg t q rem _, rfl, ?_⟩
            simp only [if_true]
            refine ⟨{ s.doMerge cfg t q rem (Chain.push (mergeDelta n dk) c (cfg.nodeDiff n)) with
              cells := upd s.cells w q }, rfl, ?_⟩
            split
            · refine sp_mono (hsmo E D W fl F lq dk _ _ _ _ i4 (hE.mono f34.mono (Nat.le_refl _))
                (hD.mono f34.mono (Nat.le_refl _)) (f34.mono.info _ _ e4)
                (e7.mono hI.inv.l f34.mono).toClosed hrange hrm ?_)
                (fun _ s' h => h.pre (fun _ _ e => e) (Nat.le_refl _) f34)
              intro hw
              refine ⟨?_, by simp [St.doMerge]⟩
              simp only [St.doMerge]
              rw [upd_ne _ _ hne', upd_same, if_pos hw]
            · exact i4.post f34
      cases stk with
      | nil => exact absurd rfl hne
      | cons y ys => exact key

/-- The root is removed or the node is put back. -/
theorem removeRoot_solo (hc : CfgOK2 cfg) {rem : PID} {n : Node K V} {stk : Stk}
    (hI : SI cfg E (fun q => D q ∨ q = rem) W fl s) (hE : Below s F E)
    (hrem : RemAt (solo t) s F low rem n) (hnd : s.est rem ≠ .deleted) :
    sp ((tryRemoveRoot n rem stk).bind fun b =>
      if b then .ret () else .store rem (.base n) (.ret ()))
      (fun _ s' => SPost cfg E D W fl F s s') s := by
  have hback : sp (if false = true then .ret () else .store rem (.base n) (.ret ()))
        (fun _ s' => SPost cfg E D W fl F s s') s := by
    simp only [Bool.false_eq_true, if_false]
    obtain ⟨i3, f3⟩ := hI.undo hrem hnd
    exact ⟨_, rfl, i3.post f3⟩
  apply sp_bind
  unfold tryRemoveRoot
  split
  · exact hback
  · rename_i hcond
    simp only [not_or, not_not, Bool.not_eq_false] at hcond
    have hnw := hI.inv.l.page rem _ F _ hrem.cont hrem.info
    have hF : F ≠ 0 := by
      have := hnw.wf.1
      rw [hcond.2.2] at this
      simpa using this.symm
    have hwf := hnw.wf
    simp only [hF, ne_eq, not_false_eq_true, decide_true] at hwf
    obtain ⟨q, hq1, hq2⟩ := hwf.leftmostChild hnw.ents
    change s.info q = some (s.fcf F, low) at hq2
    rw [hq1]
    intro cq hcq
    simp only
    split
    · exact hback
    · refine ⟨fun _ => hback, fun hroot => ?_⟩
      obtain ⟨G, hG⟩ := hI.inv.p.root
      rw [hroot, hrem.info] at hG; cases hG
      have hlow : n.low = none := hwf.2.1
      have hli : n.leftInner = true := by simp [Node.leftInner, hlow, hcond.2.2]
      subst hroot
      have hb : (Chain.base n).flatBody = [] := by
        show n.body = []
        simp only [Node.body, hli, if_true]
        exact List.drop_eq_nil_of_le (Nat.not_lt.1 hcond.2.1)
      have hpre : ∃ y, (y, Pay.child q) ∈ (Chain.base n).pre := by
        show ∃ y, (y, Pay.child q) ∈ n.pre
        simp only [Node.pre, hli, if_true]
        simp only [Chain.leftmostChild] at hq1
        split at hq1
        · next y p' l e =>
          cases hq1
          exact ⟨y, by simp [e]⟩
        · cases hq1
      obtain ⟨y, hy⟩ := hpre
      obtain ⟨i3, f3⟩ := hI.kill hc.maxPos hE hrem hF hb hy
      exact ⟨_, rfl, i3.post f3⟩

/-- `TryMerge`. -/
theorem tryMerge_solo {smo : Chain K V → Stk → Prog K V Unit} (hsmo : SoloSmo cfg t smo)
    (hc : CfgOK2 cfg) (f : Nat) {head : Chain K V} {k : K} {rest : Stk}
    (hI : SI cfg E D W fl s) (hE : Below s F E) (hD : Below s F D)
    (hi : s.info p = some (F, low)) (hrm : head.isRemoved = false)
    (hs : StkOK .free s F k true (p :: rest)) (hk : HighOK head.high k true)
    (hfro : head.needWait cfg = true → s.own p = some t) (hsz : head.size ≤ cfg.page)
    (hmin : head.size ≤ cfg.minSize) :
    sp (tryMerge cfg smo f head (consNode (decide (F ≠ 0)) head head.size) (p :: rest))
      (fun _ s' => SPost cfg E D W fl F s s') s := by
  refine ⟨hI.post .rfl, fun hm => ?_⟩
  have hown : s.own p = none ∨ s.own p = some t := by
    cases hw : head.needWait cfg with
    | true => exact Or.inr (hfro hw)
    | false => exact Or.inl (hI.inv.own_none (by rw [hi]; simp) hm hrm hw)
  obtain ⟨i2, f2, hrem, hnd, hlow, hhigh⟩ := hI.doRemove hi hm hrm hsz hown hmin
  have hbool : (!(consNode (decide (F ≠ 0)) head head.size).inner) = decide (F = 0) := by
    simp [consNode]
  refine ⟨s.doRemove t p (decide (F = 0)) (consNode (decide (F ≠ 0)) head head.size),
    by rw [hbool]; rfl, ?_⟩
  simp only [if_true]
  generalize hn : consNode (decide (F ≠ 0)) head head.size = n at *
  have hs2 := hs.mono hI.inv.l f2.mono
  generalize hs2' : s.doRemove t p (decide (F = 0)) n = s2 at *
  have hE2 := hE.mono f2.mono (Nat.le_refl _)
  have hD2 := hD.mono f2.mono (Nat.le_refl _)
  have hrr : sp ((tryRemoveRoot n p rest).bind fun b =>
      if b then .ret () else .store p (.base n) (.ret ()))
      (fun _ s' => SPost cfg E D W fl F s s') s2 :=
    sp_mono (removeRoot_solo hc i2 hE2 hrem hnd)
      (fun _ s' h => h.pre (fun _ _ e => e) (Nat.le_refl _) f2)
  apply sp_bind
  unfold tryDeleteIndexEntry
  by_cases hr : rest = []
  · simp only [hr, if_true]
    apply sp_ret
    simp only
    rw [hr] at hrr
    exact hrr
  · simp only [hr, if_false]
    rw [hlow]
    cases hl : low with
    | none =>
      simp only
      apply sp_ret
      exact hrr
    | some dk =>
      subst hl
      simp only
      obtain ⟨i4, f4, hfn⟩ := i2.newCell F dk F
      have hrem4 : RemAt (solo t)
          { s2 with
            ncell := s2.ncell + 1, cells := upd s2.cells s2.ncell 0,
            cellInfo := upd s2.cellInfo s2.ncell (some (F, dk)) } F
          (some dk) p n := ⟨hrem.info, hrem.own, hrem.pend, hrem.mt, hrem.nX⟩
      refine ⟨{ s2 with
        ncell := s2.ncell + 1, cells := upd s2.cells s2.ncell 0,
        cellInfo := upd s2.cellInfo s2.ncell (some (F, dk)) }, rfl, ?_⟩
      have hs4 := hs2.mono i2.inv.l f4.mono
      rcases StkOK.par (C := solo t) hs4 with e | ⟨_, G, q1, q2, q3⟩
      · exact absurd e hr
      have hdn : Down s2.fcf G F := by
        change s2.fcf G = F at q2
        rw [← q2]; exact .step (by omega) (.refl _)
      have hlow4 : StkOK .free _ G dk true rest := q3.toLow i4.inv.l hdn hrem4.cont hrem4.info (by
        show HighOK n.high k true
        rw [hhigh]; exact hk)
      refine sp_mono (deleteLoop_solo hsmo hc q1 f i4 (hE2.mono f4.mono (Nat.le_refl _))
        (hD2.mono f4.mono (Nat.le_refl _)) hrem4 (upd_same _ _ _) (Nat.lt_succ_self _)
        (upd_same _ _ _) hfn hr q2 hlow4) ?_
      rintro o s5 (⟨rfl, rfl⟩ | ⟨rfl, fl', L0, a1, a2, i5, f5, rem5, d5, left5⟩)
      · simp only
        exact sp_mono (removeRoot_solo hc i4 (hE2.mono f4.mono (Nat.le_refl _)) hrem4 hnd)
          (fun _ s' h => h.pre (fun _ _ e => e) (Nat.le_refl _) (f2.trans f4))
      · simp only
        have f25 := f2.trans (f4.trans f5)
        have hGlt := q3.adj.head_lt i4.inv.l hr
        have hG5 : s5.fcf G = F := by rw [f5.mono.fcf G hGlt]; exact q2
        refine sp_mono (mergeLoop_solo hsmo hc a2 f true i5 (hE.mono f25.mono (Nat.le_refl _))
          (hD.mono f25.mono (Nat.le_refl _)) rem5 d5 left5 (f5.mono.cell _ _ (upd_same _ _ _))
          (fun _ => Or.inr ⟨hr, G, q1, hG5, ?_⟩) (fun e => by cases e))
          (fun _ s' h => h.pre a1 (Nat.le_refl _) f25)
        exact (hlow4.mono i4.inv.l f5.mono).toOpen i5.inv.l
          (by rw [← hG5]; exact .step (by omega) (.refl _)) rem5.cont rem5.info d5

/-! ## `TrySMOs` -/

theorem trySMOs_solo (hc : CfgOK2 cfg) : ∀ (f : Nat),
    SoloSmo cfg t (trySMOs (K := K) (V := V) cfg f) := by
  intro f
  induction f with
  | zero => intro E D W fl F low k head p rest s _ _ _ _ _ _ _ _; trivial
  | succ f ih =>
    intro E D W fl F low k head p rest s hI hE hD h1 h2 h3 h4 h5
    refine ⟨hI.post .rfl, fun hm => ?_⟩
    refine ⟨s, toSh_same hm, ?_⟩
    simp only [if_true]
    obtain ⟨hcont, hpw⟩ := hI.inv.live h1 hm h4
    obtain ⟨_, t2, t3, t4⟩ := tryConsolidate_spec hc.toCfgOK hpw.wf false
    by_cases hsz : head.size ≤ cfg.page
    · by_cases hmin : head.size ≤ cfg.minSize
      · rw [t2 rfl hsz hmin]
        exact tryMerge_solo ih hc f hI hE hD h1 h4 h2 h3.2 (fun e => (h5 e).1) hsz hmin
      · rw [t3 rfl hsz hmin]
        refine ⟨hI.post .rfl, fun hm2 => ?_⟩
        have hown : s.own p = none ∨ s.own p = some t := by
          cases hw : head.needWait cfg with
          | true => exact Or.inr (h5 hw).1
          | false => exact Or.inl (hI.inv.own_none (by rw [h1]; simp) hm2 h4 hw)
        obtain ⟨i3, f3⟩ := hI.putCons h1 hm2 h4 hsz hown
        exact ⟨_, rfl, i3.post f3⟩
    · obtain ⟨lr, x, rr, a1, a2, a3, a4, a5⟩ := t4 rfl hsz
      rw [a5]
      simp only
      have hw : head.needWait cfg = true := by
        cases hd : head.isDelta with
        | false => exact absurd (hpw.base_le hd) hsz
        | true =>
          unfold Chain.needWait
          rw [hd, decide_eq_true (p := (cfg.page : Int) < head.size) (by omega)]
          simp
      exact split_solo ih hc f hI hE hD h1 hm h4 (h5 hw).1 h2 h3.2 (fun _ => rfl) rfl a1 a2 a3 a4

end BwTree
