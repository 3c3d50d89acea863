import Verif.Conc.SmoSteps

/-!
# Specifications of the structure modifications (helper lemmas)
-/

namespace BwTree

set_option linter.unusedSectionVars false

variable {K V : Type} [LinearOrder K] {cfg : Cfg K} {s s' : St K V} {C : Ctx} {F : Nat}
  {low : Option K} {p rp : PID} {stk : Stk}

theorem wp_ret {α : Type} {a : α} {Q : α → St K V → Prop} :
    wp cfg C (.ret a) Q s ↔ Q a s := Iff.rfl

/-- What `TrySMOs` relies on. -/
def SmoPre (cfg : Cfg K) (R : Regime) (t : Nat) (s : St K V) (head : Chain K V) (p : PID) (rest : Stk) : Prop :=
  ∃ F low k, s.info p = some (F, low) ∧ StkOK R s F k true (p :: rest) ∧ InR low head.high k ∧
    head.isRemoved = false ∧
    (head.needWait cfg = true → s.own p = some t ∧ s.mt p = some head)

theorem SmoPre.rely {head : Chain K V} {rest : Stk} (h : SmoPre cfg C.reg C.t s head p rest)
    (hI : Inv cfg s) (r : Rely C.t s s') : SmoPre cfg C.reg C.t s' head p rest := by
  obtain ⟨F, low, k, h1, h2, h3, h4, h5⟩ := h
  refine ⟨F, low, k, r.mono.info _ _ h1, h2.mono hI.l r.mono, h3, h4, fun e => ?_⟩
  obtain ⟨e1, e2⟩ := h5 e
  obtain ⟨d1, d2, _⟩ := r.own p e1
  exact ⟨d1, by rw [d2]; exact e2⟩

/-- The specification of `TrySMOs`; what it keeps is given by the frame rule. -/
def SmoSpec (cfg : Cfg K) (smo : Chain K V → Stk → Prog K V Unit) : Prop :=
  ∀ (C : Ctx) (head : Chain K V) (p : PID) (rest : Stk) (s : St K V), Inv cfg s → XOK C s →
    SmoPre cfg C.reg C.t s head p rest → wp cfg C (smo head (p :: rest)) (fun _ _ => True) s

/-- The parent stack of a page of family `F`. -/
def ParOK (R : Regime) (s : St K V) (F : Nat) (k : K) (cl : Bool) (stk : Stk) : Prop :=
  stk = [] ∨ (stk ≠ [] ∧ ∃ G, 0 < G ∧ s.fcf G = F ∧ StkOK R s G k cl stk)

theorem ParOK.mono {k : K} {cl : Bool} (h : ParOK C.reg s F k cl stk) (hl : LInv cfg s.lv)
    (m : Mono s s') : ParOK C.reg s' F k cl stk := by
  rcases h with e | ⟨e, G, g1, g2, g3⟩
  · exact Or.inl e
  · exact Or.inr ⟨e, G, g1, by rw [m.fcf G (g3.adj.head_lt hl e)]; exact g2, g3.mono hl m⟩

theorem StkOK.par {k : K} {cl : Bool} {rest : Stk} (h : StkOK C.reg s F k cl (p :: rest)) :
    ParOK C.reg s F k cl rest := by
  by_cases e : rest = []
  · exact Or.inl e
  · obtain ⟨G, h⟩ := h.tail e
    exact Or.inr ⟨e, G, h⟩

/-! ## Split -/

theorem splitLoop_spec {smo : Chain K V → Stk → Prog K V Unit} (hsmo : SmoSpec cfg smo)
    (hc : CfgOK2 cfg) {sep : K} {high : Option K} {lp : PID} {rInner : Bool}
    (hri : rInner = decide (F ≠ 0)) : ∀ (f : Nat) {stk : Stk} {s : St K V}, Inv cfg s → XOK C s →
    s.info lp = some (F, low) → s.info rp = some (F, some sep) → s.est rp = .unposted C.t →
    ParOK C.reg s F sep true stk →
    wp cfg C (splitLoop cfg smo sep high rInner rp lp f stk) (fun _ _ => True) s := by
  intro f
  induction f with
  | zero => intro stk s _ _ _ _ _ _; trivial
  | succ f ih =>
    intro stk s hI hX hl hr he hp
    have hrne : s.info rp ≠ none := by rw [hr]; simp
    cases stk with
    | nil =>
      apply wp_bind
      apply wp_loadRoot
      intro s1 r1 i1 o1
      have hl1 := r1.mono.info _ _ hl
      have hr1 := r1.mono.info _ _ hr
      have he1 := r1.unp rp hrne he
      have hX1 := hX.rely r1
      by_cases hroot : s1.root = lp
      · simp only [hroot, ne_eq, not_true_eq_false, if_false]
        obtain ⟨F0, hF0⟩ := i1.p.root
        rw [hroot, hl1] at hF0
        cases hF0
        intro s2 r2 i2 o2
        have hX2 := hX1.rely r2
        have hfr := i2.p.fresh s2.npid (Or.inl (Nat.le_refl _))
        have hnX : ¬ C.X s2.npid := by
          intro h
          have := (hX2 _ h).1
          rw [hfr.2.2.1] at this; cases this
        obtain ⟨i3, g3⟩ := i2.newPid (C := C)
        refine ⟨_, rfl, i3, ⟨g3 hnX, rfl⟩, ?_⟩
        intro s4 r4 i4 o4
        have hm24 := (g3 hnX).mono.trans r4.mono
        obtain ⟨o1, o2, o3, o4, _⟩ := r4.own s2.npid (by simp)
        have hn4 : s4.info s2.npid = none := o4 hfr.2.1
        have hl4 := hm24.info _ _ (r2.mono.info _ _ hl1)
        have hr4 := hm24.info _ _ (r2.mono.info _ _ hr1)
        have hrne2 : s2.info rp ≠ none := by rw [r2.mono.info _ _ hr1]; simp
        have he2 := r2.unp rp (by rw [hr1]; simp) he1
        have he4 := r4.unp rp hrne2 he2
        obtain ⟨i5, g5⟩ := i4.pubRoot (C := C) hc hn4 o1 hnX hl4 hr4 he4
        refine ⟨Or.inl (o2.trans hfr.1), _, rfl, i5, ⟨g5, rfl⟩, ?_⟩
        intro s6 r6 i6 o6
        have hn6 : s6.info s2.npid = some (s4.nfam, none) := by
          apply r6.mono.info
          simp [St.pubRoot]
        obtain ⟨i7, g7⟩ := i6.setRoot (C := C) hn6
        exact ⟨_, rfl, i7, ⟨g7, rfl⟩, trivial⟩
      · simp only [hroot, ne_eq, not_false_eq_true, if_true]
        rw [wp_ret]
        simp only [Bool.false_eq_true, if_false]
        apply wp_bind
        apply searchTarget_spec (F := 0) hri f i1 hr1 StkOK.nil
        intro s2 x r2 i2 hx hs
        cases x with
        | nil => exact absurd rfl hx
        | cons y ys =>
          exact ih i2 (hX1.rely r2) (r2.mono.info _ _ hl1) (r2.mono.info _ _ hr1)
            (r2.unp rp (by rw [hr1]; simp) he1) hs.par
    | cons x xs =>
      rcases hp with e | ⟨_, G, g1, g2, g3⟩
      · cases e
      have hGlt := g3.adj.head_lt hI.l (by simp)
      have hFG : F < G := by
        have := hI.l.fcf G g1 hGlt
        change s.fcf G < G at this
        omega
      apply wp_bind
      apply getHead_spec f hI hr (Nat.le_of_lt hFG) (by simp) g3
      intro s1 o r1 i1 ho
      have hl1 := r1.mono.info _ _ hl
      have hr1 := r1.mono.info _ _ hr
      have hrne1 : s1.info rp ≠ none := by rw [hr1]; simp
      have he1 := r1.unp rp hrne he
      have hX1 := hX.rely r1
      cases o with
      | none => exact ih i1 hX1 hl1 hr1 he1 (Or.inl rfl)
      | some y =>
        obtain ⟨c, stk'⟩ := y
        obtain ⟨q, rest, lq, e0, e1, e2, e3, e4, e5, e6, e7, e8⟩ := ho
        subst e0
        have hhigh : HighOK c.high sep true := by
          rcases e8 with h | ⟨_, b, _, hb⟩
          · exact h
          · rw [hr1] at hb; cases hb; exact absurd hFG (Nat.lt_irrefl _)
        apply wp_cas
        intro s2 r2 i2 o2
        have hX2 := hX1.rely r2
        have hl2 := r2.mono.info _ _ hl1
        have hr2 := r2.mono.info _ _ hr1
        have he2 := r2.unp rp hrne1 he1
        have hs2 := e7.mono i1.l r2.mono
        have hG2 : s2.fcf G = F := by
          rw [(r1.mono.trans r2.mono).fcf G hGlt]; exact g2
        refine ⟨?_, fun hm => ?_⟩
        · simp only [Bool.false_eq_true, if_false]
          exact ih i2 hX2 hl2 hr2 he2 (Or.inr ⟨by simp, G, g1, hG2, hs2⟩)
        · have hi2 := r2.mono.info _ _ e4
          obtain ⟨i3, gu3, hh, hrm⟩ := i2.putEntry (C := C) (high := high) hc g1 hG2 hi2 hm e3
            e2 (hX2.live hm e3) ⟨e5, hhigh⟩ hr2 he2
          refine ⟨⟨e3, by rw [hi2]; simp⟩, _, rfl, i3, ⟨gu3, fun _ => rfl⟩, ?_⟩
          simp only [if_true]
          split
          · apply hsmo C _ _ _ _ i3 (hX2.guar gu3)
            refine ⟨G, lq, sep, gu3.mono.info _ _ hi2, hs2.mono i2.l gu3.mono, ?_, hrm, ?_⟩
            · rw [hh]; exact ⟨e5, hhigh⟩
            · intro hw; simp [St.put, hw]
          · trivial

/-- `Split` of a frozen page of this thread. -/
theorem split_spec {smo : Chain K V → Stk → Prog K V Unit} (hsmo : SmoSpec cfg smo)
    (hc : CfgOK2 cfg) (f : Nat) {c : Chain K V} {k : K} {rest : Stk} {lr rr : List (K × Pay V)}
    {x : K × Pay V} {l r : Node K V} (hI : Inv cfg s) (hX : XOK C s)
    (hi : s.info p = some (F, low)) (hm : s.mt p = some c) (hrm : c.isRemoved = false)
    (hop : s.own p = some C.t) (hs : StkOK C.reg s F k true (p :: rest)) (hk : HighOK c.high k true)
    (hw : c.needWait cfg = true) (htc : tryConsolidate cfg false c = some (.split l r))
    (hl : ∀ rp, { l with next := rp } = splitL cfg (decide (F ≠ 0)) c lr x.1 rp)
    (hr : r = splitR cfg (decide (F ≠ 0)) c x rr)
    (hlr : lr ≠ []) (hcat : lr ++ x :: rr = c.flat)
    (hsm : cfg.lsz (decide (F ≠ 0)) c lr - (cfg.recLen (decide (F ≠ 0)) + cfg.maxKey) ≤
        ((cfg.page - cfg.hdr) / 2 : Int) ∨ lr.length = 1)
    (hlg : ((cfg.page - cfg.hdr) / 2 : Int) < cfg.lsz (decide (F ≠ 0)) c lr) :
    wp cfg C (split cfg smo f l r x.1 (p :: rest)) (fun _ _ => True) s := by
  intro s1 r1 i1 o1
  have hX1 := hX.rely r1
  have hfr := i1.p.fresh s1.npid (Or.inl (Nat.le_refl _))
  have hnX : ¬ C.X s1.npid := by
    intro h
    have := (hX1 _ h).1
    rw [hfr.2.2.1] at this; cases this
  obtain ⟨i2, g2⟩ := i1.newPid (C := C)
  have g2 := g2 hnX
  refine ⟨_, rfl, i2, ⟨g2, rfl⟩, ?_⟩
  obtain ⟨a1, a2, _⟩ := r1.own p hop
  have hpne : p ≠ s1.npid := by
    intro e
    have := r1.mono.info _ _ hi
    rw [e, hfr.2.1] at this; cases this
  intro s3 r3 i3 o3
  obtain ⟨b1, b2, b3, b4, _⟩ := r3.own s1.npid (by simp)
  have hn3 : s3.info s1.npid = none := b4 hfr.2.1
  have hrw : NodeWF cfg r ∧ r.size ≤ cfg.page := by
    obtain ⟨_, hpw⟩ := i1.live (r1.mono.info _ _ hi) (a2.trans hm) hrm
    obtain ⟨_, w2, _⟩ := hpw.split hc hlr hcat hsm hlg (r := s1.npid) hfr.2.1
    rw [← hr] at w2
    exact ⟨w2.wf.2.2, w2.base⟩
  obtain ⟨i4, g4⟩ := i3.stage (C := C) (c := .base r) b1 hn3 hnX rfl hrw.1 hrw.2
  refine ⟨Or.inl (b2.trans hfr.1), _, rfl, i4, ⟨g4, rfl⟩, ?_⟩
  intro s5 r5 i5 o5
  obtain ⟨c1, c2, c3, c4, _⟩ := r5.own s1.npid b1
  obtain ⟨d1, d2, _⟩ := r3.own p (by
    change upd s1.own s1.npid _ p = _
    rw [upd_ne _ _ hpne]; exact a1)
  obtain ⟨f1, f2, _⟩ := r5.own p d1
  have hmono : Mono s s5 := r1.mono.trans (g2.mono.trans (r3.mono.trans (g4.mono.trans r5.mono)))
  have hi5 := hmono.info _ _ hi
  have hm5 : s5.mt p = some c := by
    rw [f2]
    change upd s3.mt s1.npid _ p = _
    rw [upd_ne _ _ hpne, d2]
    change s1.mt p = _
    rw [a2]; exact hm
  have hmr5 : s5.mt s1.npid = some (.base r) := by
    rw [c2]
    change upd s3.mt s1.npid _ s1.npid = _
    rw [upd_same]
  have hn5 : s5.info s1.npid = none := c4 hn3
  have hX5 : XOK C s5 := ((((hX1.guar g2).rely r3).guar g4).rely r5)
  obtain ⟨hcont, hpw⟩ := i5.live hi5 hm5 hrm
  obtain ⟨w1, w2, w3, w4, w5, w6, w7, w8, w9⟩ := hpw.split hc hlr hcat hsm hlg (r := s1.npid) hn5
  rw [← hr] at w2 w4 w5 w9
  rw [← hl] at w1 w3 w5 w8
  obtain ⟨i6, g6⟩ := i5.doSplit (C := C) hi5 hm5 hrm f1 (hX5.live hm5 hrm) c1 hn5 hmr5 hnX w1 w2 w3
    w4 w8 w9 w5 w6 w7
  refine ⟨Or.inr (Or.inr ⟨c, l, r, _, hm5, hw, htc, rfl, hmr5⟩), _, rfl, i6, ⟨g6, rfl⟩, ?_⟩
  have hi6 := g6.mono.info _ _ hi5
  have hs6 := (hs.mono hI.l hmono).mono i5.l g6.mono
  have hr6 : (s5.doSplit C.t F x.1 p s1.npid (.base { l with next := s1.npid })).info s1.npid =
      some (F, some x.1) := by simp [St.doSplit]
  refine splitLoop_spec hsmo hc (by rw [hr]; rfl) f i6 (hX5.guar g6) hi6 hr6
    (by simp [St.doSplit]) ?_
  rcases hs6.par with e | ⟨e, G, h1, h2, h3⟩
  · exact Or.inl e
  · refine Or.inr ⟨e, G, h1, h2, ?_⟩
    have hcr : (s5.doSplit C.t F x.1 p s1.npid (.base { l with next := s1.npid })).cont s1.npid =
        some (.base r) := by
      refine St.cont_live hr6 ?_ rfl
      simp only [St.doSplit]
      rw [upd_ne _ _ (Ne.symm hpne)]; exact hmr5
    refine h3.toLow i6.l ?_ hcr hr6 ?_
    · rw [← h2]; exact .step (by omega) (.refl _)
    · rw [w4]; exact hk

/-! ## Merge -/

/-- The removed page of this thread. -/
structure RemAt (C : Ctx) (s : St K V) (F : Nat) (low : Option K) (rem : PID) (n : Node K V) :
    Prop where
  info : s.info rem = some (F, low)
  own : s.own rem = some C.t
  pend : s.pend rem = some n
  mt : ∃ b, s.mt rem = some (.removed b)
  nX : ¬ C.X rem

theorem RemAt.same {rem : PID} {n : Node K V} (h : RemAt C s F low rem n) (m : Mono s s')
    (hs : Same C.t rem s s') : RemAt C s' F low rem n := by
  obtain ⟨e1, e2, e3, _⟩ := hs h.own
  obtain ⟨b, hb⟩ := h.mt
  exact ⟨m.info _ _ h.info, e1, by rw [e3]; exact h.pend, ⟨b, by rw [e2]; exact hb⟩, h.nX⟩

theorem RemAt.rely {rem : PID} {n : Node K V} (h : RemAt C s F low rem n) (r : Rely C.t s s') :
    RemAt C s' F low rem n := h.same r.mono (r.own rem)

theorem RemAt.cont {rem : PID} {n : Node K V} (h : RemAt C s F low rem n) :
    s.cont rem = some (.base n) := by
  obtain ⟨b, hb⟩ := h.mt
  rw [St.cont_pend h.info hb, h.pend]; rfl

/-- The context in which another page is protected. -/
def Ctx.add (C : Ctx) (rem : PID) : Ctx := { C with X := fun q => C.X q ∨ q = rem }

theorem Ctx.add_le (C : Ctx) (rem : PID) : (C.add rem).le C :=
  ⟨rfl, fun _ h => Or.inl h, fun h => h, rfl⟩

theorem XOK.add {rem : PID} {n : Node K V} (h : XOK C s) (hr : RemAt C s F low rem n) :
    XOK (C.add rem) s := by
  rintro q (hq | hq)
  · exact h q hq
  · subst hq; exact ⟨hr.own, hr.mt⟩

theorem XOK.of_add {rem : PID} (h : XOK (C.add rem) s) : XOK C s := fun q hq => h q (Or.inl hq)

/-- Call of `TrySMOs` while a removed page is protected. -/
theorem smo_frame {smo : Chain K V → Stk → Prog K V Unit} (hsmo : SmoSpec cfg smo)
    {head : Chain K V} {rest : Stk} {rem : PID} {n : Node K V} {Q : Unit → St K V → Prop}
    {lr : Option K} (hI : Inv cfg s) (hX : XOK C s) (hr : RemAt C s F lr rem n)
    (hp : SmoPre cfg C.reg C.t s head p rest)
    (hQ : ∀ s', Inv cfg s' → Mono s s' → XOK C s' → RemAt C s' F lr rem n → Q () s') :
    wp cfg C (smo head (p :: rest)) Q s := by
  apply wp_frame (D := C.add rem) (C.add_le rem) (hsmo (C.add rem) head p rest s hI (hX.add hr) hp)
    hI
  intro _ s' i' k _
  exact hQ s' i' k.mono (XOK.of_add ((hX.add hr).keep k)) (hr.same k.mono (k.keep rem (Or.inr rfl)))

theorem deleteLoop_spec {smo : Chain K V → Stk → Prog K V Unit} (hsmo : SmoSpec cfg smo)
    (hc : CfgOK2 cfg) {dk : K} {high : Option K} {w : Nat} {rem : PID} {n : Node K V} {G : Nat}
    (hG : 0 < G) {Q : Option Nat → St K V → Prop} : ∀ (f : Nat) {sib : Option K} {stk : Stk}
    {s : St K V}, Inv cfg s → XOK C s → RemAt C s F (some dk) rem n → s.est rem ≠ .deleted →
    s.cellInfo w = some (F, dk) → stk ≠ [] → s.fcf G = F → StkOK C.reg s G dk true stk →
    (∀ s', Inv cfg s' → Mono s s' → XOK C s' → RemAt C s' F (some dk) rem n →
      s'.est rem ≠ .deleted → Q none s') →
    (∀ s', Inv cfg s' → Mono s s' → XOK C s' → RemAt C s' F (some dk) rem n →
      s'.est rem = .deleted → Q (some w) s') →
    wp cfg C (deleteLoop cfg smo dk high w f sib stk) Q s := by
  intro f
  induction f with
  | zero => intro sib stk s _ _ _ _ _ _ _ _ _ _; trivial
  | succ f ih =>
    intro sib stk s hI hX hrem hnd hcell hne hGF hs hQ1 hQ2
    have hGlt := hs.adj.head_lt hI.l hne
    apply wp_bind
    apply getHeadForMerge_spec hG f hI hne hs
    intro s1 x r1 i1 hx
    have hX1 := hX.rely r1
    have hrem1 := hrem.rely r1
    have hnd1 : s1.est rem ≠ .deleted := fun e => hnd ((r1.own rem hrem.own).2.2.2.2 e)
    cases hb : x.2.2.1 with
    | false =>
      simp only [Bool.false_eq_true, if_false]
      exact hQ1 s1 i1 r1.mono hX1 hrem1 hnd1
    | true =>
      simp only [if_true]
      obtain ⟨q, rest, lq, e0, e1, e2, e3, e4, e5, e6, e7, e8⟩ := hx hb
      simp only [e0] at e7 ⊢
      apply wp_cas
      intro s2 r2 i2 o2
      have hX2 := hX1.rely r2
      have hrem2 := hrem1.rely r2
      have hnd2 : s2.est rem ≠ .deleted := fun e => hnd1 ((r2.own rem hrem1.own).2.2.2.2 e)
      have hs2 := e7.mono i1.l r2.mono
      have m2 := r1.mono.trans r2.mono
      have hG2 : s2.fcf G = F := by rw [m2.fcf G hGlt]; exact hGF
      have hcell2 := m2.cell _ _ hcell
      refine ⟨?_, fun hm => ?_⟩
      · simp only [Bool.false_eq_true, if_false]
        exact ih i2 hX2 hrem2 hnd2 hcell2 (by simp) hG2 hs2
          (fun s' i m => hQ1 s' i (m2.trans m)) (fun s' i m => hQ2 s' i (m2.trans m))
      · have hi2 := r2.mono.info _ _ e4
        obtain ⟨b, hmr⟩ := hrem2.mt
        have hlive := hX2.live hm e3
        obtain ⟨i3, gu3, hh, hrm, hrange⟩ := i2.putDelEntry (C := C) (high := high) hc.maxPos hG hG2 hi2 hm e3
          e2 hlive e8 hrem2.info hrem2.cont hmr hrem2.own hrem2.nX hcell2
        refine ⟨⟨e3, by rw [hi2]; simp⟩, _, rfl, i3, ⟨gu3, fun _ => rfl⟩, ?_⟩
        have hqr : rem ≠ q := by
          rintro rfl
          rw [hm] at hmr
          rw [Option.some.inj hmr] at e3; cases e3
        have hrem3 : RemAt C (s2.put cfg C.t q (Chain.push (deleteDelta dk high w) x.2.1
            (-(cfg.entLen true dk : Int))) (upd s2.est rem .deleted) s2.m s2.ops) F (some dk) rem n := by
          refine ⟨hrem2.info, ?_, hrem2.pend, ⟨b, ?_⟩, hrem2.nX⟩
          · simp only [St.put, upd_ne _ _ hqr]; exact hrem2.own
          · simp only [St.put, upd_ne _ _ hqr]; exact hmr
        have hd3 : (s2.put cfg C.t q (Chain.push (deleteDelta dk high w) x.2.1
            (-(cfg.entLen true dk : Int))) (upd s2.est rem .deleted) s2.m s2.ops).est rem = .deleted := by
          simp [St.put]
        have m3 := m2.trans gu3.mono
        simp only [if_true]
        split
        · apply wp_bind
          apply smo_frame hsmo i3 (hX2.guar gu3) hrem3
          · refine ⟨G, lq, dk, gu3.mono.info _ _ hi2, hs2.mono i2.l gu3.mono, ?_, hrm, ?_⟩
            · rw [hh]; exact hrange
            · intro hw; simp [St.put, hw]
          · intro s4 i4 m4 x4 r4
            exact hQ2 s4 i4 (m3.trans m4) x4 r4 (m4.del _ hd3)
        · exact hQ2 _ i3 m3 (hX2.guar gu3) hrem3 hd3

theorem mergeLoop_spec {smo : Chain K V → Stk → Prog K V Unit} (hsmo : SmoSpec cfg smo)
    (hc : CfgOK2 cfg) {dk : K} {w : Nat} {rem : PID} {n : Node K V} : ∀ (f : Nat) (b : Bool)
    {stk : Stk} {s : St K V},
    Inv cfg s → XOK C s → RemAt C s F (some dk) rem n → s.est rem = .deleted →
    s.cellInfo w = some (F, dk) →
    (b = true → ParOK C.reg s F dk false stk) →
    (b = false → stk ≠ [] ∧ StkOK C.reg s F dk false stk) →
    wp cfg C (mergeLoop cfg smo n dk w rem f b stk) (fun _ _ => True) s := by
  intro f
  induction f with
  | zero => intro b stk s _ _ _ _ _ _ _; trivial
  | succ f ih =>
    intro b stk s hI hX hrem hd hcell h1 h2
    have hnw := hI.l.page rem _ F _ hrem.cont hrem.info
    cases b with
    | true =>
      cases stk with
      | nil =>
        apply wp_bind
        apply searchTarget_spec (F := 0) (tInner := n.inner) hnw.wf.1 f hI hrem.info StkOK.nil
        intro s1 x r1 i1 hx hs
        have hrem1 := hrem.rely r1
        refine ih false i1 (hX.rely r1) hrem1 (r1.mono.del _ hd) (r1.mono.cell _ _ hcell)
          (fun e => by cases e) (fun _ => ⟨hx, ?_⟩)
        exact hs.toOpen i1.l (.refl _) hrem1.cont hrem1.info (r1.mono.del _ hd)
      | cons y ys =>
        rcases h1 rfl with e | ⟨_, G, g1, g2, g3⟩
        · cases e
        have hGlt := g3.adj.head_lt hI.l (by simp)
        have hFG := hI.l.fcf G g1 hGlt
        change s.fcf G < G at hFG
        apply wp_bind
        apply searchChild_spec f hI (by simp) g3 (fun _ => Nat.pos_iff_ne_zero.1 g1)
        intro s1 x r1 i1 hx
        have hrem1 := hrem.rely r1
        rcases hx with ⟨_, _, _, F', lo, e4, e5, _⟩ | ⟨_, e2, _⟩ | ⟨_, e2, F', e3, e4⟩
        · rw [hrem1.info] at e5; cases e5; omega
        · simp only [e2, if_true]
          exact ih true i1 (hX.rely r1) hrem1 (r1.mono.del _ hd) (r1.mono.cell _ _ hcell)
            (fun _ => Or.inl rfl) (fun e => by cases e)
        · simp only [e2, if_false]
          have : F' = F := by
            rw [e4 (Or.inl (i1.info_ne_zero hrem1.info)), r1.mono.fcf G hGlt]; exact g2
          subst this
          exact ih false i1 (hX.rely r1) hrem1 (r1.mono.del _ hd) (r1.mono.cell _ _ hcell)
            (fun e => by cases e) (fun _ => ⟨e2, e3⟩)
    | false =>
      obtain ⟨hne, hs⟩ := h2 rfl
      have key : wp cfg C ((getHead cfg dk false rem f stk).bind fun o =>
          match o with
          | none => mergeLoop cfg smo n dk w rem f true []
          | some (_, []) => .ub
          | some (c, p :: rest) =>
            let nc := Chain.push (mergeDelta n dk) c (cfg.nodeDiff n)
            .cas p c nc fun b =>
              if b then
                .storeCell w p (if nc.needConsolidation cfg then smo nc (p :: rest) else .ret ())
              else mergeLoop cfg smo n dk w rem f false (p :: rest)) (fun _ _ => True) s := by
        apply wp_bind
        apply getHead_spec f hI hrem.info (Nat.le_refl _) hne hs
        intro s1 o r1 i1 ho
        have hrem1 := hrem.rely r1
        have hX1 := hX.rely r1
        have hd1 := r1.mono.del _ hd
        have hc1 := r1.mono.cell _ _ hcell
        cases o with
        | none => exact ih true i1 hX1 hrem1 hd1 hc1 (fun _ => Or.inl rfl) (fun e => by cases e)
        | some y =>
          obtain ⟨c, stk'⟩ := y
          obtain ⟨q, rest, lq, e0, e1, e2, e3, e4, e5, e6, e7, e8⟩ := ho
          subst e0
          have hhigh : HighOK c.high dk false := by
            rcases e8 with h | ⟨h, b, hb1, hb⟩
            · exact h
            · rw [hrem1.info] at hb; cases hb
              exfalso
              apply h
              intro y hy
              rw [hb1] at hy; cases hy
              simp
          apply wp_cas
          intro s2 r2 i2 o2
          have hX2 := hX1.rely r2
          have hrem2 := hrem1.rely r2
          have hs2 := e7.mono i1.l r2.mono
          have hd2 := r2.mono.del _ hd1
          have hc2 := r2.mono.cell _ _ hc1
          refine ⟨?_, fun hm => ?_⟩
          · simp only [Bool.false_eq_true, if_false]
            exact ih false i2 hX2 hrem2 hd2 hc2 (fun e => by cases e)
              (fun _ => ⟨by simp, hs2⟩)
          · have hi2 := r2.mono.info _ _ e4
            obtain ⟨b, hmr⟩ := hrem2.mt
            obtain ⟨i3, gu3, hrange, hrm, hne'⟩ := i2.putMerge (C := C) hc.maxPos hi2 hm e3 e2
              (hX2.live hm e3) e5 hhigh hrem2.info hmr hrem2.pend hrem2.own hrem2.nX hd2
            refine ⟨⟨e3, by rw [hi2]; simp⟩, _, rfl, i3, ⟨gu3, fun _ => rfl⟩, ?_⟩
            simp only [if_true]
            intro s4 r4 i4 o4
            have m4 := gu3.mono.trans r4.mono
            obtain ⟨i5, g5⟩ := i4.storeCell (C := C) (m4.cell _ _ hc2) (m4.info _ _ hi2) e5
            refine ⟨_, rfl, i5, ⟨g5, rfl⟩, ?_⟩
            split
            · apply hsmo C _ _ _ _ i5 (((hX2.guar gu3).rely r4).guar g5)
              refine ⟨F, lq, dk, (m4.trans g5.mono).info _ _ hi2,
                (hs2.mono i2.l (m4.trans g5.mono)).toClosed, hrange, hrm, ?_⟩
              intro hw
              have ho : (s2.doMerge cfg C.t q rem
                  (Chain.push (mergeDelta n dk) c (cfg.nodeDiff n))).own q = some C.t := by
                simp only [St.doMerge]
                rw [upd_ne _ _ hne', upd_same, if_pos hw]
              obtain ⟨d1, d2, _⟩ := r4.own q ho
              refine ⟨d1, ?_⟩
              change s4.mt q = _
              rw [d2]
              simp [St.doMerge]
            · trivial
      cases stk with
      | nil => exact absurd rfl hne
      | cons y ys => exact key

/-- The root is removed or the node is put back. -/
theorem removeRoot_spec (hc : CfgOK2 cfg) {rem : PID} {n : Node K V} {stk : Stk}
    (hI : Inv cfg s) (hrem : RemAt C s F low rem n) (hnd : s.est rem ≠ .deleted) :
    wp cfg C ((tryRemoveRoot n rem stk).bind fun b =>
      if b then .ret () else .store rem (.base n) (.ret ())) (fun _ _ => True) s := by
  have hback : ∀ s1, Rely C.t s s1 → Inv cfg s1 →
      wp cfg C (if false = true then .ret () else .store rem (.base n) (.ret ()))
        (fun _ _ => True) s1 := by
    intro s1 r1 i1
    simp only [Bool.false_eq_true, if_false]
    intro s2 r2 i2 o2
    have r := r1.trans r2
    have hrem2 := hrem.rely r
    have hnd2 : s2.est rem ≠ .deleted := fun e => hnd ((r.own rem hrem.own).2.2.2.2 e)
    obtain ⟨b, hb⟩ := hrem2.mt
    obtain ⟨i3, g3⟩ := i2.undo (C := C) hrem2.info hb hrem2.pend hrem2.own hrem2.nX hnd2
    exact ⟨Or.inr (Or.inl ⟨b, _, hb, hrem2.own, hrem2.pend, rfl⟩), _, rfl, i3, ⟨g3, rfl⟩, trivial⟩
  apply wp_bind
  unfold tryRemoveRoot
  split
  · exact hback s Rely.rfl hI
  · rename_i hcond
    simp only [not_or, not_not, Bool.not_eq_false] at hcond
    have hnw := hI.l.page rem _ F _ hrem.cont hrem.info
    have hF : F ≠ 0 := by
      have := hnw.wf.1
      rw [hcond.2.2] at this
      simpa using this.symm
    have hwf := hnw.wf
    simp only [hF, ne_eq, not_false_eq_true, decide_true] at hwf
    obtain ⟨q, hq1, hq2⟩ := hwf.leftmostChild hnw.ents
    change s.info q = some (s.fcf F, low) at hq2
    rw [hq1]
    apply wp_load
    intro s1 r1 i1 o1
    have hq3 := r1.mono.info _ _ hq2
    obtain ⟨cq, hcq, _⟩ := i1.p.slot q _ _ hq3
    refine ⟨cq, hcq, ?_⟩
    split
    · exact hback s1 r1 i1
    · intro s2 r2 i2 o2
      refine ⟨fun _ => ⟨s2, rfl, i2, GuarM.rfl, hback s2 (r1.trans r2) i2⟩, fun hroot => ?_⟩
      have hrem2 := (hrem.rely r1).rely r2
      obtain ⟨G, hG⟩ := i2.p.root
      rw [hroot, hrem2.info] at hG; cases hG
      obtain ⟨b, hb⟩ := hrem2.mt
      obtain ⟨i3, g3⟩ := i2.killRoot (C := C) hrem2.info hF hb hrem2.own hrem2.nX
        (r2.mono.info _ _ hq3) hc.maxPos
      exact ⟨_, rfl, i3, ⟨⟨g3, rfl⟩, upd_same _ _ _⟩, trivial⟩

/-- `TryMerge`. -/
theorem tryMerge_spec {smo : Chain K V → Stk → Prog K V Unit} (hsmo : SmoSpec cfg smo)
    (hc : CfgOK2 cfg) (f : Nat) {head : Chain K V} {k : K} {rest : Stk} (hI : Inv cfg s)
    (hX : XOK C s) (hi : s.info p = some (F, low)) (hrm : head.isRemoved = false)
    (hs : StkOK C.reg s F k true (p :: rest)) (hk : HighOK head.high k true)
    (hfro : head.needWait cfg = true → s.own p = some C.t) (hsz : head.size ≤ cfg.page)
    (hmin : head.size ≤ cfg.minSize) :
    wp cfg C (tryMerge cfg smo f head (consNode (decide (F ≠ 0)) head head.size) (p :: rest))
      (fun _ _ => True) s := by
  apply wp_cas
  intro s1 r1 i1 o1
  have hX1 := hX.rely r1
  refine ⟨trivial, fun hm => ?_⟩
  have hi1 := r1.mono.info _ _ hi
  have hs1 := hs.mono hI.l r1.mono
  have hnX := hX1.live hm hrm
  have hown : s1.own p = none ∨ s1.own p = some C.t := by
    cases hw : head.needWait cfg with
    | true => exact Or.inr (r1.own p (hfro hw)).1
    | false => exact Or.inl (i1.own_none (by rw [hi1]; simp) hm hrm hw)
  obtain ⟨hcont, hpw⟩ := i1.live hi1 hm hrm
  obtain ⟨w1, w2, w3, _⟩ := hpw.consolidate hsz
  obtain ⟨i2, g2⟩ := i1.doRemove (C := C) hi1 hm hrm hown hnX w1 w2 w3 hmin
    ⟨by rw [hpw.isLeaf]; simp [consNode], rfl, rfl, rfl, rfl⟩
  have hbool : (!(consNode (decide (F ≠ 0)) head head.size).inner) = decide (F = 0) := by
    simp [consNode]
  refine ⟨⟨hrm, by rw [hi1]; simp⟩, _, ?_, i2, ⟨g2, fun _ => rfl⟩, ?_⟩
  · rw [hbool]; rfl
  simp only [if_true]
  generalize hn : consNode (decide (F ≠ 0)) head head.size = n at *
  have hrem : RemAt C (s1.doRemove C.t p (decide (F = 0)) n) F low p n :=
    ⟨hi1, by simp [St.doRemove], by simp [St.doRemove], ⟨_, by simp [St.doRemove]; rfl⟩, hnX⟩
  have hnd : (s1.doRemove C.t p (decide (F = 0)) n).est p ≠ .deleted := by
    intro e
    change s1.est p = _ at e
    obtain ⟨_, b, hb⟩ := i1.p.del p e
    rw [hm] at hb; cases hb; cases hrm
  have hX2 := hX1.guar g2
  have hs2 := hs1.mono i1.l g2.mono
  have hlow : n.low = low := w1.wf.2.1
  generalize hs2' : s1.doRemove C.t p (decide (F = 0)) n = s2 at *
  apply wp_bind
  unfold tryDeleteIndexEntry
  by_cases hr : rest = []
  · simp only [hr, if_true]
    rw [wp_ret]
    simp only
    exact removeRoot_spec hc i2 hrem hnd
  · simp only [hr, if_false]
    rw [hlow]
    cases hl : low with
    | none =>
      simp only
      rw [wp_ret]
      exact removeRoot_spec hc i2 hrem hnd
    | some dk =>
      subst hl
      simp only
      intro s3 r3 i3 o3
      have hrem3 := hrem.rely r3
      have hnd3 : s3.est p ≠ .deleted := fun e => hnd ((r3.own p hrem.own).2.2.2.2 e)
      obtain ⟨i4, g4⟩ := i3.newCell (C := C) F dk
      refine ⟨_, rfl, i4, ⟨g4, rfl⟩, ?_⟩
      have hs4 := (hs2.mono i2.l r3.mono).mono i3.l g4.mono
      rcases hs4.par with e | ⟨_, G, q1, q2, q3⟩
      · exact absurd e hr
      have hdn : Down s3.fcf G F := by
        change s3.fcf G = F at q2
        rw [← q2]; exact .step (by omega) (.refl _)
      have hrem4 : RemAt C { s3 with ncell := s3.ncell + 1, cells := upd s3.cells s3.ncell 0,
                                     cellInfo := upd s3.cellInfo s3.ncell (some (F, dk)) } F
          (some dk) p n := ⟨hrem3.info, hrem3.own, hrem3.pend, hrem3.mt, hrem3.nX⟩
      have hlow4 : StkOK C.reg _ G dk true rest := q3.toLow i4.l hdn hrem4.cont hrem4.info (by
        rw [w3]; exact hk)
      apply deleteLoop_spec hsmo hc q1 f i4 ((hX2.rely r3).guar g4) hrem4 hnd3 (by simp) hr q2 hlow4
      · intro s5 i5 m5 x5 rem5 nd5
        simp only
        exact removeRoot_spec hc i5 rem5 nd5
      · intro s5 i5 m5 x5 rem5 d5
        simp only
        have hGlt := q3.adj.head_lt i4.l hr
        have hG5 : s5.fcf G = F := by rw [m5.fcf G hGlt]; exact q2
        refine mergeLoop_spec hsmo hc f true i5 x5 rem5 d5 (m5.cell _ _ (by simp))
          (fun _ => Or.inr ⟨hr, G, q1, hG5, ?_⟩) (fun e => by cases e)
        exact (hlow4.mono i4.l m5).toOpen i5.l (by rw [← hG5]; exact .step (by omega) (.refl _)) rem5.cont rem5.info d5

/-! ## `TrySMOs` -/

theorem toSh_same {s : St K V} {c : Chain K V} (h : s.mt p = some c) :
    s.toSh = { s.toSh with mt := upd s.mt p (some c) } := by
  have : upd s.mt p (some c) = s.mt := by
    funext q
    by_cases e : q = p
    · subst e; rw [upd_same]; exact h.symm
    · rw [upd_ne _ _ e]
  rw [this]

theorem trySMOs_spec (hc : CfgOK2 cfg) : ∀ (f : Nat),
    SmoSpec cfg (trySMOs (K := K) (V := V) cfg f) := by
  intro f
  induction f with
  | zero => intro C head p rest s _ _ _; trivial
  | succ f ih =>
    intro C head p rest s hI hX hp
    apply wp_cas
    intro s1 r1 i1 o1
    refine ⟨trivial, fun hm => ?_⟩
    have hX1 := hX.rely r1
    obtain ⟨F, low, k, h1, h2, h3, h4, h5⟩ := hp.rely hI r1
    refine ⟨⟨h4, by rw [h1]; simp⟩, s1, toSh_same hm, i1, ⟨Guar.rfl, fun _ => rfl⟩, ?_⟩
    simp only [if_true]
    obtain ⟨hcont, hpw⟩ := i1.live h1 hm h4
    have hnX := hX1.live hm h4
    obtain ⟨_, t2, t3, t4⟩ := tryConsolidate_spec hc.toCfgOK hpw.wf false
    by_cases hsz : head.size ≤ cfg.page
    · by_cases hmin : head.size ≤ cfg.minSize
      · rw [t2 rfl hsz hmin]
        exact tryMerge_spec ih hc f i1 hX1 h1 h4 h2 h3.2 (fun e => (h5 e).1) hsz hmin
      · rw [t3 rfl hsz hmin]
        apply wp_cas
        intro s2 r2 i2 o2
        refine ⟨trivial, fun hm2 => ?_⟩
        have hi2 := r2.mono.info _ _ h1
        have hown : s2.own p = none ∨ s2.own p = some C.t := by
          cases hw : head.needWait cfg with
          | true => exact Or.inr (r2.own p (h5 hw).1).1
          | false => exact Or.inl (i2.own_none (by rw [hi2]; simp) hm2 h4 hw)
        obtain ⟨i3, g3⟩ := i2.putCons (C := C) hi2 hm2 h4 hsz hown hnX
        exact ⟨⟨h4, by rw [hi2]; simp⟩, _, rfl, i3, ⟨g3, fun _ => rfl⟩, trivial⟩
    · obtain ⟨lr, x, rr, a1, a2, a3, a4, a5⟩ := t4 rfl hsz
      rw [a5]
      simp only
      have hw : head.needWait cfg = true := by
        cases hd : head.isDelta with
        | false => exact absurd (hpw.base_le hd) hsz
        | true =>
          unfold Chain.needWait
          rw [hd, decide_eq_true (p := (cfg.page : Int) < head.size) (by omega)]
          simp
      exact split_spec ih hc f i1 hX1 h1 hm h4 (h5 hw).1 h2 h3.2 hw a5 (fun _ => rfl) rfl a1 a2 a3 a4

end BwTree
