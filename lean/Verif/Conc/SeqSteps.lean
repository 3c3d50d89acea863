import Verif.Conc.SeqInv

/-!
# The steps of a thread that runs alone (helper lemmas)
-/

namespace BwTree

set_option linter.unusedSectionVars false

variable {K V : Type} [LinearOrder K] {cfg : Cfg K} {E E' D D' : PID → Prop}
  {W W' : Nat → Prop} {fl fl' : Nat → Option PID} {F G : Nat} {low : Option K}
  {p q r rp lp : PID} {s s' : St K V} {t : Nat}

/-- The context of a thread that runs alone. -/
def solo (t : Nat) : Ctx := { t := t, X := fun _ => False, pure := false, reg := .free }

theorem mem_ains_self {α : Type} {k : K} {v : α} {l : List (K × α)} (hs : SortedK l) :
    (k, v) ∈ ains k v l := alook_mem (by rw [alook_ains hs, if_pos rfl])

theorem mem_ains_ne {α : Type} {k : K} {v : α} {l : List (K × α)} (hs : SortedK l) {x : K × α}
    (hx : x ∈ l) (hne : x.1 ≠ k) : x ∈ ains k v l := by
  obtain ⟨a, b⟩ := x
  apply alook_mem
  rw [alook_ains hs, if_neg (Ne.symm hne)]
  exact alook_of_mem hs hx

/-! ## Contents after a step -/

theorem St.put_lv {x : Nat × Option K} {c' : Chain K V} {est' : PID → Est} {m' : K → Option V}
    {ops' : Nat → Spec.OpSt K V} (hi : s.info p = some x) (hr' : c'.isRemoved = false) :
    (s.put cfg t p c' est' m' ops').lv =
      { s.lv with cont := upd s.lv.cont p (some c'), est := est', m := m' } := by
  have : (s.put cfg t p c' est' m' ops').cont = upd s.cont p (some c') := by
    funext q
    by_cases e : q = p
    · subst e
      rw [upd_same]
      exact St.cont_live (s := s.put cfg t q c' est' m' ops') hi (by simp [St.put]) hr'
    · rw [upd_ne _ _ e]
      simp only [St.cont, St.put, upd_ne _ _ e]
  unfold St.lv
  rw [this]; rfl

theorem St.stage_lv {c : Chain K V} (hi : s.info r = none) :
    St.lv { s with mt := upd s.mt r (some c) } = s.lv := by
  have : St.cont { s with mt := upd s.mt r (some c) } = s.cont := by
    funext q
    by_cases e : q = r
    · subst e; simp only [St.cont, hi]
    · simp only [St.cont, upd_ne _ _ e]
  unfold St.lv; rw [this]

theorem St.doSplit_lv {nl nr : Node K V} {sep : K} {x : Nat × Option K}
    (hi : s.info p = some x) (hir : s.info r = none) (hmr : s.mt r = some (.base nr)) :
    (s.doSplit t F sep p r (.base nl)).lv =
      { s.lv with info := upd s.lv.info r (some (F, some sep)),
                  cont := upd (upd s.lv.cont p (some (.base nl))) r (some (.base nr)),
                  est := upd s.lv.est r (.unposted t) } := by
  have hpr : p ≠ r := by rintro rfl; rw [hi] at hir; cases hir
  have : (s.doSplit t F sep p r (.base nl)).cont =
      upd (upd s.cont p (some (.base nl))) r (some (.base nr)) := by
    funext q
    by_cases e : q = r
    · subst e
      simp only [upd_same, St.cont, St.doSplit, upd_ne _ _ (Ne.symm hpr), hmr]
    · by_cases e' : q = p
      · subst e'
        simp only [upd_same, St.cont, St.doSplit, upd_ne _ _ e, hi]
      · simp only [St.cont, St.doSplit, upd_ne _ _ e, upd_ne _ _ e']
  unfold St.lv; rw [this]; rfl

theorem St.doRemove_lv {b : Bool} {n : Node K V} {x : Nat × Option K} (hi : s.info p = some x) :
    (s.doRemove t p b n).lv = { s.lv with cont := upd s.lv.cont p (some (.base n)), est := s.est, m := s.m } := by
  have : (s.doRemove t p b n).cont = upd s.cont p (some (.base n)) := by
    funext q
    by_cases e : q = p
    · subst e
      simp only [upd_same, St.cont, St.doRemove, hi, Option.map]
    · simp only [St.cont, St.doRemove, upd_ne _ _ e]
  unfold St.lv; rw [this]; rfl

theorem St.undo_lv {b : Bool} {n : Node K V} {x : Nat × Option K} (hi : s.info p = some x)
    (hm : s.mt p = some (.removed b)) (hp : s.pend p = some n) : (s.undo p n).lv = s.lv := by
  have : (s.undo p n).cont = s.cont := by
    funext q
    by_cases e : q = p
    · subst e
      simp only [upd_same, St.cont, St.undo, hi, hm, hp, Option.map]
    · simp only [St.cont, St.undo, upd_ne _ _ e]
  unfold St.lv; rw [this]; rfl

theorem St.doMerge_lv {c' : Chain K V} {b : Bool} {x y : Nat × Option K} (hi : s.info p = some x)
    (hiq : s.info q = some y) (hmq : s.mt q = some (.removed b)) (hne : p ≠ q)
    (hr' : c'.isRemoved = false) :
    (s.doMerge cfg t p q c').lv = { s.lv with cont := upd (upd s.lv.cont p (some c')) q none } := by
  have : (s.doMerge cfg t p q c').cont = upd (upd s.cont p (some c')) q none := by
    funext x
    by_cases e : x = q
    · subst e
      simp only [upd_same, St.cont, St.doMerge, hiq, upd_ne _ _ (Ne.symm hne), hmq, Option.map]
    · by_cases e' : x = p
      · subst e'
        rw [upd_ne _ _ e, upd_same]
        exact St.cont_live (s := s.doMerge cfg t x q c') hi (by simp [St.doMerge]) hr'
      · simp only [St.cont, St.doMerge, upd_ne _ _ e, upd_ne _ _ e']
  unfold St.lv; rw [this]; rfl

theorem St.killRoot_lv {b : Bool} {x : Nat × Option K} (hi : s.info p = some x)
    (hm : s.mt p = some (.removed b)) :
    (s.killRoot p q).lv = { s.lv with cont := upd s.lv.cont p none } := by
  have : (s.killRoot p q).cont = upd s.cont p none := by
    funext x
    by_cases e : x = p
    · subst e
      simp only [upd_same, St.cont, St.killRoot, hi, hm, Option.map]
    · simp only [St.cont, St.killRoot, upd_ne _ _ e]
  unfold St.lv; rw [this]; rfl

theorem St.pubRoot_lv {np : PID} {n : Node K V} :
    (s.pubRoot F np rp (.base n)).lv =
      { s.lv with info := upd s.lv.info np (some (s.lv.nfam, none)), nfam := s.lv.nfam + 1,
                  fcf := upd s.lv.fcf s.lv.nfam F,
                  est := upd s.lv.est rp (.posted s.lv.nfam),
                  cont := upd s.lv.cont np (some (.base n)) } := by
  have : (s.pubRoot F np rp (.base n)).cont = upd s.cont np (some (.base n)) := by
    funext x
    by_cases e : x = np
    · subst e
      simp only [upd_same, St.cont, St.pubRoot]
    · simp only [St.cont, St.pubRoot, upd_ne _ _ e]
  unfold St.lv; rw [this]; rfl

/-! ## Steps -/

theorem SI.newPid (h : SI cfg E D W fl s) (t F : Nat) :
    let s' := { s with npid := s.npid + 1, own := upd s.own s.npid (some t) }
    SI cfg E D W fl s' ∧ Frame F s s' := by
  intro s'
  obtain ⟨i, g⟩ := h.inv.newPid (C := solo t)
  have g := g (fun e => e)
  refine ⟨⟨i, h.x, h.pend, h.cell⟩, ?_⟩
  apply Frame.mk1 g.mono (fun q => q = s.npid)
  · rintro q rfl G low hi
    rw [(h.inv.p.fresh _ (Or.inl (Nat.le_refl _))).2.1] at hi; cases hi
  · intro q hq
    exact ⟨rfl, upd_ne _ _ hq, rfl, rfl⟩

theorem SI.stage (h : SI cfg E D W fl s) (F : Nat) (ho : s.own r = some t) (hi : s.info r = none)
    {n : Node K V} (hn : NodeWF cfg n) (hsz : n.size ≤ cfg.page) :
    let s' := { s with mt := upd s.mt r (some (.base n)) }
    SI cfg E D W fl s' ∧ Frame F s s' := by
  intro s'
  obtain ⟨i, g⟩ := h.inv.stage (C := solo t) (c := .base n) ho hi (fun e => e) rfl hn hsz
  refine ⟨⟨i, ?_, h.pend, h.cell⟩, ?_⟩
  · show SX E fl s'.lv s.root
    rw [St.stage_lv hi]; exact h.x
  · apply Frame.mk1 g.mono (fun q => q = r)
    · rintro q rfl G low hi'
      rw [hi] at hi'; cases hi'
    · intro q hq
      exact ⟨upd_ne _ _ hq, rfl, rfl, rfl⟩

theorem SI.doSplit (h : SI cfg E D W fl s) {c : Chain K V} {nl nr : Node K V} {sep : K}
    (hi : s.info p = some (F, low)) (hm : s.mt p = some c) (hrm : c.isRemoved = false)
    (hop : s.own p = some t) (hor : s.own r = some t) (hir : s.info r = none)
    (hmr : s.mt r = some (.base nr))
    (hwl : PageWF cfg { s.lv with info := upd s.info r (some (F, some sep)) } F low (.base nl))
    (hwr : PageWF cfg { s.lv with info := upd s.info r (some (F, some sep)) } F (some sep)
      (.base nr))
    (hhl : nl.high = some sep) (hhr : nr.high = c.high)
    (hnl : nl.next = r) (hnr : nr.next = c.nextPid)
    (hpl : (Chain.base nl).pre = c.pre) (hpr : (Chain.base nr).pre = [])
    (hb : (Chain.base nl).flatBody ++ (Chain.base nr).flatBody = c.flatBody)
    (hs1 : LowOK low sep false) (hs2 : HighOK c.high sep true) :
    let s' := s.doSplit t F sep p r (.base nl)
    SI cfg (fun q => E q ∨ q = r) D W fl s' ∧ Frame F s s' := by
  intro s'
  obtain ⟨i, g⟩ := h.inv.doSplit (C := solo t) hi hm hrm hop (fun e => e) hor hir hmr (fun e => e)
    hwl hwr hhl hhr hnl hnr hb hs1 hs2
  have hpr' : p ≠ r := by rintro rfl; rw [hi] at hir; cases hir
  refine ⟨⟨i, ?_, h.pend, h.cell⟩, ?_⟩
  · show SX _ fl s'.lv s.root
    rw [St.doSplit_lv hi hir hmr]
    exact h.x.split h.inv.l (St.cont_live hi hm hrm) hi hir trivial trivial hpl hpr hb
  · apply Frame.mk1 g.mono (fun q => q = p ∨ q = r)
    · rintro q (rfl | rfl) G low hi'
      · rw [hi] at hi'; cases hi'; exact Nat.le_refl _
      · rw [hir] at hi'; cases hi'
    · intro q hq
      simp only [not_or] at hq
      refine ⟨upd_ne _ _ hq.1, ?_, rfl, upd_ne _ _ hq.2⟩
      show upd (upd s.own p none) r none q = _
      rw [upd_ne _ _ hq.2, upd_ne _ _ hq.1]

theorem SI.putEntry (hc : CfgOK2 cfg) (h : SI cfg (fun q => E q ∨ q = rp) D W fl s)
    (hE : Below s F E) {c cr : Chain K V} {sep : K} (hG : 0 < G) (hGF : s.fcf G = F)
    (hi : s.info p = some (G, low)) (hm : s.mt p = some c) (hr : c.isRemoved = false)
    (hw : c.needWait cfg = false) (hrange : InR low c.high sep)
    (hrp : s.info rp = some (F, some sep)) (he : s.est rp = .unposted t)
    (hcr : s.cont rp = some cr) :
    let nc := Chain.push (entryDelta sep cr.high rp) c (cfg.entLen true sep)
    let s' := s.put cfg t p nc (upd s.est rp (.posted G)) s.m s.ops
    SI cfg E D W fl s' ∧ Frame F s s' ∧ nc.high = c.high ∧ nc.isRemoved = false := by
  intro nc s'
  obtain ⟨i, g, h1, h2⟩ := h.inv.putEntry (C := solo t) (high := cr.high) hc hG hGF hi hm hr hw
    (fun e => e) hrange hrp he
  have hcont := St.cont_live hi hm hr
  have hGlt := h.inv.l.fam _ _ _ hi
  have hFG : F < G := by
    have := h.inv.l.fcf G hG hGlt
    change s.fcf G < G at this
    omega
  have hpw := h.inv.l.page _ _ _ _ hcont hi
  have hsort := hpw.wf.flatBody_spec.1
  refine ⟨⟨i, ?_, h.pend, h.cell⟩, ?_, h1, h2⟩
  · show SX E fl s'.lv s.root
    rw [St.put_lv hi h2]
    refine h.x.replace hcont hi (fun _ _ e => e) ?_ rfl ?_ ?_
    · intro hG0
      refine ⟨h.x.exact p c G low hcont hi hG0, fun _ => ?_, ?_⟩
      · have := h.x.entry h.inv.l hcont hi hG0 hcr (d := sep)
          (by change s.info rp = some (s.fcf G, some sep); rw [hGF]; exact hrp) (by
            rintro x (hx | hx)
            · right
              intro l hl
              obtain ⟨G', l', e1, e2⟩ := hE x hx
              change s.info x = some (s.fcf G, l) at hl
              rw [e1] at hl; cases hl
              omega
            · exact Or.inl hx) hrange
        exact this
      · intro w hw'
        cases hw'
    · intro k q hq hk
      show _ ∈ ains sep (Pay.child rp) c.flatBody
      apply mem_ains_ne hsort hk
      rintro rfl
      have e3 := h.inv.l.ent_info hcont hi hk
      obtain ⟨e1, cq, e2⟩ := h.inv.l.ents p c G low _ q hcont hi hk
      change s.info q = some (s.fcf G, some _) at e3
      rw [hGF] at e3
      have := h.inv.l.uniq_low e2 hcr e3 hrp
      subst this
      change s.est q = _ at e1
      rw [he] at e1; cases e1
    · intro q Fq k hq hq' hiq
      rcases hq with hq | rfl
      · exact absurd hq hq'
      · change s.info q = _ at hiq
        rw [hrp] at hiq; cases hiq
        exact ⟨by omega, hGF, mem_ains_self hsort⟩
  · apply Frame.mk1 g.mono (fun q => q = p ∨ q = rp)
    · rintro q (rfl | rfl) G' low' hi'
      · rw [hi] at hi'; cases hi'; exact Nat.le_of_lt hFG
      · rw [hrp] at hi'; cases hi'; exact Nat.le_refl _
    · intro q hq
      simp only [not_or] at hq
      exact ⟨upd_ne _ _ hq.1, upd_ne _ _ hq.1, rfl, upd_ne _ _ hq.2⟩

theorem SI.putDelEntry (hpos : 0 < cfg.maxDelta) (h : SI cfg E (fun q => D q ∨ q = r) W fl s)
    (hE : Below s F E) {c : Chain K V} {n : Node K V} {dk : K} {w : Nat}
    (hG : 0 < G) (hGF : s.fcf G = F)
    (hi : s.info p = some (G, low)) (hm : s.mt p = some c) (hr : c.isRemoved = false)
    (hw : c.needWait cfg = false) (hin : KeyIn low c dk)
    (hrem : RemAt (solo t) s F (some dk) r n)
    (hcell : s.cellInfo w = some (F, dk)) (hw1 : w < s.ncell) (hw2 : s.cells w = 0)
    (hw3 : fl w = none) :
    let nc := Chain.push (deleteDelta dk n.high w) c (-(cfg.entLen true dk : Int))
    let s' := s.put cfg t p nc (upd s.est r .deleted) s.m s.ops
    ∃ q c0 l0, (SI cfg (fun q => E q ∨ q = r) (fun q => D q ∨ q = r) (fun x => W x ∨ x = w) (upd fl w (some q)) s') ∧ Frame F s s' ∧ nc.high = c.high ∧ nc.isRemoved = false ∧
      InR low c.high dk ∧ p ≠ r ∧
      s'.cont q = some c0 ∧ s'.info q = some (F, l0) ∧ LowOK l0 dk false ∧ c0.high = some dk := by
  intro nc s'
  obtain ⟨b, hmr⟩ := hrem.mt
  obtain ⟨i, g, h1, h2, h3⟩ := h.inv.putDelEntry (C := solo t) (high := n.high) hpos hG hGF hi hm hr hw
    (fun e => e) hin hrem.info hrem.cont hmr hrem.own (fun e => e) hcell
  have hcont := St.cont_live hi hm hr
  have hGlt := h.inv.l.fam _ _ _ hi
  have hFG : F < G := by
    have := h.inv.l.fcf G hG hGlt
    change s.fcf G < G at this
    omega
  have hG0 : G ≠ 0 := by omega
  have hpr : p ≠ r := by
    rintro rfl
    rw [hm] at hmr
    rw [Option.some.inj hmr] at hr; cases hr
  have hpw := h.inv.l.page _ _ _ _ hcont hi
  have hsort := hpw.wf.flatBody_spec.1
  have hwf := hpw.wf
  simp only [hG0, ne_eq, not_false_eq_true, decide_true] at hwf
  have hex := h.x.exact p c G low hcont hi hG0
  have hfl : ∃ q, Floor c.pre c.flatBody dk false q := by
    rcases childStep_exact hwf hex dk false hin.2 (h3.2.weaken false) with ⟨q, _, e⟩ | ⟨_, q, _, _, e⟩
    · exact ⟨q, e⟩
    · exact ⟨q, e⟩
  obtain ⟨q, hq⟩ := hfl
  have hEr : ∀ x, E x → x = r ∨ ∀ l, s.lv.info x ≠ some (s.lv.fcf G, l) := by
    intro x hx
    right
    intro l hl
    obtain ⟨G', l', e1, e2⟩ := hE x hx
    change s.info x = some (s.fcf G, l) at hl
    rw [e1] at hl; cases hl
    omega
  have hir : s.lv.info r = some (s.lv.fcf G, some dk) := by
    change s.info r = some (s.fcf G, some dk); rw [hGF]; exact hrem.info
  obtain ⟨c0, l0, q1, q2, q3, q4⟩ := h.x.left h.inv.l hcont hi hG0 hrem.cont hir hEr h3 hq
  change s.cont q = some c0 at q1
  change s.info q = some (s.fcf G, l0) at q2
  rw [hGF] at q2
  have hpq : q ≠ p := by
    rintro rfl
    rw [hi] at q2; cases q2
    exact Nat.lt_irrefl _ hFG
  have hmono : ∀ x y, fl x = some y → upd fl w (some q) x = some y := by
    intro x y e
    rw [upd_ne]
    · exact e
    · rintro rfl; rw [hw3] at e; cases e
  refine ⟨q, c0, l0, ⟨i, ?_, h.pend, ?_⟩, ?_, h1, h2, h3, hpr, ?_, q2, q3, q4⟩
  · show SX _ _ s'.lv s.root
    rw [St.put_lv hi h2]
    refine h.x.replace hcont hi hmono ?_ rfl ?_ ?_
    · intro _
      refine ⟨hex.mono hmono, fun _ => ?_, ?_⟩
      · have := h.x.entry h.inv.l hcont hi hG0 hrem.cont hir hEr h3
        exact this
      · intro w' hw'
        change DPay.cell w = DPay.cell w' at hw'
        cases hw'
        exact ⟨q, by rw [upd_same], hq⟩
    · intro k x hx hk
      show _ ∈ adel dk c.flatBody
      refine mem_adel.2 ⟨hk, ?_⟩
      intro e
      change k = dk at e
      subst e
      have e3 := h.inv.l.ent_info hcont hi hk
      obtain ⟨_, cq, e2⟩ := h.inv.l.ents p c G low _ x hcont hi hk
      exact hx (Or.inr (h.inv.l.uniq_low e2 hrem.cont e3 hir))
    · intro x Fq k hx hx' _
      exact absurd (Or.inl hx) hx'
  · intro w' q' e
    by_cases ew : w' = w
    · subst ew
      rw [upd_same] at e; cases e
      exact ⟨hw1, Or.inr ⟨hw2, Or.inr rfl⟩⟩
    · rw [upd_ne _ _ ew] at e
      obtain ⟨a1, a2⟩ := h.cell w' q' e
      exact ⟨a1, a2.imp_right fun a => ⟨a.1, Or.inl a.2⟩⟩
  · apply Frame.mk1 g.mono (fun q => q = p ∨ q = r)
    · rintro q (rfl | rfl) G' low' hi'
      · rw [hi] at hi'; cases hi'; exact Nat.le_of_lt hFG
      · rw [hrem.info] at hi'; cases hi'; exact Nat.le_refl _
    · intro q hq
      simp only [not_or] at hq
      exact ⟨upd_ne _ _ hq.1, upd_ne _ _ hq.1, rfl, upd_ne _ _ hq.2⟩
  · show s'.lv.cont q = _
    rw [St.put_lv hi h2]
    show upd s.cont p _ q = _
    rw [upd_ne _ _ hpq]; exact q1

theorem SI.putCons (h : SI cfg E D W fl s) {c : Chain K V} (hi : s.info p = some (F, low))
    (hm : s.mt p = some c) (hr : c.isRemoved = false) (hs : c.size ≤ cfg.page)
    (ho : s.own p = none ∨ s.own p = some t) :
    let s' := s.put cfg t p (.base (consNode (decide (F ≠ 0)) c c.size)) s.est s.m s.ops
    SI cfg E D W fl s' ∧ Frame F s s' := by
  intro s'
  obtain ⟨i, g⟩ := h.inv.putCons (C := solo t) hi hm hr hs ho (fun e => e)
  have hcont := St.cont_live hi hm hr
  have hpw := h.inv.l.page _ _ _ _ hcont hi
  obtain ⟨_, w2, w3, _, _⟩ := consNode_wf hpw.wf
  refine ⟨⟨i, ?_, h.pend, h.cell⟩, ?_⟩
  · show SX E fl s'.lv s.root
    rw [St.put_lv hi rfl]
    exact h.x.replace hcont hi (fun _ _ e => e) (fun _ => trivial) w2
      (fun k q _ hk => by rw [w3]; exact hk) (fun q _ _ h1 h2 => absurd h1 h2)
  · apply Frame.mk1 g.mono (fun q => q = p)
    · rintro q rfl G' low' hi'
      rw [hi] at hi'; cases hi'; exact Nat.le_refl _
    · intro q hq
      exact ⟨upd_ne _ _ hq, upd_ne _ _ hq, rfl, rfl⟩

theorem SI.doRemove (h : SI cfg E D W fl s) {c : Chain K V} (hi : s.info p = some (F, low))
    (hm : s.mt p = some c) (hr : c.isRemoved = false) (hs : c.size ≤ cfg.page)
    (ho : s.own p = none ∨ s.own p = some t) (hmin : c.size ≤ cfg.minSize) :
    let n := consNode (decide (F ≠ 0)) c c.size
    let s' := s.doRemove t p (decide (F = 0)) n
    SI cfg E (fun q => D q ∨ q = p) W fl s' ∧ Frame F s s' ∧ RemAt (solo t) s' F low p n ∧
      s'.est p ≠ .deleted ∧ n.low = low ∧ n.high = c.high := by
  intro n s'
  have hcont := St.cont_live hi hm hr
  have hpw := h.inv.l.page _ _ _ _ hcont hi
  obtain ⟨w1, w2, w3, w4⟩ := hpw.consolidate hs
  obtain ⟨_, v2, v3, _, _⟩ := consNode_wf hpw.wf
  obtain ⟨i, g⟩ := h.inv.doRemove (C := solo t) hi hm hr ho (fun e => e) w1 w2 w3 hmin
    ⟨by rw [hpw.isLeaf]; simp [consNode], rfl, rfl, rfl, rfl⟩
  refine ⟨⟨i, ?_, ?_, h.cell⟩, ?_, ⟨hi, by simp [s', St.doRemove, solo], by simp [s', St.doRemove],
    ⟨decide (F = 0), by simp [s', St.doRemove]⟩, fun e => e⟩, ?_, w1.wf.2.1, w3⟩
  · show SX E fl s'.lv s.root
    rw [St.doRemove_lv hi]
    exact h.x.replace hcont hi (fun _ _ e => e) (fun _ => trivial) v2
      (fun k q _ hk => by rw [v3]; exact hk) (fun q _ _ h1 h2 => absurd h1 h2)
  · intro q n' hq
    by_cases e : q = p
    · exact Or.inr e
    · left
      apply h.pend q n'
      have : upd s.pend p (some n) q = some n' := hq
      rwa [upd_ne _ _ e] at this
  · apply Frame.mk1 g.mono (fun q => q = p)
    · rintro q rfl G' low' hi'
      rw [hi] at hi'; cases hi'; exact Nat.le_refl _
    · intro q hq
      exact ⟨upd_ne _ _ hq, upd_ne _ _ hq, upd_ne _ _ hq, rfl⟩
  · intro e
    change s.est p = _ at e
    obtain ⟨_, b, hb⟩ := h.inv.p.del p e
    rw [hm] at hb; cases hb; cases hr

theorem SI.newCell (h : SI cfg E D W fl s) (F : Nat) (k : K) (G : Nat) :
    let s' := { s with ncell := s.ncell + 1, cells := upd s.cells s.ncell 0,
                       cellInfo := upd s.cellInfo s.ncell (some (F, k)) }
    SI cfg E D W fl s' ∧ Frame G s s' ∧ fl s.ncell = none := by
  intro s'
  obtain ⟨i, g⟩ := h.inv.newCell (C := solo 0) F k
  have hn : fl s.ncell = none := by
    cases e : fl s.ncell with
    | none => rfl
    | some q => exact absurd (h.cell _ _ e).1 (Nat.lt_irrefl _)
  refine ⟨⟨i, ⟨h.x.exact, h.x.post, h.x.pre, h.x.chain, h.x.rootc⟩, h.pend, ?_⟩,
    ⟨g.mono, fun _ _ _ _ _ => ⟨rfl, rfl, rfl, rfl⟩⟩, hn⟩
  intro w q e
  have hw : w ≠ s.ncell := by rintro rfl; rw [hn] at e; cases e
  obtain ⟨a1, a2⟩ := h.cell w q e
  refine ⟨Nat.lt_succ_of_lt a1, ?_⟩
  show upd s.cells s.ncell 0 w = q ∨ (upd s.cells s.ncell 0 w = 0 ∧ W w)
  rw [upd_ne _ _ hw]; exact a2

theorem SI.storeCell {w : Nat} {k : K} (h : SI cfg E D (fun x => W x ∨ x = w) fl s)
    (hw : s.cellInfo w = some (F, k)) (hi : s.info p = some (F, low)) (hl : LowOK low k false)
    (hf : fl w = some p) (G : Nat) :
    let s' := { s with cells := upd s.cells w p }
    SI cfg E D W fl s' ∧ Frame G s s' := by
  intro s'
  obtain ⟨i, g⟩ := h.inv.storeCell (C := solo 0) hw hi hl
  refine ⟨⟨i, ⟨h.x.exact, h.x.post, h.x.pre, h.x.chain, h.x.rootc⟩, h.pend, ?_⟩,
    ⟨g.mono, fun _ _ _ _ _ => ⟨rfl, rfl, rfl, rfl⟩⟩⟩
  intro w' q e
  obtain ⟨a1, a2⟩ := h.cell w' q e
  refine ⟨a1, ?_⟩
  show upd s.cells w p w' = q ∨ (upd s.cells w p w' = 0 ∧ W w')
  by_cases ew : w' = w
  · subst ew
    rw [hf] at e; cases e
    left; rw [upd_same]
  · rw [upd_ne _ _ ew]
    exact a2.imp_right fun a => ⟨a.1, a.2.resolve_right ew⟩

theorem SI.undo {n : Node K V} (h : SI cfg E (fun q => D q ∨ q = r) W fl s)
    (hrem : RemAt (solo t) s F low r n) (hd : s.est r ≠ .deleted) :
    SI cfg E D W fl (s.undo r n) ∧ Frame F s (s.undo r n) := by
  obtain ⟨b, hb⟩ := hrem.mt
  obtain ⟨i, g⟩ := h.inv.undo (C := solo t) hrem.info hb hrem.pend hrem.own hrem.nX hd
  refine ⟨⟨i, ?_, ?_, h.cell⟩, ?_⟩
  · show SX E fl (s.undo r n).lv s.root
    rw [St.undo_lv hrem.info hb hrem.pend]; exact h.x
  · intro q n' hq
    have hq : upd s.pend r none q = some n' := hq
    by_cases e : q = r
    · subst e; rw [upd_same] at hq; cases hq
    · rw [upd_ne _ _ e] at hq
      exact (h.pend q n' hq).resolve_right e
  · apply Frame.mk1 g.mono (fun q => q = r)
    · rintro q rfl G' low' hi'
      rw [hrem.info] at hi'; cases hi'; exact Nat.le_refl _
    · intro q hq
      exact ⟨upd_ne _ _ hq, upd_ne _ _ hq, upd_ne _ _ hq, rfl⟩

theorem SI.merge (hpos : 0 < cfg.maxDelta) {n : Node K V} {c : Chain K V} {dk : K}
    (h : SI cfg (fun q => E q ∨ q = r) (fun q => D q ∨ q = r) W fl s)
    (hi : s.info p = some (F, low)) (hm : s.mt p = some c) (hr : c.isRemoved = false)
    (hw : c.needWait cfg = false) (hl : LowOK low dk false) (hh : HighOK c.high dk false)
    (hrem : RemAt (solo t) s F (some dk) r n) (hd : s.est r = .deleted) :
    let nc := Chain.push (mergeDelta n dk) c (cfg.nodeDiff n)
    let s' := s.doMerge cfg t p r nc
    SI cfg E D W fl s' ∧ Frame F s s' ∧ InR low nc.high dk ∧ nc.isRemoved = false ∧ p ≠ r := by
  intro nc s'
  obtain ⟨b, hb⟩ := hrem.mt
  obtain ⟨i, g, h1, h2, h3⟩ := h.inv.putMerge (C := solo t) hpos hi hm hr hw (fun e => e) hl hh
    hrem.info hb hrem.pend hrem.own hrem.nX hd
  have hcont := St.cont_live hi hm hr
  have hlv := St.doMerge_lv (cfg := cfg) (t := t) hi hrem.info hb h3 h2
  refine ⟨⟨i, ?_, ?_, h.cell⟩, ?_, h1, h2, h3⟩
  · show SX E fl s'.lv s.root
    refine hlv ▸ h.x.merge hcont hi hrem.cont hrem.info h3 rfl ?_ ?_ ?_ ?_ (fun x hx => hx)
    · intro P cP y hP hy
      obtain ⟨G', lP, hiP⟩ := h.inv.l.known P cP hP
      have hwP := h.inv.l.page _ _ _ _ hP hiP
      have := (hwP.ents.flat hwP.wf).1 _ hy r rfl
      change s.info r = _ at this
      rw [hrem.info] at this; cases this
    · intro e
      obtain ⟨F0, hF0⟩ := h.inv.p.root
      rw [e, hrem.info] at hF0; cases hF0
    · intro hF
      refine ⟨h.x.exact p c F low hcont hi hF, ?_, ?_⟩
      · rintro (e | e) <;> cases e
      · intro w e; cases e
    · have hnw := h.inv.l.page r _ F _ hrem.cont hrem.info
      have hlow : n.low = some dk := hnw.wf.2.1
      show c.flatBody ++ n.recs = c.flatBody ++ n.body
      have hli : n.leftInner = false := by simp [Node.leftInner, hlow]
      simp [Node.body, hli]
  · intro q n' hq
    have hq : upd s.pend r none q = some n' := hq
    by_cases e : q = r
    · subst e; rw [upd_same] at hq; cases hq
    · rw [upd_ne _ _ e] at hq
      exact (h.pend q n' hq).resolve_right e
  · apply Frame.mk1 g.mono (fun q => q = p ∨ q = r)
    · rintro q (rfl | rfl) G' low' hi'
      · rw [hi] at hi'; cases hi'; exact Nat.le_refl _
      · rw [hrem.info] at hi'; cases hi'; exact Nat.le_refl _
    · intro q hq
      simp only [not_or] at hq
      refine ⟨upd_ne _ _ hq.1, ?_, upd_ne _ _ hq.2, rfl⟩
      show upd (upd s.own p _) r none q = _
      rw [upd_ne _ _ hq.2, upd_ne _ _ hq.1]

theorem SI.kill (hpos : 0 < cfg.maxDelta) {n : Node K V} {y : K}
    (h : SI cfg E (fun q => D q ∨ q = s.root) W fl s) (hE : Below s F E)
    (hrem : RemAt (solo t) s F none s.root n) (hF : F ≠ 0)
    (hb : (Chain.base n).flatBody = []) (hq : (y, Pay.child q) ∈ (Chain.base n).pre) :
    SI cfg E D W fl (s.killRoot s.root q) ∧ Frame F s (s.killRoot s.root q) := by
  obtain ⟨b, hm⟩ := hrem.mt
  have hw := h.inv.l.page _ _ _ _ hrem.cont hrem.info
  have hqi : s.info q = some (s.fcf F, none) := (hw.ents.flat hw.wf).1 _ hq q rfl
  obtain ⟨i, g⟩ := h.inv.killRoot (C := solo t) hrem.info hF hm hrem.own hrem.nX hqi hpos
  refine ⟨⟨i, ?_, ?_, h.cell⟩, ?_⟩
  · show SX E fl (s.killRoot s.root q).lv q
    rw [St.killRoot_lv hrem.info hm]
    refine h.x.kill h.inv.l hrem.cont hrem.info hF hb hq ?_
    intro x l hx hi
    obtain ⟨G', l', e1, e2⟩ := hE x hx
    change s.info x = _ at hi
    rw [e1] at hi; cases hi
    exact Nat.lt_irrefl _ e2
  · intro x n' hx
    have hx : upd s.pend s.root none x = some n' := hx
    by_cases e : x = s.root
    · subst e; rw [upd_same] at hx; cases hx
    · rw [upd_ne _ _ e] at hx
      exact (h.pend x n' hx).resolve_right e
  · apply Frame.mk1 g.mono (fun q => q = s.root)
    · rintro q rfl G' low' hi'
      rw [hrem.info] at hi'; cases hi'; exact Nat.le_refl _
    · intro q hq
      exact ⟨rfl, upd_ne _ _ hq, upd_ne _ _ hq, rfl⟩

/-- A new root is installed: its page becomes visible together with the root word. -/
def St.growRoot (s : St K V) (F : Nat) (np rp : PID) (c : Chain K V) : St K V :=
  { s.pubRoot F np rp c with root := np }

theorem SI.growRoot (hc : CfgOK2 cfg) {np : PID} {sep : K}
    (h : SI cfg (fun q => E q ∨ q = rp) D W fl s)
    (hnp : s.info np = none) (hon : s.own np = some t) (hroot : s.root = lp)
    (hl : s.info lp = some (F, none))
    (hr : s.info rp = some (F, some sep)) (he : s.est rp = .unposted t)
    (hm : s.mt np = some (.base (newRoot cfg sep lp rp))) :
    let s' := s.growRoot F np rp (.base (newRoot cfg sep lp rp))
    SI cfg E D W fl s' ∧ Frame F s s' ∧ s'.toSh = { s.toSh with root := np } := by
  subst hroot
  intro s'
  obtain ⟨i, g⟩ := h.inv.pubRoot (C := solo t) hc hnp hon (fun e => e) hl hr he
  obtain ⟨i2, g2⟩ := i.setRoot (C := solo t) (p := np) (F := s.nfam) (by simp [St.pubRoot])
  refine ⟨⟨i2, ?_, h.pend, h.cell⟩, ?_, ?_⟩
  rotate_left 2
  · have : upd s.mt np (some (.base (newRoot cfg sep s.root rp))) = s.mt := by
      funext x
      by_cases e : x = np
      · subst e; rw [upd_same]; exact hm.symm
      · rw [upd_ne _ _ e]
    show Sh.mk (upd s.mt np _) _ _ _ _ = Sh.mk s.mt _ _ _ _
    rw [this]
    rfl
  · show SX E fl s'.lv np
    have : s'.lv = (s.pubRoot F np rp (.base (newRoot cfg sep s.root rp))).lv := rfl
    rw [this, St.pubRoot_lv]
    exact h.x.newRoot h.inv.l hnp hl hr trivial rfl rfl (fun x hx => hx)
  · apply Frame.mk1 (g.mono.trans g2.mono) (fun q => q = np ∨ q = rp)
    · rintro q (rfl | rfl) G' low' hi'
      · rw [hnp] at hi'; cases hi'
      · rw [hr] at hi'; cases hi'; exact Nat.le_refl _
    · intro q hq
      simp only [not_or] at hq
      exact ⟨upd_ne _ _ hq.1, upd_ne _ _ hq.1, rfl, upd_ne _ _ hq.2⟩

/-- A leaf page is replaced. -/
theorem SI.putLeaf (h : SI cfg E D W fl s) {c c' : Chain K V} {m' : K → Option V}
    {ops' : Nat → Spec.OpSt K V} (hi : s.info p = some (0, low)) (hm : s.mt p = some c)
    (hr : c.isRemoved = false) (hr' : c'.isRemoved = false) (hpre : c'.pre = c.pre)
    (hinv : Inv cfg (s.put cfg t p c' s.est m' ops')) (hmono : Mono s (s.put cfg t p c' s.est m' ops')) :
    SI cfg E D W fl (s.put cfg t p c' s.est m' ops') ∧
      Frame 0 s (s.put cfg t p c' s.est m' ops') := by
  have hcont := St.cont_live hi hm hr
  have hpw := h.inv.l.page _ _ _ _ hcont hi
  refine ⟨⟨hinv, ?_, h.pend, h.cell⟩, ⟨hmono, fun _ _ _ _ e => absurd e (Nat.not_lt_zero _)⟩⟩
  show SX E fl (s.put cfg t p c' s.est m' ops').lv s.root
  rw [St.put_lv hi hr']
  refine h.x.replace hcont hi (fun _ _ e => e) (fun e => absurd rfl e) hpre ?_
    (fun q _ _ h1 h2 => absurd h1 h2)
  intro k q _ hk
  have := hpw.wf.flatBody_spec.2.2 _ hk
  simp [PayOK] at this

end BwTree
