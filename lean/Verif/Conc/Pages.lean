import Verif.Conc.Logical

/-!
# Well-formed pages under the operations (helper lemmas)
-/

namespace BwTree

set_option linter.unusedSectionVars false

variable {K V : Type} [LinearOrder K] {cfg : Cfg K} {L : Lv K V} {F : Nat} {low : Option K}
  {c : Chain K V}

theorem PageWF.not_removed (h : PageWF cfg L F low c) : c.isRemoved = false := by
  have := h.wf
  cases c with
  | removed b => exact this.elim
  | _ => rfl

theorem PageWF.isLeaf (h : PageWF cfg L F low c) : c.isLeaf = decide (F = 0) := by
  rw [h.wf.isLeaf]
  by_cases e : F = 0 <;> simp [e]

theorem PageWF.base_le (h : PageWF cfg L F low c) (hd : c.isDelta = false) :
    c.size ≤ cfg.page := by
  have := h.base
  cases c with
  | base n => exact this
  | removed b => cases hd
  | delta d nx => cases hd

theorem PageWF.size_le (h : PageWF cfg L F low c) (hw : c.needWait cfg = false) :
    c.size ≤ cfg.page := by
  cases hd : c.isDelta with
  | false => exact h.base_le hd
  | true => exact needWait_false_size hw hd

theorem entLen_slack (hc : CfgOK cfg) (inner : Bool) (k : K) :
    (cfg.entLen inner k : Int) ≤ slack cfg inner := by
  have := hc.keys k
  unfold slack Cfg.entLen; omega

theorem slack_nonneg (cfg : Cfg K) (inner : Bool) : 0 ≤ slack cfg inner := by
  unfold slack; omega

/-- A record is inserted or overwritten by a delta. -/
theorem PageWF.push_put (hc : CfgOK2 cfg) (h : PageWF cfg L F low c) {d : Delta K V}
    {p : Pay V} (hi : d.inner = decide (F ≠ 0)) (hp : DPayOK (decide (F ≠ 0)) d.ty d.pay)
    (hr : d.toRec = some (d.key, p)) (hw : c.needWait cfg = false)
    (hrange : InR low c.high d.key) {diff : Int}
    (hty : (d.ty = .insert ∧ alook c.flatBody d.key = none ∧
        diff = cfg.entLen (decide (F ≠ 0)) d.key) ∨
      (d.ty = .modify ∧ alook c.flatBody d.key ≠ none ∧ diff = 0))
    (hent : ∀ q, d.pay = .child q → L.info q = some (L.fcf F, some d.key)) :
    PageWF cfg L F low (Chain.push d c diff) ∧
      (Chain.push d c diff).flatBody = ains d.key p c.flatBody ∧
      (Chain.push d c diff).high = c.high ∧ (Chain.push d c diff).nextPid = c.nextPid := by
  obtain ⟨h1, h2, h3, h4, h5⟩ := push_put_wf h.wf hi hp hr hw hc.maxPos hrange hty
  refine ⟨⟨h1, ⟨h.ents, fun q _ e => hent q e, ?_, ?_⟩, ?_, ?_, ?_⟩, h2, h4, h5⟩
  · intro w e
    simp only [Delta.toRec] at hr
    simp only at e
    rw [e] at hr; cases hr
  · intro n e
    simp only [Delta.toRec] at hr
    simp only at e
    rw [e] at hr; cases hr
  · intro x hx; rw [h5]; rw [h4] at hx; exact h.link x hx
  · have := h.size_le hw
    have := entLen_slack hc.toCfgOK (decide (F ≠ 0)) d.key
    have := slack_nonneg cfg (decide (F ≠ 0))
    show c.size + diff ≤ _
    rcases hty with ⟨_, _, e⟩ | ⟨_, _, e⟩ <;> rw [e] <;> omega
  · exact h.base

/-- A record is deleted by a delta. -/
theorem PageWF.push_del (hpos : 0 < cfg.maxDelta) (h : PageWF cfg L F low c) {d : Delta K V}
    (hi : d.inner = decide (F ≠ 0)) (hp : DPayOK (decide (F ≠ 0)) d.ty d.pay)
    (hty : d.ty = .delete) (hw : c.needWait cfg = false)
    (hrange : InR low c.high d.key) (hin : alook c.flatBody d.key ≠ none)
    (hlow : F ≠ 0 → LowOK low d.key false)
    (hent : ∀ w, d.pay = .cell w → L.cellInfo w = some (L.fcf F, d.key)) :
    PageWF cfg L F low (Chain.push d c (-(cfg.entLen (decide (F ≠ 0)) d.key : Int))) ∧
      (Chain.push d c (-(cfg.entLen (decide (F ≠ 0)) d.key : Int))).flatBody = adel d.key c.flatBody ∧
      (Chain.push d c (-(cfg.entLen (decide (F ≠ 0)) d.key : Int))).high = c.high ∧
      (Chain.push d c (-(cfg.entLen (decide (F ≠ 0)) d.key : Int))).nextPid = c.nextPid := by
  obtain ⟨h1, h2, h3, h4, h5⟩ := push_del_wf h.wf hi hp hty hw hpos hrange hin
    (by intro e; exact hlow (by simpa using e))
  have hpay : ∀ x, d.pay ≠ .child x ∧ ∀ n, d.pay ≠ .node n := by
    intro x
    rw [hty] at hp
    simp only [DPayOK] at hp
    split at hp
    · obtain ⟨w, e⟩ := hp; rw [e]; simp
    · rw [hp]; simp
  refine ⟨⟨h1, ⟨h.ents, ?_, fun w e => hent w e, ?_⟩, ?_, ?_, ?_⟩, h2, h4, h5⟩
  · intro q _ e; exact absurd e (hpay q).1
  · intro n e; exact absurd e ((hpay 0).2 n)
  · intro x hx; rw [h5]; rw [h4] at hx; exact h.link x hx
  · have := h.size_le hw
    have := slack_nonneg cfg (decide (F ≠ 0))
    show c.size + (-(cfg.entLen (decide (F ≠ 0)) d.key : Int)) ≤ _
    omega
  · exact h.base

/-- A neighbour is merged. -/
theorem PageWF.push_merge (hpos : 0 < cfg.maxDelta) (h : PageWF cfg L F low c) {d : Delta K V}
    {n : Node K V} {dk : K}
    (hi : d.inner = decide (F ≠ 0)) (hty : d.ty = .merge) (hpay : d.pay = .node n)
    (hk : d.key = dk) (hdh : d.high = n.high)
    (hw : c.needWait cfg = false) (hkey : c.high = some dk)
    (hn : PageWF cfg L F (some dk) (.base n)) (hsz : n.size ≤ cfg.minSize) :
    PageWF cfg L F low (Chain.push d c (cfg.nodeDiff n)) ∧
      (Chain.push d c (cfg.nodeDiff n)).flatBody = c.flatBody ++ (Chain.base n).flatBody ∧
      (Chain.push d c (cfg.nodeDiff n)).high = (Chain.base n).high ∧
      (Chain.push d c (cfg.nodeDiff n)).nextPid = (Chain.base n).nextPid := by
  subst hk
  have hnl : n.low = some d.key := hn.wf.2.1
  obtain ⟨h1, h2, h3, h4, h5⟩ := push_merge_wf h.wf hi hty hpay hw hpos hkey hn.wf.2.2 hn.wf.1
    hnl hdh.symm
  refine ⟨⟨h1, ⟨h.ents, ?_, ?_, ?_⟩, ?_, ?_, ?_⟩, ?_, h4, h5⟩
  · intro q e; exact absurd hty e
  · intro w e; simp only at e; rw [hpay] at e; cases e
  · intro m e; simp only at e; rw [hpay] at e; cases e; exact hn.ents
  · intro x hx; rw [h5]; rw [h4] at hx; exact hn.link x hx
  · have := h.size_le hw
    have : (cfg.minSize : Int) - cfg.hdr ≤ slack cfg (decide (F ≠ 0)) := by unfold slack; omega
    have : cfg.nodeDiff n ≤ n.size - cfg.hdr := by unfold Cfg.nodeDiff; split <;> omega
    show c.size + (cfg.nodeDiff n) ≤ _
    omega
  · exact h.base
  · rw [h2]; simp only [Chain.flatBody]; rw [Node.body_of_low hnl]

/-- Consolidation of a page that fits. -/
theorem PageWF.consolidate (h : PageWF cfg L F low c) (hs : c.size ≤ cfg.page) :
    PageWF cfg L F low (.base (consNode (decide (F ≠ 0)) c c.size)) ∧
      (Chain.base (consNode (decide (F ≠ 0)) c c.size)).flatBody = c.flatBody ∧
      (Chain.base (consNode (decide (F ≠ 0)) c c.size)).high = c.high ∧
      (Chain.base (consNode (decide (F ≠ 0)) c c.size)).nextPid = c.nextPid := by
  obtain ⟨h1, h2, h3, h4, h5⟩ := consNode_wf h.wf
  have he := h.ents.flat h.wf
  refine ⟨⟨h1, NodeEnts.of_flat (pre := c.pre) (body := c.flatBody) h2 h3 he.1 he.2, ?_, ?_, ?_⟩, h3, h4, h5⟩
  · intro x hx; rw [h5]; rw [h4] at hx; exact h.link x hx
  · exact h.size
  · exact hs

/-- The two halves of a split. -/
theorem PageWF.split (hc : CfgOK2 cfg) (h : PageWF cfg L F low c) {lr rr : List (K × Pay V)}
    {x : K × Pay V} {r : PID} (hlr : lr ≠ []) (hcat : lr ++ x :: rr = c.flat)
    (hsm : cfg.lsz (decide (F ≠ 0)) c lr - (cfg.recLen (decide (F ≠ 0)) + cfg.maxKey) ≤
        ((cfg.page - cfg.hdr) / 2 : Int) ∨ lr.length = 1)
    (hlg : ((cfg.page - cfg.hdr) / 2 : Int) < cfg.lsz (decide (F ≠ 0)) c lr)
    (hr : L.info r = none) :
    let cl : Chain K V := .base (splitL cfg (decide (F ≠ 0)) c lr x.1 r)
    let cr : Chain K V := .base (splitR cfg (decide (F ≠ 0)) c x rr)
    PageWF cfg { L with info := upd L.info r (some (F, some x.1)) } F low cl ∧
    PageWF cfg { L with info := upd L.info r (some (F, some x.1)) } F (some x.1) cr ∧
    cl.high = some x.1 ∧ cr.high = c.high ∧ cl.flatBody ++ cr.flatBody = c.flatBody ∧
    LowOK low x.1 false ∧ HighOK c.high x.1 true ∧ cl.nextPid = r ∧ cr.nextPid = c.nextPid := by
  intro cl cr
  obtain ⟨v1, v2, v3, v4, v5, v6, v7, v8⟩ := split_wf h.wf hlr hcat r
  obtain ⟨f1, f2⟩ := split_fits hc.toCfgOK h.wf h.size
    (by exact_mod_cast hc.min _) hc.minVar hlr hcat hsm hlg
  have hinfo : ∀ q y, L.info q = some y → upd L.info r (some (F, some x.1)) q = some y := by
    intro q y hq
    rw [upd_ne _ _ (by rintro rfl; rw [hr] at hq; cases hq)]; exact hq
  have he := h.ents.flat h.wf
  have hsl := slack_nonneg cfg (decide (F ≠ 0))
  refine ⟨⟨v1, ?_, ?_, ?_, ?_⟩, ⟨v2, ?_, ?_, ?_, ?_⟩, rfl, rfl, v5, v7, v8, rfl, rfl⟩
  · refine NodeEnts.of_flat v3 rfl (fun y hy p e => hinfo _ _ (he.1 y hy p e)) ?_
    intro y hy p e
    exact hinfo _ _ (he.2 y (by rw [← v5]; exact List.mem_append_left _ hy) p e)
  · intro y hy
    have : y = x.1 := by
      simp only [cl, splitL, Chain.high, Option.some.injEq] at hy
      exact hy.symm
    subst this
    simp [cl, splitL, Chain.nextPid]
  · have : cl.size = (splitL cfg (decide (F ≠ 0)) c lr x.1 0).size := rfl
    omega
  · exact f1
  · refine NodeEnts.of_flat v4 rfl (by simp) ?_
    intro y hy p e
    exact hinfo _ _ (he.2 y (by rw [← v5]; exact List.mem_append_right _ hy) p e)
  · intro y hy
    exact hinfo _ _ (h.link y hy)
  · have : cr.size = (splitR cfg (decide (F ≠ 0)) c x rr).size := rfl
    omega
  · exact f2

/-- The new root of a root split. -/
theorem newRoot_page (hc : CfgOK2 cfg) {sep : K} {lp rp : PID} {G : Nat} (hG : G ≠ 0)
    (hl : L.info lp = some (L.fcf G, none)) (hr : L.info rp = some (L.fcf G, some sep)) :
    PageWF cfg L G none (.base (newRoot cfg sep lp rp)) ∧
    (Chain.base (newRoot (V := V) cfg sep lp rp)).flatBody = [(sep, .child rp)] := by
  have hG' : decide (G ≠ 0) = true := by simp [hG]
  have hb : (newRoot (V := V) cfg sep lp rp).body = [(sep, .child rp)] := by
    simp [Node.body, Node.leftInner, newRoot]
  have hpre : (newRoot (V := V) cfg sep lp rp).pre = [(sep, .child lp)] := by
    simp [Node.pre, Node.leftInner, newRoot]
  refine ⟨⟨?_, ?_, ?_, ?_, ?_⟩, hb⟩
  · refine ⟨by rw [hG']; rfl, rfl, ?_, ?_, ?_, ?_, ?_, ?_⟩
    · rw [hb]; exact List.pairwise_singleton _ _
    · intro x _
      refine ⟨?_, ?_⟩ <;> · intro l h; cases h
    · intro l h e; cases e
    · intro x hx
      simp only [newRoot, List.mem_cons, List.not_mem_nil, or_false] at hx
      rcases hx with rfl | rfl
      · exact ⟨lp, rfl⟩
      · exact ⟨rp, rfl⟩
    · intro _; exact ⟨_, _, rfl, by intro l h; cases h⟩
    · rw [hb]
      simp only [newRoot, Cfg.bytes, Cfg.recLen, Cfg.bnd, Cfg.olen, Cfg.keyBytes, if_true,
        List.length_cons, List.length_nil, List.map_cons, List.map_nil, List.sum_cons, List.sum_nil]
      push_cast; omega
  · refine NodeEnts.of_flat hpre hb ?_ ?_
    · intro x hx p e
      simp only [List.mem_singleton] at hx
      subst hx; cases e; exact hl
    · intro x hx p e
      simp only [List.mem_singleton] at hx
      subst hx; cases e; exact hr
  · intro h e; cases e
  · have := slack_nonneg cfg (decide (G ≠ 0))
    have := hc.rootFits
    have := hc.keys sep
    simp only [Chain.size, newRoot]; omega
  · have := hc.rootFits
    have := hc.keys sep
    simp only [Chain.baseSize, newRoot]; omega

end BwTree
