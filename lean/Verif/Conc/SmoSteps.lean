import Verif.Conc.Search

/-!
# Facts about single steps of structure modifications (helper lemmas)
-/

namespace BwTree

set_option linter.unusedSectionVars false

variable {K V : Type} [LinearOrder K] {cfg : Cfg K} {s s' : St K V} {C : Ctx} {R : Regime} {F G : Nat}
  {low : Option K} {p rp : PID} {stk : Stk}

/-! ## Stacks under a change of the key -/

theorem Down.snoc {fcf : Nat → Nat} {H G : Nat} (h : Down fcf H G) (hG : G ≠ 0) :
    Down fcf H (fcf G) := by
  induction h with
  | refl => exact .step hG (.refl _)
  | step h1 _ ih => exact .step h1 (ih hG)

theorem Adj.down : ∀ {stk : Stk} {F : Nat}, Adj s F stk → ∀ q ∈ stk,
    ∃ H low, s.info q = some (H, low) ∧ Down s.fcf H F := by
  intro stk
  induction stk with
  | nil => intro F _ q hq; cases hq
  | cons a rest ih =>
    intro F h q hq
    obtain ⟨⟨low, h1⟩, h2⟩ := h
    rcases List.mem_cons.1 hq with e | e
    · subst e; exact ⟨F, low, h1, .refl _⟩
    · rcases h2 with e' | ⟨G, g1, g2, g3⟩
      · subst e'; cases e
      · obtain ⟨H, l, e1, e2⟩ := ih g3 q e
        refine ⟨H, l, e1, ?_⟩
        rw [← g2]; exact e2.snoc (by omega)

/-- A stack for a key inside a page is a stack for the lower bound of that page. -/
theorem StkOK.toLow {k sep : K} {r : PID} {cr : Chain K V} (h : StkOK R s G k true stk)
    (hI : LInv cfg s.lv) (hd : Down s.fcf G F) (hr : s.cont r = some cr)
    (hi : s.info r = some (F, some sep)) (hk : HighOK cr.high k true) :
    StkOK R s G sep true stk := by
  refine ⟨h.adj, fun A hA => ?_, h.bot⟩
  rcases h.adm A hA with e | ⟨H, la, e1, e2⟩
  · exact Or.inl e
  by_cases hdel : s.est A = .deleted
  · exact Or.inl hdel
  refine Or.inr ⟨H, la, e1, ?_⟩
  intro a ha
  subst ha
  simp only [if_true]
  by_contra hlt
  have hak := e2 a rfl
  simp only [if_true] at hak
  obtain ⟨H', l', d1, d2⟩ := h.adj.down A hA
  rw [e1] at d1; cases d1
  obtain ⟨c, hc⟩ := hI.live A _ a e1 hdel
  have hD : Down s.lv.fcf H F := by
    have : ∀ {X Y Z : Nat}, Down s.fcf X Y → Down s.fcf Y Z → Down s.fcf X Z := by
      intro X Y Z h1 h2
      induction h1 with
      | refl => exact h2
      | step a _ ih => exact .step a (ih h2)
    exact this d2 hd
  obtain ⟨q, cq, q1, q2, _⟩ := hI.fc_down hD hc e1
  have hw := hI.page q cq F _ q1 q2
  have : q = r := by
    refine hI.uniq q1 hr q2 hi hw.inR_low ⟨?_, ?_⟩
    · intro x hx; cases hx; simp only [if_true]; order
    · intro b hb
      have := hk b hb
      simp only [if_true] at this ⊢; order
  subst this
  change s.info q = some (F, some a) at q2
  rw [hi] at q2; cases q2
  exact hlt (le_refl _)

/-- Once the index entry of a page is deleted, a stack for its lower bound leads to the left of
it. -/
theorem StkOK.toOpen {dk : K} {r : PID} {cr : Chain K V} (h : StkOK R s G dk true stk)
    (hI : LInv cfg s.lv) (hd : Down s.fcf G F) (hr : s.cont r = some cr)
    (hi : s.info r = some (F, some dk)) (he : s.est r = .deleted) :
    StkOK R s G dk false stk := by
  refine ⟨h.adj, fun A hA => ?_, h.bot⟩
  rcases h.adm A hA with e | ⟨H, la, e1, e2⟩
  · exact Or.inl e
  by_cases hdel : s.est A = .deleted
  · exact Or.inl hdel
  refine Or.inr ⟨H, la, e1, ?_⟩
  intro a ha
  subst ha
  simp only [Bool.false_eq_true, if_false]
  by_contra hlt
  have hak := e2 a rfl
  simp only [if_true] at hak
  have : a = dk := by order
  subst this
  obtain ⟨H', l', d1, d2⟩ := h.adj.down A hA
  rw [e1] at d1; cases d1
  obtain ⟨c, hc⟩ := hI.live A _ a e1 hdel
  have hD : Down s.lv.fcf H F := by
    have : ∀ {X Y Z : Nat}, Down s.fcf X Y → Down s.fcf Y Z → Down s.fcf X Z := by
      intro X Y Z h1 h2
      induction h1 with
      | refl => exact h2
      | step a _ ih => exact .step a (ih h2)
    exact this d2 hd
  obtain ⟨q, cq, q1, q2, q3⟩ := hI.fc_down hD hc e1
  have : q = r := hI.uniq_low q1 hr q2 hi
  subst this
  rcases q3 with e | ⟨X, e⟩
  · subst e; exact hdel he
  · change s.est q = _ at e
    rw [he] at e; cases e

theorem StkOK.toClosed {dk : K} (h : StkOK R s G dk false stk) : StkOK R s G dk true stk := by
  refine ⟨h.adj, fun A hA => ?_, h.bot⟩
  rcases h.adm A hA with e | ⟨H, la, e1, e2⟩
  · exact Or.inl e
  · refine Or.inr ⟨H, la, e1, fun a ha => ?_⟩
    have := e2 a ha
    simp only [Bool.false_eq_true, if_false, if_true] at this ⊢
    order

/-! ## Protected pages -/

/-- Protected pages are removed pages of this thread. -/
def XOK (C : Ctx) (s : St K V) : Prop :=
  ∀ q, C.X q → s.own q = some C.t ∧ ∃ b, s.mt q = some (.removed b)

theorem XOK.same (h : XOK C s) (hk : ∀ q, C.X q → Same C.t q s s') : XOK C s' := by
  intro q hq
  obtain ⟨h1, b, h2⟩ := h q hq
  obtain ⟨e1, e2, _⟩ := hk q hq h1
  exact ⟨e1, b, by rw [e2]; exact h2⟩

theorem XOK.rely (h : XOK C s) (r : Rely C.t s s') : XOK C s' := h.same fun q _ => r.own q

theorem XOK.guar (h : XOK C s) (g : Guar C s s') : XOK C s' := h.same g.keep

theorem XOK.keep (h : XOK C s) (g : Keep C s s') : XOK C s' := h.same g.keep

theorem XOK.live (h : XOK C s) {c : Chain K V} (hm : s.mt p = some c) (hr : c.isRemoved = false) :
    ¬ C.X p := by
  intro hX
  obtain ⟨_, b, hb⟩ := h p hX
  rw [hm] at hb; cases hb; cases hr

/-! ## Steps -/

/-- An index entry is posted by a delta. -/
theorem Inv.putEntry (hc : CfgOK2 cfg) (h : Inv cfg s) {c : Chain K V} {sep : K}
    {high : Option K} (hG : 0 < G) (hGF : s.fcf G = F)
    (hi : s.info p = some (G, low)) (hm : s.mt p = some c) (hr : c.isRemoved = false)
    (hw : c.needWait cfg = false) (hX : ¬ C.X p) (hrange : InR low c.high sep)
    (hrp : s.info rp = some (F, some sep)) (he : s.est rp = .unposted C.t) :
    let nc := Chain.push (entryDelta sep high rp) c (cfg.entLen true sep)
    let s' := s.put cfg C.t p nc (upd s.est rp (.posted G)) s.m s.ops
    Inv cfg s' ∧ Guar C s s' ∧ nc.high = c.high ∧ nc.isRemoved = false := by
  intro nc s'
  have hG' : decide (G ≠ 0) = true := by simp; omega
  obtain ⟨hcont, hpw⟩ := h.live hi hm hr
  obtain ⟨crp, hcrp⟩ := h.l.live rp F sep hrp (by change s.est rp ≠ _; rw [he]; simp)
  have hnone : alook c.flatBody sep = none := by
    cases ha : alook c.flatBody sep with
    | none => rfl
    | some pay =>
      exfalso
      have hmem := alook_mem ha
      have hk := hpw.wf.flatBody_spec.2.2 _ hmem
      rw [hG'] at hk
      obtain ⟨q, hq⟩ : ∃ q, pay = .child q := by simpa [PayOK] using hk
      subst hq
      obtain ⟨e1, cq, e2⟩ := h.l.ents p c G low sep q hcont hi hmem
      have e3 := h.l.ent_info hcont hi hmem
      have e4 : s.info q = some (F, some sep) := by rw [← hGF]; exact e3
      have : q = rp := h.l.uniq_low e2 hcrp e4 hrp
      subst this
      change s.est q = _ at e1
      rw [he] at e1; cases e1
  obtain ⟨w1, w2, w3, w4⟩ := hpw.push_put (p := .child rp) (d := entryDelta sep high rp)
    (diff := cfg.entLen true sep) hc
    (by rw [hG']; rfl) (by rw [hG']; simp [DPayOK, entryDelta]) rfl hw hrange
    (Or.inl ⟨rfl, hnone, by rw [hG']; rfl⟩)
    (by intro q hq
        change DPay.child rp = DPay.child q at hq
        cases hq
        change s.info rp = some (s.fcf G, some sep)
        rw [hGF]; exact hrp)
  have hne : ∀ q X, s.est q = .posted X → q ≠ rp := by
    rintro q X e rfl; rw [he] at e; cases e
  have hput := h.put (C := C) (c' := nc) (est' := upd s.est rp (.posted G)) (m' := s.m)
    (ops' := s.ops) hi hm hr (Or.inl (h.own_none (by rw [hi]; simp) hm hr hw)) hX w1 w3 w4
    (by
      intro sp q hq
      rw [w2] at hq
      rcases mem_ains hq with e | e
      · cases e
        rw [upd_same]; exact ⟨rfl, crp, hcrp⟩
      · obtain ⟨e1, e2⟩ := h.l.ents p c G low sp q hcont hi e
        rw [upd_ne _ _ (hne q _ e1)]; exact ⟨e1, e2⟩)
    (by
      intro p0 c0 F0 l0 sp q _ h1 h2 h3
      obtain ⟨e1, _⟩ := h.l.ents p0 c0 F0 l0 sp q h1 h2 h3
      rw [upd_ne _ _ (hne q _ e1)])
    (by
      intro q hq
      rw [upd_ne]
      · exact hq
      · rintro rfl; rw [he] at hq; cases hq)
    (by
      intro q hq
      left
      by_cases e : q = rp
      · subst e; rw [upd_same] at hq; cases hq
      · rw [upd_ne _ _ e] at hq; exact hq)
    (by
      intro u q hu _ hq
      rw [upd_ne]
      · exact hq
      · rintro rfl; rw [he] at hq; cases hq; exact absurd rfl hu)
    (fun _ _ => rfl) (fun e => by omega) (Or.inl ⟨rfl, rfl⟩)
  exact ⟨hput.1, hput.2, w3, rfl⟩

/-- An index entry is deleted by a delta. -/
theorem Inv.putDelEntry (hpos : 0 < cfg.maxDelta) (h : Inv cfg s) {c crem : Chain K V} {dk : K}
    {high : Option K} {w : Nat} {rem : PID} {b : Bool} (hG : 0 < G) (hGF : s.fcf G = F)
    (hi : s.info p = some (G, low)) (hm : s.mt p = some c) (hr : c.isRemoved = false)
    (hw : c.needWait cfg = false) (hX : ¬ C.X p) (hin : KeyIn low c dk)
    (hir : s.info rem = some (F, some dk)) (hcr : s.cont rem = some crem)
    (hmr : s.mt rem = some (.removed b)) (hor : s.own rem = some C.t) (hXr : ¬ C.X rem)
    (hcell : s.cellInfo w = some (F, dk)) :
    let nc := Chain.push (deleteDelta dk high w) c (-(cfg.entLen true dk : Int))
    let s' := s.put cfg C.t p nc (upd s.est rem .deleted) s.m s.ops
    Inv cfg s' ∧ Guar C s s' ∧ nc.high = c.high ∧ nc.isRemoved = false ∧
      InR low c.high dk := by
  intro nc s'
  have hG' : decide (G ≠ 0) = true := by simp; omega
  obtain ⟨hcont, hpw⟩ := h.live hi hm hr
  obtain ⟨pay, ha⟩ := Option.ne_none_iff_exists'.1 hin.1
  have hmem := alook_mem ha
  have hrange := hpw.wf.flatBody_spec.2.1 _ hmem
  have hk := hpw.wf.flatBody_spec.2.2 _ hmem
  rw [hG'] at hk
  obtain ⟨q0, hq0⟩ : ∃ q, pay = .child q := by simpa [PayOK] using hk
  subst hq0
  obtain ⟨e1, cq, e2⟩ := h.l.ents p c G low dk q0 hcont hi hmem
  have e3 := h.l.ent_info hcont hi hmem
  have e4 : s.info q0 = some (F, some dk) := by rw [← hGF]; exact e3
  have : q0 = rem := h.l.uniq_low e2 hcr e4 hir
  subst this
  change s.est q0 = _ at e1
  have hlen : cfg.entLen (decide (G ≠ 0)) (deleteDelta (V := V) dk high w).key =
      cfg.entLen true dk := by rw [hG']; rfl
  obtain ⟨w1, w2, w3, w4⟩ := hpw.push_del (d := deleteDelta dk high w) hpos
    (by rw [hG']; rfl) (by rw [hG']; simp [DPayOK, deleteDelta]) rfl hw hrange hin.1
    (fun _ => hin.2)
    (by intro w' hq
        change DPay.cell w = DPay.cell w' at hq
        cases hq
        change s.cellInfo w = some (s.fcf G, dk)
        rw [hGF]; exact hcell)
  rw [hlen] at w1 w2 w3
  have hput := h.put (C := C) (c' := nc) (est' := upd s.est q0 .deleted) (m' := s.m)
    (ops' := s.ops) hi hm hr (Or.inl (h.own_none (by rw [hi]; simp) hm hr hw)) hX w1 w3 w4
    (by
      intro sp q hq
      rw [w2, mem_adel] at hq
      obtain ⟨d1, d2⟩ := h.l.ents p c G low sp q hcont hi hq.1
      have d3 := h.l.ent_info hcont hi hq.1
      change s.info q = some (s.fcf G, some sp) at d3
      have : q ≠ q0 := by
        rintro rfl
        rw [e4] at d3; cases d3
        exact hq.2 rfl
      rw [upd_ne _ _ this]; exact ⟨d1, d2⟩)
    (by
      intro p0 c0 F0 l0 sp q hne h1 h2 h3
      obtain ⟨d1, _⟩ := h.l.ents p0 c0 F0 l0 sp q h1 h2 h3
      rw [upd_ne]
      rintro rfl
      have d3 := h.l.ent_info h1 h2 h3
      change s.info q = some (s.fcf F0, some sp) at d3
      rw [e4] at d3; cases d3
      change s.est q = _ at d1
      rw [e1] at d1; cases d1
      have hw0 := h.l.page p0 c0 _ _ h1 h2
      have hr0 := hw0.wf.flatBody_spec.2.1 _ h3
      exact hne (h.l.uniq h1 hcont h2 hi hr0 hrange))
    (by
      intro q hq
      by_cases e : q = q0
      · subst e; rw [upd_same]
      · rw [upd_ne _ _ e]; exact hq)
    (by
      intro q hq
      by_cases e : q = q0
      · subst e; right
        exact ⟨by rw [hir]; simp, ⟨b, hmr⟩, hor, hXr⟩
      · rw [upd_ne _ _ e] at hq; exact Or.inl hq)
    (by
      intro u q hu _ hq
      rw [upd_ne]
      · exact hq
      · rintro rfl; rw [e1] at hq; cases hq)
    (fun _ _ => rfl) (fun e => by omega) (Or.inl ⟨rfl, rfl⟩)
  exact ⟨hput.1, hput.2, w3, rfl, hrange⟩

/-- A chain is replaced by the node it stands for. -/
theorem Inv.putCons (h : Inv cfg s) {c : Chain K V} (hi : s.info p = some (F, low))
    (hm : s.mt p = some c) (hr : c.isRemoved = false) (hs : c.size ≤ cfg.page)
    (ho : s.own p = none ∨ s.own p = some C.t) (hX : ¬ C.X p) :
    let n := consNode (decide (F ≠ 0)) c c.size
    let s' := s.put cfg C.t p (.base n) s.est s.m s.ops
    Inv cfg s' ∧ Guar C s s' := by
  intro n s'
  obtain ⟨hcont, hpw⟩ := h.live hi hm hr
  obtain ⟨w1, w2, w3, w4⟩ := hpw.consolidate hs
  exact h.put (C := C) (c' := .base n) (est' := s.est) (m' := s.m)
    (ops' := s.ops) hi hm hr ho hX w1 w3 w4
    (by intro sp q hq
        rw [w2] at hq
        exact h.l.ents p c F low sp q hcont hi hq)
    (fun _ _ _ _ _ _ _ _ _ _ => rfl) (fun _ e => e) (fun _ e => Or.inl e)
    (fun _ _ _ _ e => e) (fun _ _ => rfl)
    (by intro e k hk
        subst e
        rw [w2]
        exact h.l.val p c low k hcont hi hk)
    (Or.inl ⟨rfl, rfl⟩)

/-- A merge delta is installed. -/
theorem Inv.putMerge (hpos : 0 < cfg.maxDelta) (h : Inv cfg s) {c : Chain K V} {n : Node K V}
    {dk : K} {rem : PID} {b : Bool}
    (hi : s.info p = some (F, low)) (hm : s.mt p = some c) (hr : c.isRemoved = false)
    (hw : c.needWait cfg = false) (hX : ¬ C.X p) (hl : LowOK low dk false)
    (hh : HighOK c.high dk false)
    (hir : s.info rem = some (F, some dk)) (hmr : s.mt rem = some (.removed b))
    (hpr : s.pend rem = some n) (hor : s.own rem = some C.t) (hXr : ¬ C.X rem)
    (hd : s.est rem = .deleted) :
    let nc := Chain.push (mergeDelta n dk) c (cfg.nodeDiff n)
    let s' := s.doMerge cfg C.t p rem nc
    Inv cfg s' ∧ Guar C s s' ∧ InR low nc.high dk ∧ nc.isRemoved = false ∧ p ≠ rem := by
  intro nc s'
  obtain ⟨hcont, hpw⟩ := h.live hi hm hr
  have hcr : s.cont rem = some (.base n) := by rw [St.cont_pend hir hmr, hpr]; rfl
  have hnw := h.l.page rem _ F _ hcr hir
  have hsz := (h.p.pend rem n hpr).2.2.2
  have hne : p ≠ rem := by
    rintro rfl
    rw [hi] at hir; cases hir
    have := hl dk rfl
    simp at this
  have hhigh : c.high = some dk := by
    rcases h.l.disj p rem c _ F low _ hcont hcr hi hir hne with ⟨x, y, e1, e2, e3⟩ | ⟨x, y, e1, e2, e3⟩
    · cases e2
      have := hh x e1
      simp only [Bool.false_eq_true, if_false] at this
      rw [e1]; congr 1; order
    · have h1 := hl y e2
      have h2 := hnw.wf.nonempty dk x rfl e1
      simp only [Bool.false_eq_true, if_false] at h1
      order
  obtain ⟨w1, w2, w3, w4⟩ := hpw.push_merge (d := mergeDelta n dk) (dk := dk) hpos hnw.wf.1 rfl rfl rfl
    rfl hw hhigh hnw hsz
  obtain ⟨m1, m2⟩ := h.doMerge hpos (C := C) (c' := nc) hi hm hr (h.own_none (by rw [hi]; simp) hm hr hw) hX
    hir hmr hpr hor hXr hd w1 hhigh w3 w4 w2
  refine ⟨m1, m2, ⟨?_, ?_⟩, rfl, hne⟩
  · intro l e
    have := hl l e
    simp only [Bool.false_eq_true, if_false, if_true] at this ⊢
    order
  · rw [w3]; exact hnw.inR_low.2

end BwTree
