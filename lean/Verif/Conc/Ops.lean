import Verif.Conc.Smo

/-!
# Specifications of the public operations (proof side)

Every operation takes effect on the abstract map at one of its own accesses: a successful write at
its compare-and-swap, everything else at the last load of a head.
-/

namespace BwTree

set_option linter.unusedSectionVars false

variable {K V : Type} [LinearOrder K] {cfg : Cfg K} {s s' : St K V} {C : Ctx}

/-- The ghost step in which a pending operation takes effect without changing the map. -/
def St.fin (s : St K V) (t : Nat) (op : Spec.Call K V) (r : Spec.Ret K V) : St K V :=
  { s with ops := Spec.setOp s.ops t (.done op r) }

theorem Spec.Step.of_apply {m m' : K → Option V} {op : Spec.Op K V} {r : Spec.Res V}
    (h : Spec.apply m op = (m', r)) : Spec.Step m (.op op) m' (.res r) := by
  have := Spec.Step.op (m := m) op
  rw [h] at this; exact this

theorem Inv.fin (h : Inv cfg s) {op : Spec.Call K V} {r : Spec.Ret K V} (hp : C.pure = false)
    (ho : s.ops C.t = .pending op) (ha : Spec.Step s.m op s.m r) :
    Inv cfg (s.fin C.t op r) ∧ GuarM C s (s.fin C.t op r) := by
  refine ⟨⟨h.l, ⟨h.p.npos, h.p.fresh, h.p.slot, h.p.frozen, h.p.owned, h.p.pend, h.p.del, h.p.root,
    h.p.cell, h.p.cfresh, h.p.unpub⟩⟩, ?_, rfl⟩
  apply Guar.of_same (s := s) (s' := s.fin C.t op r) rfl rfl rfl rfl rfl
  · exact ⟨fun _ _ h => h, Nat.le_refl _, fun _ _ => rfl, fun _ _ h => h, fun _ h => h⟩
  · exact Or.inr ⟨hp, op, r, ho, ha, rfl⟩

theorem Inv.leaf_child {q : PID} {c : Chain K V} {low : Option K} {sep : K}
    (hpw : PageWF cfg s.lv 0 low c) (hm : (sep, Pay.child q) ∈ c.flatBody) : False := by
  have := hpw.wf.flatBody_spec.2.2 _ hm
  simp [PayOK] at this

/-- A record is inserted or modified. -/
theorem Inv.putRec (hc : CfgOK2 cfg) (h : Inv cfg s) {p : PID} {c : Chain K V}
    {low : Option K} {key : K} {v : V} {ty : DType} {diff : Int} {op : Spec.Op K V}
    (hp : C.pure = false) (ho : s.ops C.t = .pending (.op op))
    (ha : Spec.apply s.m op = (Spec.set s.m key (some v), .success))
    (hi : s.info p = some (0, low)) (hm : s.mt p = some c) (hr : c.isRemoved = false)
    (hw : c.needWait cfg = false) (hX : ¬ C.X p) (hrange : InR low c.high key)
    (hty : (ty = .insert ∧ alook c.flatBody key = none ∧ diff = cfg.entLen false key) ∨
      (ty = .modify ∧ alook c.flatBody key ≠ none ∧ diff = 0)) :
    let nc := Chain.push (putDelta ty key v) c diff
    let s' := s.put cfg C.t p nc s.est (Spec.set s.m key (some v))
      (Spec.setOp s.ops C.t (.done (.op op) (.res .success)))
    Inv cfg s' ∧ Guar C s s' ∧ nc.high = c.high ∧ nc.isRemoved = false := by
  intro nc s'
  obtain ⟨hcont, hpw⟩ := h.live hi hm hr
  obtain ⟨w1, w2, w3, w4⟩ := hpw.push_put (p := .val v) (d := putDelta ty key v) (diff := diff) hc
    (by simp [putDelta]) (by rcases hty with e | e <;> simp [DPayOK, putDelta, e.1]) rfl hw hrange
    (by
      rcases hty with e | e
      · exact Or.inl ⟨e.1, e.2.1, e.2.2⟩
      · exact Or.inr e)
    (by intro q hq; cases hq)
  have hput := h.put (C := C) (c' := nc) (est' := s.est) (m' := Spec.set s.m key (some v))
    (ops' := Spec.setOp s.ops C.t (.done (.op op) (.res .success))) hi hm hr
    (Or.inl (h.own_none (by rw [hi]; simp) hm hr hw)) hX w1 w3 w4
    (fun sep q hq => (Inv.leaf_child w1 hq).elim)
    (fun _ _ _ _ _ _ _ _ _ _ => rfl) (fun _ e => e) (fun _ e => Or.inl e) (fun _ _ _ _ e => e)
    (by
      intro k hk
      have : k ≠ key := by rintro rfl; exact hk ⟨rfl, hrange⟩
      simp [Spec.set, this])
    (by
      intro _ k hk
      have hv := h.l.val p c low k hcont hi hk
      change _ = (s.m k).map Pay.val at hv
      rw [w2, alook_ains hpw.wf.flatBody_spec.1, hv]
      change (if key = k then _ else _) = _
      by_cases e : key = k
      · subst e; simp [Spec.set]
      · simp [Spec.set, e, Ne.symm e])
    (Or.inr ⟨hp, _, _, ho, .of_apply ha, rfl⟩)
  exact ⟨hput.1, hput.2, w3, rfl⟩

/-- A record is deleted. -/
theorem Inv.delRec (hpos : 0 < cfg.maxDelta) (h : Inv cfg s) {p : PID} {c : Chain K V}
    {low : Option K} {key : K} {op : Spec.Op K V}
    (hp : C.pure = false) (ho : s.ops C.t = .pending (.op op))
    (ha : Spec.apply s.m op = (Spec.set s.m key none, .success))
    (hi : s.info p = some (0, low)) (hm : s.mt p = some c) (hr : c.isRemoved = false)
    (hw : c.needWait cfg = false) (hX : ¬ C.X p) (hrange : InR low c.high key)
    (hin : alook c.flatBody key ≠ none) :
    let nc := Chain.push (delDelta key) c (-(cfg.entLen false key : Int))
    let s' := s.put cfg C.t p nc s.est (Spec.set s.m key none)
      (Spec.setOp s.ops C.t (.done (.op op) (.res .success)))
    Inv cfg s' ∧ Guar C s s' ∧ nc.high = c.high ∧ nc.isRemoved = false := by
  intro nc s'
  obtain ⟨hcont, hpw⟩ := h.live hi hm hr
  obtain ⟨w1, w2, w3, w4⟩ := hpw.push_del (d := delDelta key) hpos
    (by simp [delDelta]) (by simp [DPayOK, delDelta]) rfl hw hrange hin (fun e => absurd rfl e)
    (by intro q hq; cases hq)
  have hput := h.put (C := C) (c' := nc) (est' := s.est) (m' := Spec.set s.m key none)
    (ops' := Spec.setOp s.ops C.t (.done (.op op) (.res .success))) hi hm hr
    (Or.inl (h.own_none (by rw [hi]; simp) hm hr hw)) hX w1 w3 w4
    (fun sep q hq => (Inv.leaf_child w1 hq).elim)
    (fun _ _ _ _ _ _ _ _ _ _ => rfl) (fun _ e => e) (fun _ e => Or.inl e) (fun _ _ _ _ e => e)
    (by
      intro k hk
      have : k ≠ key := by rintro rfl; exact hk ⟨rfl, hrange⟩
      simp [Spec.set, this])
    (by
      intro _ k hk
      have hv := h.l.val p c low k hcont hi hk
      change _ = (s.m k).map Pay.val at hv
      change alook (Chain.push (delDelta key) c (-(cfg.entLen (decide (0 ≠ 0)) (delDelta (V := V) key).key : Int))).flatBody k = _
      rw [w2, alook_adel, hv]
      change (if key = k then _ else _) = _
      by_cases e : key = k
      · subst e; simp [Spec.set]
      · simp [Spec.set, e, Ne.symm e])
    (Or.inr ⟨hp, _, _, ho, .of_apply ha, rfl⟩)
  exact ⟨hput.1, hput.2, w3, rfl⟩

theorem readLoop_spec {key : K} (hp : C.pure = false) : ∀ (f : Nat) {stk : Stk} {F : Nat}
    {s : St K V}, Inv cfg s → s.ops C.t = .pending (.op (.read key)) → stk ≠ [] →
    StkOK C.reg s F key true stk → (C.reg ≠ .free → F = 0) →
    wp cfg C (readLoop key f stk) (fun o s' => s'.ops C.t = .done (.op (.read key)) (.res (.payload o))) s := by
  intro f
  induction f with
  | zero => intro stk F s _ _ _ _ _; trivial
  | succ f ih =>
    intro stk F s hI ho hne hs hz
    cases stk with
    | nil => exact absurd rfl hne
    | cons p rest =>
    intro s1 r1 i1 o1
    have hs1 := hs.mono hI.l r1.mono
    have ho1 : s1.ops C.t = .pending (.op (.read key)) := r1.ops.trans ho
    obtain ⟨c, hc, _⟩ := hs1.slot i1
    refine ⟨c, hc, ?_⟩
    cases hrem : c.isRemoved with
    | true =>
      obtain ⟨b, rfl⟩ := isRemoved_true hrem
      refine ⟨s1, rfl, i1, GuarM.rfl, ?_⟩
      have hst : readChain key (Chain.removed (K := K) (V := V) b) = .removed := rfl
      have hli : (Chain.removed (K := K) (V := V) b).liveInner = false := by
        simp [Chain.liveInner, Chain.isRemoved]
      simp only [hst, hli, Bool.false_eq_true, if_false]
      by_cases hrest : rest = []
      · simp only [hrest, if_true]
        show C.reg.fl _
        by_cases hR : C.reg = .free
        · rw [hR]; trivial
        · obtain ⟨⟨low, h1⟩, _⟩ := hs1.adj
          rw [hrest] at hs1
          obtain ⟨r, e, _⟩ := o1.removed hR hc hs1 h1
          rw [e]
          exact Or.inr (Or.inr ⟨rfl, hz hR⟩)
      · simp only [hrest, if_false]
        obtain ⟨G, hG0, hGF, hG⟩ := hs1.tail hrest
        apply wp_bind
        apply searchChild_spec f i1 hrest hG (fun _ => Nat.pos_iff_ne_zero.1 hG0)
        intro s2 x r2 i2 hp
        rcases hp with ⟨_, _, e, _⟩ | ⟨_, _, e⟩ | ⟨_, e2, F', e3, e4⟩
        · exact absurd rfl e
        · exact absurd rfl e
        · exact ih i2 (r2.ops.trans ho1) e2 e3 (fun hR => by
            rw [e4 (Or.inr hR), r2.mono.fcf G (hG.adj.head_lt i1.l hrest), hGF]; exact hz hR)
    | false =>
      obtain ⟨low, l1, l2, l3, l4⟩ := hs1.live i1 hc hrem
      have hli := liveInner_eq hrem l4.isLeaf
      by_cases hF : F = 0
      · subst hF
        simp only [ne_eq, not_true_eq_false, decide_false] at hli
        simp only [hli, Bool.false_eq_true, if_false]
        by_cases hh : HighOK c.high key true
        · obtain ⟨o, hb1, hb2⟩ := (readChain_spec l4.wf key).2 hh
          simp only [hb1]
          have hv := i1.l.val p c low key l3 l1 ⟨l2, hh⟩
          change _ = (s1.m key).map Pay.val at hv
          have hmo : s1.m key = o := by
            rw [hv] at hb2
            cases h1 : s1.m key <;> cases h2 : o <;> simp_all
          obtain ⟨i2, g2⟩ := i1.fin (C := C) (op := .op (.read key)) (r := .res (.payload o)) hp
            ho1 (.of_apply (by simp [Spec.apply, hmo]))
          refine ⟨s1.fin C.t (.op (.read key)) (.res (.payload o)), rfl, i2, g2, ?_⟩
          simp [wp, St.fin, Spec.setOp]
        · have hb1 := (readChain_spec l4.wf key).1 hh
          refine ⟨s1, rfl, i1, GuarM.rfl, ?_⟩
          simp only [hb1]
          obtain ⟨b, b1, b2, b3⟩ := l4.sibling hh
          exact ih i1 ho1 (by simp) (hs1.swap b2 b3) hz
      · refine ⟨s1, rfl, i1, GuarM.rfl, ?_⟩
        simp only [ne_eq, hF, not_false_eq_true, decide_true] at hli
        simp only [hli, if_true]
        show C.reg.fl _
        by_cases hR : C.reg = .free
        · rw [hR]; trivial
        · exact absurd (hz hR) hF

/-- Not a read. -/
def Spec.Op.isRead : Spec.Op K V → Bool
  | .read _ => true
  | _ => false

/-- What `writeDelta` decides is right. -/
theorem writeDelta_spec {op : Spec.Op K V} (hop : op.isRead = false) {found : Bool}
    {m : K → Option V} (hf : found = true ↔ m (opKey op) ≠ none) :
    match writeDelta cfg op found with
    | .inl r => Spec.apply m op = (m, r)
    | .inr (d, diff) =>
      (∃ ty v, d = putDelta ty (opKey op) v ∧
        Spec.apply m op = (Spec.set m (opKey op) (some v), .success) ∧
        ((ty = .insert ∧ found = false ∧ diff = cfg.entLen false (opKey op)) ∨
          (ty = .modify ∧ found = true ∧ diff = 0))) ∨
      (d = delDelta (opKey op) ∧ diff = -(cfg.entLen false (opKey op) : Int) ∧ found = true ∧
        Spec.apply m op = (Spec.set m (opKey op) none, .success)) := by
  cases op with
  | read k => cases hop
  | write k v =>
    cases found
    · exact Or.inl ⟨.insert, v, rfl, rfl, Or.inl ⟨rfl, rfl, rfl⟩⟩
    · exact Or.inl ⟨.modify, v, rfl, rfl, Or.inr ⟨rfl, rfl, rfl⟩⟩
  | insert k v =>
    simp only [opKey] at hf
    cases found
    · have hm : m k = none := by
        cases h : m k with
        | none => rfl
        | some x => rw [h] at hf; simp at hf
      exact Or.inl ⟨.insert, v, rfl, by simp [Spec.apply, hm, opKey], Or.inl ⟨rfl, rfl, rfl⟩⟩
    · obtain ⟨x, hm⟩ := Option.ne_none_iff_exists'.mp (hf.mp rfl)
      simp [writeDelta, Spec.apply, hm]
  | update k v =>
    simp only [opKey] at hf
    cases found
    · have hm : m k = none := by
        cases h : m k with
        | none => rfl
        | some x => rw [h] at hf; simp at hf
      simp [writeDelta, Spec.apply, hm]
    · obtain ⟨x, hm⟩ := Option.ne_none_iff_exists'.mp (hf.mp rfl)
      exact Or.inl ⟨.modify, v, rfl, by simp [Spec.apply, hm, opKey], Or.inr ⟨rfl, rfl, rfl⟩⟩
  | delete k =>
    simp only [opKey] at hf
    cases found
    · have hm : m k = none := by
        cases h : m k with
        | none => rfl
        | some x => rw [h] at hf; simp at hf
      simp [writeDelta, Spec.apply, hm]
    · obtain ⟨x, hm⟩ := Option.ne_none_iff_exists'.mp (hf.mp rfl)
      exact Or.inr ⟨rfl, rfl, rfl, by simp [Spec.apply, hm, opKey]⟩

theorem LeafAt.found {key : K} {p : PID} {c : Chain K V} {low : Option K} {b : Bool}
    (h : Inv cfg s) (hi : s.info p = some (0, low)) (hc : s.lv.cont p = some c)
    (hr : InR low c.high key) (hb : b = true ↔ alook c.flatBody key ≠ none) :
    b = true ↔ s.m key ≠ none := by
  rw [hb, h.l.val p c low key hc hi hr]
  change (s.m key).map Pay.val ≠ none ↔ _
  cases s.m key <;> simp

theorem writeLoop_spec (hc : CfgOK2 cfg) {op : Spec.Op K V} (hop : op.isRead = false)
    (hp : C.pure = false) (hX : ∀ q, ¬ C.X q) : ∀ (f : Nat) {stk : Stk} {F : Nat} {s : St K V},
    Inv cfg s → s.ops C.t = .pending (.op op) → stk ≠ [] → StkOK C.reg s F (opKey op) true stk →
    (C.reg ≠ .free → F = 0) →
    wp cfg C (writeLoop cfg op (opKey op) f stk) (fun r s' => s'.ops C.t = .done (.op op) (.res r)) s := by
  intro f
  induction f with
  | zero => intro stk F s _ _ _ _ _; trivial
  | succ f ih =>
    intro stk F s hI ho hne hs hz
    apply wp_bind
    apply getHeadKC_spec f hI hne hs hz
    intro s1 p rest c low b r1 i1 hl hb
    have ho1 : s1.ops C.t = .pending (.op op) := r1.ops.trans ho
    have hfound := LeafAt.found i1 hl.info hl.cont hl.range hb
    cases hd : writeDelta cfg op b with
    | inl r =>
      have hw := writeDelta_spec (cfg := cfg) hop hfound
      rw [hd] at hw
      obtain ⟨i2, g2⟩ := i1.fin (C := C) hp ho1 (.of_apply hw)
      refine ⟨s1.fin C.t (.op op) (.res r), rfl, i2, g2, ?_⟩
      simp [wp, St.fin, Spec.setOp]
    | inr x =>
      obtain ⟨d, diff⟩ := x
      refine ⟨s1, rfl, i1, GuarM.rfl, ?_⟩
      apply wp_cas
      intro s2 r2 i2 o2
      have ho2 : s2.ops C.t = .pending (.op op) := r2.ops.trans ho1
      have hs2 := hl.stk.mono i1.l r2.mono
      refine ⟨?_, fun hm => ?_⟩
      · simp only [Bool.false_eq_true, if_false]
        exact ih i2 ho2 (by simp) hs2 (fun _ => rfl)
      · have hi2 := r2.mono.info _ _ hl.info
        have hcont2 : s2.lv.cont p = some c := (i2.live hi2 hm hl.live).1
        have hf2 := LeafAt.found i2 hi2 hcont2 hl.range hb
        have hw := writeDelta_spec (cfg := cfg) hop hf2
        rw [hd] at hw
        have key : ∃ s3 : St K V, s3.toSh =
            { s2.toSh with mt := upd s2.mt p (some (Chain.push d c diff)) } ∧ Inv cfg s3 ∧
            GuarC C c (Chain.push d c diff) s2 s3 ∧ (Chain.push d c diff).high = c.high ∧
            (Chain.push d c diff).isRemoved = false ∧ s3.ops C.t = .done (.op op) (.res .success) ∧
            s3.own p = (if (Chain.push d c diff).needWait cfg then some C.t else none) ∧
            s3.mt p = some (Chain.push d c diff) := by
          rcases hw with ⟨ty, v, e1, e2, e3⟩ | ⟨e1, e2, e3, e4⟩
          · subst e1
            obtain ⟨j1, j2, j3, j4⟩ := i2.putRec (C := C) (ty := ty) (diff := diff) hc hp ho2
              e2 hi2 hm hl.live hl.nowait (hX p) hl.range
              (by
                rcases e3 with ⟨x1, x2, x3⟩ | ⟨x1, x2, x3⟩
                · refine Or.inl ⟨x1, ?_, x3⟩
                  cases ha : alook c.flatBody (opKey op) with
                  | none => rfl
                  | some y =>
                    have := hb.mpr (by rw [ha]; simp)
                    rw [x2] at this; cases this
                · exact Or.inr ⟨x1, hb.mp x2, x3⟩)
            have hrec : RecDelta c (Chain.push (putDelta ty (opKey op) v) c diff) := by
              refine ⟨_, rfl, rfl, ?_⟩
              rcases e3 with ⟨x1, _⟩ | ⟨x1, _⟩ <;> subst x1 <;> simp [putDelta]
            exact ⟨_, rfl, j1, ⟨j2, fun h => (h hrec).elim⟩, j3, j4, by simp [St.put, Spec.setOp], by simp [St.put],
              by simp [St.put]⟩
          · subst e1 e2
            obtain ⟨j1, j2, j3, j4⟩ := i2.delRec (C := C) hc.maxPos hp ho2
              e4 hi2 hm hl.live hl.nowait (hX p) hl.range (hb.mp e3)
            have hrec : RecDelta c (Chain.push (delDelta (opKey op)) c (-(cfg.entLen false (opKey op) : Int))) :=
              ⟨_, rfl, rfl, by simp [delDelta]⟩
            exact ⟨_, rfl, j1, ⟨j2, fun h => (h hrec).elim⟩, j3, j4, by simp [St.put, Spec.setOp], by simp [St.put],
              by simp [St.put]⟩
        obtain ⟨s3, k1, i3, g3, k2, k3, k4, k5, k6⟩ := key
        refine ⟨⟨hl.live, by rw [hi2]; simp⟩, s3, k1, i3, g3, ?_⟩
        simp only [if_true]
        split
        · apply wp_bind
          apply wp_frame (C := C) (D := { C with pure := true }) ⟨rfl, fun _ h => h, fun _ => rfl, rfl⟩
            (trySMOs_spec hc f { C with pure := true } _ _ _ _ i3
              (fun q hq => absurd hq (hX q)) ?_) i3
          · intro _ s4 _ kp _
            rw [wp_ret]
            exact (kp.ops rfl).trans k4
          · refine ⟨0, low, opKey op, g3.g.mono.info _ _ hi2, hs2.mono i2.l g3.g.mono, ?_, k3, ?_⟩
            · rw [k2]; exact hl.range
            · intro hw; rw [k5, hw]; exact ⟨rfl, k6⟩
        · exact k4

/-- The public point operations. -/
theorem runOp_spec (hc : CfgOK2 cfg) (hp : C.pure = false) (hX : ∀ q, ¬ C.X q) (f : Nat)
    {op : Spec.Op K V} (ho : s.ops C.t = .pending (.op op)) :
    wp cfg C (runOp cfg f op) (fun r s' => s'.ops C.t = .done (.op op) (.res r)) s := by
  apply wp_bind
  apply searchLeaf_spec
  intro s1 x r1 i1 hx hs
  have ho1 : s1.ops C.t = .pending (.op op) := r1.ops.trans ho
  cases op with
  | read k =>
    apply wp_bind
    exact readLoop_spec hp f i1 ho1 hx hs (fun _ => rfl)
  | write k v => exact writeLoop_spec hc rfl hp hX f i1 ho1 hx hs (fun _ => rfl)
  | insert k v => exact writeLoop_spec hc rfl hp hX f i1 ho1 hx hs (fun _ => rfl)
  | update k v => exact writeLoop_spec hc rfl hp hX f i1 ho1 hx hs (fun _ => rfl)
  | delete k => exact writeLoop_spec hc rfl hp hX f i1 ho1 hx hs (fun _ => rfl)

end BwTree
