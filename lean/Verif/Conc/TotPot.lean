import Verif.Conc.TotSearch

/-!
# A potential for the structure modifications (helper lemmas)

Every page has a weight: how far it is from being split or merged.  A split and a merge pay for what
they do to the parent, so the modifications that one call starts come to an end.
-/

namespace BwTree

set_option linter.unusedSectionVars false

/-! ## Sums -/

/-- Sum of the first values. -/
def psum (f : Nat → Nat) : Nat → Nat
  | 0 => 0
  | n + 1 => psum f n + f n

theorem psum_congr {f g : Nat → Nat} {n : Nat} (h : ∀ q, q < n → g q = f q) : psum g n = psum f n := by
  induction n with
  | zero => rfl
  | succ n ih => rw [psum, psum, ih (fun q hq => h q (by omega)), h n (by omega)]

theorem psum_one {f g : Nat → Nat} {n p : Nat} (hp : p < n) (h : ∀ q, q < n → q ≠ p → g q = f q) :
    psum g n + f p = psum f n + g p := by
  induction n with
  | zero => omega
  | succ n ih =>
    simp only [psum]
    by_cases e : p = n
    · subst e
      have := psum_congr (f := f) (g := g) (n := p) (fun q hq => h q (by omega) (by omega))
      omega
    · have h1 := ih (by omega) (fun q hq => h q (by omega))
      have h2 := h n (by omega) (Ne.symm e)
      omega

theorem psum_two {f g : Nat → Nat} {n p r : Nat} (hp : p < n) (hr : r < n) (hne : p ≠ r)
    (h : ∀ q, q < n → q ≠ p → q ≠ r → g q = f q) :
    psum g n + f p + f r = psum f n + g p + g r := by
  have h1 := psum_one (f := f) (g := upd f p (g p)) hp (fun q _ hq => upd_ne _ _ hq)
  have h2 := psum_one (f := upd f p (g p)) (g := g) hr (fun q hq hqr => by
    by_cases e : q = p
    · subst e; rw [upd_same]
    · rw [upd_ne _ _ e]; exact h q hq e hqr)
  rw [upd_same] at h1
  rw [upd_ne _ _ (Ne.symm hne)] at h2
  omega

/-! ## Weights -/

/-- Requirements on the configuration: a page keeps away from the merge threshold after a split. -/
structure Roomy {K : Type} (cfg : Cfg K) : Prop where
  room : ∀ inner, max cfg.minSize cfg.hdr + cfg.idxLen + cfg.recLen inner + 5 * cfg.maxKey ≤
    (cfg.page - cfg.hdr) / 2
  thr : cfg.thr ≤ cfg.maxDelta

/-- Length of the longest index entry. -/
def Cfg.maxEnt {K : Type} (cfg : Cfg K) : Nat := cfg.idxLen + cfg.maxKey

/-- Size from which a page is not about to be merged. -/
def potM {K : Type} (cfg : Cfg K) : Nat :=
  max cfg.minSize cfg.hdr + cfg.maxEnt + 2 * cfg.maxKey + 1

/-- Price of a byte below. -/
def potB {K : Type} (cfg : Cfg K) : Nat := cfg.minSize - cfg.hdr + 1

/-- Weight of a page. -/
def wt {K : Type} (cfg : Cfg K) (del root : Bool) (n : Int) : Nat :=
  if del then (n - cfg.hdr).toNat + potB cfg * (2 * cfg.maxKey)
  else (n - potM cfg).toNat + if root then 0 else potB cfg * (potM cfg - n).toNat

variable {K V : Type} [LinearOrder K] {cfg : Cfg K}

theorem wt_add (r : Bool) (n : Int) (d : Nat) : wt cfg false r (n + d) ≤ wt cfg false r n + d := by
  have h1 : (n + d - potM cfg).toNat ≤ (n - potM cfg).toNat + d := by omega
  have h2 : potB cfg * (potM cfg - (n + d)).toNat ≤ potB cfg * (potM cfg - n).toNat :=
    Nat.mul_le_mul_left _ (by omega)
  cases r <;> simp [wt] <;> omega

theorem wt_sub (r : Bool) (n : Int) (d : Nat) :
    wt cfg false r (n - d) ≤ wt cfg false r n + potB cfg * d := by
  have h1 : (n - d - potM cfg).toNat ≤ (n - potM cfg).toNat := by omega
  have h2 : potB cfg * (potM cfg - (n - d)).toNat ≤ potB cfg * ((potM cfg - n).toNat + d) :=
    Nat.mul_le_mul_left _ (by omega)
  rw [Nat.mul_add] at h2
  cases r <;> simp [wt] <;> omega

theorem wt_big {r : Bool} {n : Int} (h : (potM cfg : Int) ≤ n) :
    wt cfg false r n = (n - potM cfg).toNat := by
  have : (potM cfg - n).toNat = 0 := by omega
  cases r <;> simp [wt, this]

theorem wt_root (n : Int) (r : Bool) : wt cfg false true n ≤ wt cfg false r n := by
  cases r <;> simp [wt]

/-- A page that is about to be merged pays for its index entry. -/
theorem wt_del {n : Int} (h1 : (cfg.hdr : Int) ≤ n) (h2 : n ≤ cfg.minSize) :
    wt cfg true false n + potB cfg * cfg.maxEnt + 1 ≤ wt cfg false false n := by
  have h3 : potB cfg * (cfg.maxEnt + 2 * cfg.maxKey + 1) ≤ potB cfg * (potM cfg - n).toNat :=
    Nat.mul_le_mul_left _ (by unfold potM; omega)
  rw [Nat.mul_add, Nat.mul_add] at h3
  have h4 : (n - cfg.hdr).toNat + 1 ≤ potB cfg := by unfold potB; omega
  simp only [wt, if_true, Bool.false_eq_true, if_false]
  omega

variable {E D : PID → Prop}
  {W : Nat → Prop} {fl : Nat → Option PID} {F G H : Nat} {low : Option K}
  {p q r rp lp tgt : PID} {s s' : St K V} {t : Nat} {key : K} {c : Chain K V}

/-- Weight of a page of a state. -/
def pot (cfg : Cfg K) (s : St K V) (q : Nat) : Nat :=
  match s.cont q with
  | none => 0
  | some c => wt cfg (decide (s.est q = .deleted)) (decide (q = s.root)) c.size

/-- The potential. -/
def Phi (cfg : Cfg K) (s : St K V) : Nat := psum (pot cfg s) (np s)

/-- The measure. -/
def Bnd (cfg : Cfg K) (s : St K V) : Nat := np s + s.nfam + 3 * Phi cfg s

theorem pot_congr (h1 : s'.cont q = s.cont q) (h2 : s'.est q = .deleted ↔ s.est q = .deleted)
    (h3 : s'.root = s.root) : pot cfg s' q = pot cfg s q := by
  unfold pot
  rw [h1, h3]
  simp only [h2]

theorem pot_some (h : s.cont q = some c) :
    pot cfg s q = wt cfg (decide (s.est q = .deleted)) (decide (q = s.root)) c.size := by
  unfold pot; rw [h]

theorem pot_live (h : s.cont q = some c) (hd : s.est q ≠ .deleted) :
    pot cfg s q = wt cfg false (decide (q = s.root)) c.size := by
  rw [pot_some h, decide_eq_false hd]

theorem pot_none (h : s.cont q = none) : pot cfg s q = 0 := by
  unfold pot; rw [h]

theorem Inv.lt_np (h : Inv cfg s) (hi : s.info p = some (F, low)) : (p : Nat) < np s := by
  by_contra hn
  have := (h.p.fresh p (Or.inl (Nat.le_of_not_lt hn))).2.1
  rw [hi] at this; cases this

theorem Inv.not_del (h : Inv cfg s) (hm : s.mt p = some c) (hr : c.isRemoved = false) :
    s.est p ≠ .deleted := by
  intro e
  obtain ⟨_, b, hb⟩ := h.p.del p e
  rw [hm] at hb; cases hb; cases hr

theorem Phi_one (hp : (p : Nat) < np s) (hn : np s' = np s)
    (h : ∀ q, q ≠ p → pot cfg s' q = pot cfg s q) :
    Phi cfg s' + pot cfg s p = Phi cfg s + pot cfg s' p := by
  unfold Phi; rw [hn]
  exact psum_one hp (fun q _ hq => h q hq)

theorem Phi_two (hp : (p : Nat) < np s) (hr : (r : Nat) < np s) (hne : p ≠ r) (hn : np s' = np s)
    (h : ∀ q, q ≠ p → q ≠ r → pot cfg s' q = pot cfg s q) :
    Phi cfg s' + pot cfg s p + pot cfg s r = Phi cfg s + pot cfg s' p + pot cfg s' r := by
  unfold Phi; rw [hn]
  exact psum_two hp hr hne (fun q _ hq hq' => h q hq hq')

/-! ## Steps -/

theorem put_cont {x : Nat × Option K} {c' : Chain K V} {est' : PID → Est} {m' : K → Option V}
    {ops' : Nat → Spec.OpSt K V} (hi : s.info p = some x) (hr' : c'.isRemoved = false) :
    (s.put cfg t p c' est' m' ops').cont = upd s.cont p (some c') :=
  congrArg Lv.cont (St.put_lv (cfg := cfg) (t := t) (est' := est') (m' := m') (ops' := ops') hi hr')

theorem Phi_put (hI : Inv cfg s) {c' : Chain K V} {est' : PID → Est} {m' : K → Option V}
    {ops' : Nat → Spec.OpSt K V} (hi : s.info p = some (F, low)) (hm : s.mt p = some c)
    (hr : c.isRemoved = false) (hr' : c'.isRemoved = false)
    (he : ∀ q, est' q = .deleted ↔ s.est q = .deleted) :
    Phi cfg (s.put cfg t p c' est' m' ops') + wt cfg false (decide (p = s.root)) c.size =
      Phi cfg s + wt cfg false (decide (p = s.root)) c'.size := by
  have hc := put_cont (cfg := cfg) (t := t) (est' := est') (m' := m') (ops' := ops') hi hr'
  have hd := hI.not_del hm hr
  have h1 := Phi_one (cfg := cfg) (s' := s.put cfg t p c' est' m' ops') (hI.lt_np hi) rfl
    (fun q hq => pot_congr (by rw [hc, upd_ne _ _ hq]) (he q) rfl)
  rw [pot_live (St.cont_live hi hm hr) hd,
    pot_live (s := s.put cfg t p c' est' m' ops') (c := c') (by rw [hc, upd_same])
      (fun e => hd ((he p).1 e))] at h1
  exact h1

theorem CfgOK.ent_le (hc : CfgOK cfg) (k : K) : cfg.entLen true k ≤ cfg.maxEnt := by
  have := hc.keys k
  show cfg.idxLen + cfg.klen k ≤ cfg.idxLen + cfg.maxKey
  omega

theorem Phi_putEntry (hc : CfgOK cfg) (hI : Inv cfg s) {sep : K} {hk : Option K} (hi : s.info p = some (G, low)) (hm : s.mt p = some c)
    (hr : c.isRemoved = false) (he : s.est rp = .unposted t) :
    Phi cfg (s.put cfg t p (Chain.push (entryDelta sep hk rp) c (cfg.entLen true sep))
      (upd s.est rp (.posted G)) s.m s.ops) ≤ Phi cfg s + cfg.maxEnt := by
  have h1 := Phi_put (t := t) (m' := s.m) (ops' := s.ops) (est' := upd s.est rp (.posted G))
    (c' := Chain.push (entryDelta sep hk rp) c (cfg.entLen true sep)) hI hi hm hr rfl (by
      intro q
      by_cases e : q = rp
      · subst e; rw [upd_same, he]; simp
      · rw [upd_ne _ _ e])
  have h2 := wt_add (cfg := cfg) (decide (p = s.root)) c.size (cfg.entLen true sep)
  have h3 := hc.ent_le sep
  change _ = Phi cfg s + wt cfg false _ (c.size + (cfg.entLen true sep : Nat)) at h1
  omega

theorem Phi_putCons (hI : Inv cfg s) {b : Bool} (hi : s.info p = some (F, low))
    (hm : s.mt p = some c) (hr : c.isRemoved = false) :
    Phi cfg (s.put cfg t p (.base (consNode b c c.size)) s.est s.m s.ops) = Phi cfg s := by
  have h1 := Phi_put (t := t) (m' := s.m) (ops' := s.ops) (est' := s.est)
    (c' := .base (consNode b c c.size)) hI hi hm hr rfl (fun q => Iff.rfl)
  change _ = Phi cfg s + wt cfg false _ c.size at h1
  omega

theorem Phi_putLeaf (hI : Inv cfg s) {c' : Chain K V} {m' : K → Option V} {ops' : Nat → Spec.OpSt K V}
    {d : Nat} (hi : s.info p = some (F, low)) (hm : s.mt p = some c) (hr : c.isRemoved = false)
    (hr' : c'.isRemoved = false) (hs : c.size - d ≤ c'.size ∧ c'.size ≤ c.size + d) :
    Phi cfg (s.put cfg t p c' s.est m' ops') ≤ Phi cfg s + (potB cfg + 1) * d := by
  have h1 := Phi_put (t := t) (m' := m') (ops' := ops') (est' := s.est) (c' := c') hI hi hm hr hr'
    (fun q => Iff.rfl)
  have h2 : wt cfg false (decide (p = s.root)) c'.size ≤
      wt cfg false (decide (p = s.root)) c.size + (potB cfg + 1) * d := by
    rw [Nat.add_mul, Nat.one_mul]
    by_cases e : c.size ≤ c'.size
    · have h2 := wt_add (cfg := cfg) (decide (p = s.root)) c.size (c'.size - c.size).toNat
      rw [show c.size + ((c'.size - c.size).toNat : Int) = c'.size by omega] at h2
      omega
    · have h2 := wt_sub (cfg := cfg) (decide (p = s.root)) c.size (c.size - c'.size).toNat
      rw [show c.size - ((c.size - c'.size).toNat : Int) = c'.size by omega] at h2
      have h3 : potB cfg * (c.size - c'.size).toNat ≤ potB cfg * d := Nat.mul_le_mul_left _ (by omega)
      omega
  omega

theorem Phi_doRemove (hI : Inv cfg s) {b b' : Bool} (hi : s.info p = some (F, low))
    (hm : s.mt p = some c) (hr : c.isRemoved = false) :
    Phi cfg (s.doRemove t p b (consNode b' c c.size)) = Phi cfg s := by
  have hc : (s.doRemove t p b (consNode b' c c.size)).cont =
      upd s.cont p (some (.base (consNode b' c c.size))) := congrArg Lv.cont (St.doRemove_lv hi)
  have h1 := Phi_one (cfg := cfg) (s' := s.doRemove t p b (consNode b' c c.size)) (hI.lt_np hi) rfl
    (fun q hq => pot_congr (by rw [hc, upd_ne _ _ hq]) Iff.rfl rfl)
  rw [pot_some (St.cont_live hi hm hr),
    pot_some (s := s.doRemove t p b (consNode b' c c.size)) (c := .base (consNode b' c c.size))
      (by rw [hc, upd_same])] at h1
  change _ = Phi cfg s + wt cfg (decide (s.est p = .deleted)) (decide (p = s.root)) c.size at h1
  omega

theorem Phi_undo {n : Node K V} (h : RemAt (solo t) s F low r n) :
    Phi cfg (s.undo r n) = Phi cfg s := by
  obtain ⟨b, hb⟩ := h.mt
  have hc : (s.undo r n).cont = s.cont := congrArg Lv.cont (St.undo_lv h.info hb h.pend)
  unfold Phi
  exact psum_congr (fun q _ => pot_congr (by rw [hc]) Iff.rfl rfl)

theorem Phi_kill {n : Node K V} (hI : Inv cfg s) (h : RemAt (solo t) s F low s.root n)
    {cq : Chain K V} (hq : s.cont q = some cq)
    (hdq : s.est q ≠ .deleted) (hne : q ≠ s.root) :
    Phi cfg (s.killRoot s.root q) ≤ Phi cfg s := by
  obtain ⟨b, hb⟩ := h.mt
  have hc : (s.killRoot s.root q).cont = upd s.cont s.root none :=
    congrArg Lv.cont (St.killRoot_lv h.info hb)
  obtain ⟨Fq, lq, hiq⟩ := hI.l.known q cq hq
  have h1 := Phi_two (cfg := cfg) (s' := s.killRoot s.root q) (hI.lt_np h.info) (hI.lt_np hiq)
    (Ne.symm hne) rfl (by
      intro x hx hx'
      unfold pot
      rw [hc, upd_ne _ _ hx]
      cases s.cont x with
      | none => rfl
      | some cx =>
        show wt cfg (decide (s.est x = .deleted)) (decide (x = q)) cx.size = _
        rw [decide_eq_false hx, decide_eq_false hx'])
  rw [pot_none (s := s.killRoot s.root q) (q := s.root) (by rw [hc, upd_same]),
    pot_live (s := s.killRoot s.root q) (q := q) (c := cq) (by rw [hc, upd_ne _ _ hne]; exact hq) hdq,
    pot_live hq hdq] at h1
  have h2 := wt_root (cfg := cfg) cq.size (decide (q = s.root))
  change _ = Phi cfg s + 0 + wt cfg false (decide (q = q)) cq.size at h1
  rw [decide_eq_true rfl] at h1
  omega

theorem Phi_putDel (hcf : CfgOK cfg) (hI : Inv cfg s) {dk : K} {hk : Option K} {w : Nat} {n : Node K V}
    (hi : s.info p = some (G, low)) (hm : s.mt p = some c) (hr : c.isRemoved = false)
    (hrem : RemAt (solo t) s F (some dk) r n) (hnd : s.est r ≠ .deleted)
    (hmin : n.size ≤ cfg.minSize) :
    Phi cfg (s.put cfg t p (Chain.push (deleteDelta dk hk w) c (-(cfg.entLen true dk : Int)))
      (upd s.est r .deleted) s.m s.ops) + 1 ≤ Phi cfg s := by
  have hc := put_cont (cfg := cfg) (s := s) (p := p) (t := t) (est' := upd s.est r .deleted)
    (m' := s.m) (ops' := s.ops) (c' := Chain.push (deleteDelta dk hk w) c (-(cfg.entLen true dk : Int))) hi rfl
  generalize hs' : s.put cfg t p (Chain.push (deleteDelta dk hk w) c (-(cfg.entLen true dk : Int)))
      (upd s.est r .deleted) s.m s.ops = s' at *
  have hpr : p ≠ r := by
    rintro rfl
    obtain ⟨b, hb⟩ := hrem.mt
    rw [hm] at hb; cases hb; cases hr
  have he : ∀ q, q ≠ r → s'.est q = s.est q := by
    intro q hq; subst hs'; exact upd_ne _ _ hq
  have her : s'.est r = .deleted := by subst hs'; exact upd_same _ _ _
  have hroot : s'.root = s.root := by subst hs'; rfl
  have hnp : np s' = np s := by subst hs'; rfl
  have hd := hI.not_del hm hr
  have h1 := Phi_two (cfg := cfg) (hI.lt_np hi) (hI.lt_np hrem.info) hpr hnp
    (fun q hq hq' => pot_congr (by rw [hc, upd_ne _ _ hq]) (by rw [he q hq']) hroot)
  have hrr : r ≠ s.root := by
    intro e
    obtain ⟨T, hT⟩ := hI.p.root
    rw [← e, hrem.info] at hT; cases hT
  rw [pot_live (St.cont_live hi hm hr) hd, pot_live hrem.cont hnd,
    pot_live (s := s') (q := p) (by rw [hc, upd_same]) (by rw [he p hpr]; exact hd),
    pot_some (s := s') (q := r) (by rw [hc, upd_ne _ _ (Ne.symm hpr)]; exact hrem.cont),
    her, hroot, decide_eq_false hrr, decide_eq_true (rfl : Est.deleted = .deleted)] at h1
  have h2 := wt_sub (cfg := cfg) (decide (p = s.root)) c.size (cfg.entLen true dk)
  have h3 := wt_del (cfg := cfg) (n := (Chain.base n).size)
    (hI.l.page r _ F _ hrem.cont hrem.info).wf.hdr_le hmin
  have h4 : potB cfg * cfg.entLen true dk ≤ potB cfg * cfg.maxEnt :=
    Nat.mul_le_mul_left _ (hcf.ent_le dk)
  change _ = _ + wt cfg false _ (c.size - (cfg.entLen true dk : Nat)) + _ at h1
  omega

theorem Phi_merge (hcf : CfgOK cfg) (hI : Inv cfg s) {dk : K} {n : Node K V}
    (hi : s.info p = some (F, low)) (hm : s.mt p = some c) (hr : c.isRemoved = false)
    (hrem : RemAt (solo t) s F (some dk) r n) (hd : s.est r = .deleted) (hpr : p ≠ r) :
    Phi cfg (s.doMerge cfg t p r (Chain.push (mergeDelta n dk) c (cfg.nodeDiff n))) ≤ Phi cfg s := by
  obtain ⟨b, hb⟩ := hrem.mt
  have hc : (s.doMerge cfg t p r (Chain.push (mergeDelta n dk) c (cfg.nodeDiff n))).cont =
      upd (upd s.cont p (some (Chain.push (mergeDelta n dk) c (cfg.nodeDiff n)))) r none :=
    congrArg Lv.cont (St.doMerge_lv (cfg := cfg) (t := t) hi hrem.info hb hpr rfl)
  generalize hs' : s.doMerge cfg t p r (Chain.push (mergeDelta n dk) c (cfg.nodeDiff n)) = s' at *
  have he : s'.est = s.est := by subst hs'; rfl
  have hroot : s'.root = s.root := by subst hs'; rfl
  have hnp : np s' = np s := by subst hs'; rfl
  have hdp := hI.not_del hm hr
  have h1 := Phi_two (cfg := cfg) (hI.lt_np hi) (hI.lt_np hrem.info) hpr hnp
    (fun q hq hq' => pot_congr (by rw [hc, upd_ne _ _ hq', upd_ne _ _ hq]) (by rw [he]) hroot)
  have hrr : r ≠ s.root := by
    intro e
    obtain ⟨T, hT⟩ := hI.p.root
    rw [← e, hrem.info] at hT; cases hT
  rw [pot_live (St.cont_live hi hm hr) hdp, pot_some hrem.cont,
    pot_live (s := s') (q := p) (by rw [hc, upd_ne _ _ hpr, upd_same]) (by rw [he]; exact hdp),
    pot_none (s := s') (q := r) (by rw [hc, upd_same]),
    hd, hroot, decide_eq_true (rfl : Est.deleted = .deleted)] at h1
  have h0 : (cfg.hdr : Int) ≤ n.size := (hI.l.page r _ F _ hrem.cont hrem.info).wf.hdr_le
  have h3 : wt cfg true (decide (r = s.root)) (Chain.base n).size =
      (n.size - cfg.hdr).toNat + potB cfg * (2 * cfg.maxKey) := rfl
  have h4 : cfg.nodeDiff n ≤ n.size - cfg.hdr ∧ -(2 * cfg.maxKey : Int) ≤ cfg.nodeDiff n := by
    have := hcf.olen_le n.low
    unfold Cfg.nodeDiff; split <;> omega
  have h5 : wt cfg false (decide (p = s.root)) (c.size + cfg.nodeDiff n) ≤
      wt cfg false (decide (p = s.root)) c.size +
        ((n.size - cfg.hdr).toNat + potB cfg * (2 * cfg.maxKey)) := by
    by_cases e : 0 ≤ cfg.nodeDiff n
    · have h2 := wt_add (cfg := cfg) (decide (p = s.root)) c.size (cfg.nodeDiff n).toNat
      rw [show ((cfg.nodeDiff n).toNat : Int) = cfg.nodeDiff n by omega] at h2
      omega
    · have h2 := wt_sub (cfg := cfg) (decide (p = s.root)) c.size (-cfg.nodeDiff n).toNat
      rw [show c.size - ((-cfg.nodeDiff n).toNat : Int) = c.size + cfg.nodeDiff n by omega] at h2
      have h6 : potB cfg * (-cfg.nodeDiff n).toNat ≤ potB cfg * (2 * cfg.maxKey) :=
        Nat.mul_le_mul_left _ (by omega)
      omega
  change _ = _ + wt cfg false _ (c.size + cfg.nodeDiff n) + _ at h1
  omega

/-- Both halves of a split are away from the merge threshold. -/
theorem split_big (hcf : CfgOK cfg) (hR : Roomy cfg) {inner : Bool} {c : Chain K V}
    (h : ChainWF cfg inner low c) (hsz : (cfg.page : Int) < c.size)
    {lr rr : List (K × Pay V)} {x : K × Pay V} (hlr : lr ≠ []) (hcat : lr ++ x :: rr = c.flat)
    (hsm : cfg.lsz inner c lr - (cfg.recLen inner + cfg.maxKey) ≤
      ((cfg.page - cfg.hdr) / 2 : Int) ∨ lr.length = 1)
    (hlg : ((cfg.page - cfg.hdr) / 2 : Int) < cfg.lsz inner c lr) :
    (potM cfg : Int) ≤ (splitL cfg inner c lr x.1 0).size ∧
    (potM cfg : Int) ≤ (splitR cfg inner c x rr).size ∧
    (splitL cfg inner c lr x.1 0).size + (splitR cfg inner c x rr).size ≤
      c.size + cfg.hdr + 2 * cfg.maxKey := by
  have hroom := hR.room inner
  have hs := h.cut_size hlr hcat
  have hlow := h.low_eq
  have e1 : (splitL cfg inner c lr x.1 0).size =
      cfg.lsz inner c lr + cfg.bnd inner c.low (some x.1) := rfl
  have e2 : (splitR cfg inner c x rr).size = cfg.hdr + cfg.recLen inner * (x :: rr).length +
      cfg.keyBytes (x :: rr) + cfg.bnd inner (some x.1) c.high := rfl
  have hk := hcf.olen_le low
  have hkx : cfg.olen (some x.1) ≤ cfg.maxKey := hcf.keys x.1
  have hb1 : (cfg.bnd inner low c.high : Int) ≤ cfg.bnd inner (some x.1) c.high + cfg.maxKey := by
    unfold Cfg.bnd; cases inner <;> simp <;> omega
  have hb2 : (cfg.bnd inner low (some x.1) : Int) + cfg.bnd inner (some x.1) c.high ≤
      cfg.bnd inner low c.high + 2 * cfg.maxKey := by
    unfold Cfg.bnd; cases inner <;> simp <;> omega
  rw [hlow] at e1
  have hsm' : cfg.lsz inner c lr - (cfg.recLen inner + cfg.maxKey) ≤
      ((cfg.page - cfg.hdr) / 2 : Int) := by
    rcases hsm with hsm | hsm
    · exact hsm
    · obtain ⟨a, e⟩ := List.length_eq_one_iff.1 hsm
      subst e
      have := hcf.keys a.1
      unfold Cfg.lsz
      cases hp : c.pre.length with
      | zero => simp [Cfg.keyBytes]; omega
      | succ m => simp [Cfg.keyBytes]; omega
  unfold potM Cfg.maxEnt
  push_cast at *
  refine ⟨?_, ?_, ?_⟩ <;> omega

theorem Phi_split {nl nr : Node K V} {sep : K} (hI : Inv cfg s)
    (hi : s.info p = some (F, low))
    (hm : s.mt p = some c) (hr : c.isRemoved = false) (hbig : (potM cfg : Int) ≤ c.size)
    (h1 : (potM cfg : Int) ≤ nl.size) (h2 : (potM cfg : Int) ≤ nr.size)
    (h3 : nl.size + nr.size ≤ c.size + cfg.hdr + 2 * cfg.maxKey) :
    Phi cfg (St.doSplit { s with
      npid := s.npid + 1, own := upd s.own s.npid (some t),
      mt := upd s.mt s.npid (some (.base nr)) } t F sep p s.npid (.base nl)) + cfg.maxEnt + 1 ≤ Phi cfg s := by
  have hfr := hI.p.fresh s.npid (Or.inl (Nat.le_refl _))
  have hpne : p ≠ s.npid := by
    intro e
    rw [e, hfr.2.1] at hi; cases hi
  have hc0 : St.cont { s with
      npid := s.npid + 1, own := upd s.own s.npid (some t),
      mt := upd s.mt s.npid (some (.base nr)) } = s.cont := by
    have := congrArg Lv.cont (St.stage_lv (s := { s with
      npid := s.npid + 1, own := upd s.own s.npid (some t) }) (c := .base nr) hfr.2.1)
    exact this
  have hc : (St.doSplit { s with
      npid := s.npid + 1, own := upd s.own s.npid (some t),
      mt := upd s.mt s.npid (some (.base nr)) } t F sep p s.npid (.base nl)).cont =
      upd (upd s.cont p (some (.base nl))) s.npid (some (.base nr)) := by
    have := congrArg Lv.cont (St.doSplit_lv (s := { s with
      npid := s.npid + 1, own := upd s.own s.npid (some t),
      mt := upd s.mt s.npid (some (.base nr)) }) (t := t) (F := F) (sep := sep) (nl := nl) (nr := nr)
      (r := s.npid) hi hfr.2.1 (upd_same _ _ _))
    rw [← hc0]
    exact this
  generalize hs' : St.doSplit _ t F sep p s.npid _ = s' at *
  have he : ∀ q, q ≠ s.npid → s'.est q = s.est q := by
    intro q hq; subst hs'; exact upd_ne _ _ hq
  have her : s'.est s.npid = .unposted t := by subst hs'; exact upd_same _ _ _
  have hroot : s'.root = s.root := by subst hs'; rfl
  have hnp : np s' = np s + 1 := by subst hs'; rfl
  have hd := hI.not_del hm hr
  have hlt := hI.lt_np hi
  have e1 : Phi cfg s' = psum (pot cfg s') (np s) + pot cfg s' s.npid := by
    unfold Phi; rw [hnp]; rfl
  have e2 : psum (pot cfg s') (np s) + pot cfg s p = psum (pot cfg s) (np s) + pot cfg s' p := by
    refine psum_one hlt (fun q hq hqp => ?_)
    have hqn : q ≠ s.npid := Nat.ne_of_lt hq
    exact pot_congr (by rw [hc, upd_ne _ _ hqn, upd_ne _ _ hqp]) (by rw [he q hqn]) hroot
  rw [pot_live (St.cont_live hi hm hr) hd, wt_big hbig,
    pot_live (s := s') (q := p) (c := .base nl) (by rw [hc, upd_ne _ _ hpne, upd_same])
      (by rw [he p hpne]; exact hd), wt_big (n := (Chain.base nl).size) h1] at e2
  rw [pot_live (s := s') (q := s.npid) (c := .base nr) (by rw [hc, upd_same])
      (by rw [her]; simp), wt_big (n := (Chain.base nr).size) h2] at e1
  have e3 : Phi cfg s = psum (pot cfg s) (np s) := rfl
  change _ + _ = _ + (nl.size - potM cfg).toNat at e2
  change _ = _ + (nr.size - potM cfg).toNat at e1
  unfold potM at *
  push_cast at *
  omega

theorem Phi_grow {sep : K} (hcf : CfgOK cfg) (hI : Inv cfg s) (hl : s.info s.root = some (F, low))
    (hrt : s.cont s.root = some c) (hd : s.est s.root ≠ .deleted) (hbig : (potM cfg : Int) ≤ c.size)
    (he : s.est rp = .unposted t) :
    Phi cfg (St.growRoot { s with
      npid := s.npid + 1, own := upd s.own s.npid (some t),
      mt := upd s.mt s.npid (some (.base (newRoot cfg sep s.root rp))) } F s.npid rp
      (.base (newRoot cfg sep s.root rp))) ≤ Phi cfg s + cfg.maxEnt := by
  have hfr := hI.p.fresh s.npid (Or.inl (Nat.le_refl _))
  have hpne : s.root ≠ s.npid := by
    intro e
    rw [e, hfr.2.1] at hl; cases hl
  have hc0 : St.cont { s with
      npid := s.npid + 1, own := upd s.own s.npid (some t),
      mt := upd s.mt s.npid (some (.base (newRoot cfg sep s.root rp))) } = s.cont := by
    have := congrArg Lv.cont (St.stage_lv (s := { s with
      npid := s.npid + 1, own := upd s.own s.npid (some t) })
      (c := .base (newRoot cfg sep s.root rp)) hfr.2.1)
    exact this
  have hc : (St.growRoot { s with
      npid := s.npid + 1, own := upd s.own s.npid (some t),
      mt := upd s.mt s.npid (some (.base (newRoot cfg sep s.root rp))) } F s.npid rp
      (.base (newRoot cfg sep s.root rp))).cont =
      upd s.cont s.npid (some (.base (newRoot cfg sep s.root rp))) := by
    have := congrArg Lv.cont (St.pubRoot_lv (s := { s with
      npid := s.npid + 1, own := upd s.own s.npid (some t),
      mt := upd s.mt s.npid (some (.base (newRoot cfg sep s.root rp))) }) (F := F) (np := s.npid)
      (rp := rp) (n := newRoot cfg sep s.root rp))
    rw [← hc0]
    exact this
  generalize hs' : St.growRoot _ F s.npid rp _ = s' at *
  have hest : ∀ q, s'.est q = .deleted ↔ s.est q = .deleted := by
    intro q; subst hs'
    show upd s.est rp _ q = _ ↔ _
    by_cases e : q = rp
    · subst e; rw [upd_same, he]; simp
    · rw [upd_ne _ _ e]
  have hroot : s'.root = s.npid := by subst hs'; rfl
  have hnp : np s' = np s + 1 := by subst hs'; rfl
  have hlt := hI.lt_np hl
  have e1 : Phi cfg s' = psum (pot cfg s') (np s) + pot cfg s' s.npid := by
    unfold Phi; rw [hnp]; rfl
  have e2 : psum (pot cfg s') (np s) + pot cfg s s.root = psum (pot cfg s) (np s) + pot cfg s' s.root := by
    refine psum_one hlt (fun q hq hqp => ?_)
    have hqn : q ≠ s.npid := Nat.ne_of_lt hq
    unfold pot
    rw [hc, upd_ne _ _ hqn]
    cases s.cont q with
    | none => rfl
    | some cx =>
      simp only [hest q, hroot]
      rw [decide_eq_false (p := q = s.npid) hqn, decide_eq_false (p := q = s.root) hqp]
  rw [pot_live hrt hd, wt_big hbig,
    pot_live (s := s') (q := s.root) (c := c) (by rw [hc, upd_ne _ _ hpne]; exact hrt)
      (fun e => hd ((hest _).1 e)), wt_big hbig] at e2
  have hks := hcf.keys sep
  have e4 : pot cfg s' s.npid ≤ cfg.maxEnt := by
    rw [pot_live (s := s') (q := s.npid) (by rw [hc, upd_same]) (by
      intro e
      obtain ⟨h1, _⟩ := hI.p.del _ ((hest _).1 e)
      exact h1 hfr.2.1), hroot, decide_eq_true rfl]
    simp only [wt, Bool.false_eq_true, if_false, if_true]
    show ((cfg.hdr + 2 * cfg.idxLen + cfg.klen sep : Int) - potM cfg).toNat + 0 ≤ _
    unfold potM Cfg.maxEnt
    push_cast
    omega
  have e3 : Phi cfg s = psum (pot cfg s) (np s) := rfl
  omega

end BwTree
