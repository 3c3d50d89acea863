import Verif.Bytes.VarLay
import Verif.Bytes.Bounds
import Verif.Bytes.Run
import Verif.Bytes.Pids
import Verif.Layout.DeltaImg
import Verif.Props.Structure

/-!
# The layout for variable-length data implements the model (proofs)
-/

namespace BwTree.Bytes

open Layout

set_option linter.unusedSectionVars false

variable {K V : Type} [LinearOrder K] {cfg : Cfg K} {e : Enc K V} {P : VPar}

theorem pidBytes_length : ∀ (w : Nat) (p : PID), (pidBytes w p).length = w
  | 0, _ => rfl
  | w + 1, p => by rw [pidBytes, List.length_cons, pidBytes_length w]

theorem pidOf_bytes : ∀ (w : Nat) (p : PID), p < 256 ^ w → pidOf (pidBytes w p) = p
  | 0, p, h => by
    have : p < 1 := h
    exact (Nat.lt_one_iff.1 this).symm
  | w + 1, p, h => by
    have h1 : p / 256 < 256 ^ w := by
      rw [Nat.div_lt_iff_lt_mul (by omega)]
      rwa [Nat.pow_succ] at h
    rw [pidBytes, pidOf, pidOf_bytes w _ h1, UInt8.toNat_ofNat']
    have := Nat.mod_add_div p 256
    show p % 2 ^ 8 + 256 * (p / 256) = p
    omega

/-- The constants of the layout are those of the model, and a page ID in a record is the bytes of
the number. -/
structure LayPar (cfg : Cfg K) (e : Enc K V) (P : VPar) : Prop where
  enc : EncOK cfg P.c P.lt e
  dlt : RecOK cfg P.dh
  pay : cfg.leafLen = 8 + P.pay
  pid : cfg.idxLen = 8 + P.pid
  pids : ∀ p, e.pid p = pidBytes P.pid p
  minSize : P.minSize = cfg.minSize
  thr : P.thr = cfg.thr
  maxDelta : P.maxDelta = cfg.maxDelta
  buf : cfg.buf = true

/-- A head: page IDs that a word can hold, well formed, not too long. -/
def HeadOK (cfg : Cfg K) (lim : Nat) (ch : Chain K V) : Prop :=
  (∀ q, ch.Ids q → q < lim) ∧ (ch.isRemoved = true ∨
    ∃ inner low, ChainWF cfg inner low ch ∧ ch.size ≤ cfg.page + slack cfg inner)

/-- The object of a delta that is not linked yet. -/
def DeltaI (c : VCfg) (e : Enc K V) (d : Delta K V) (x : VRec × BRef) : Prop :=
  DImg e d d.ty x.1 ∧ (∀ n, d.pay = .node n → ∃ pg, x.2 = .node pg ∧ NImg c e n pg) ∧
    (∀ w, d.pay = .cell w → x.2 = .word w)

theorem size_le_two (hc : CfgOK2 cfg) {inner : Bool} {ch : Chain K V}
    (h : ch.size ≤ cfg.page + slack cfg inner) : ch.size ≤ 2 * cfg.page := by
  have hlen := hc.toCfgOK.len inner
  have hmin := hc.min inner
  unfold slack at h
  rcases hc.var with hv | hv
  · omega
  · have := (hv inner).2
    omega

/-- Both halves of a split fit in a page. -/
theorem split_le (hc : CfgOK2 cfg) {inner : Bool} {low : Option K} {ch : Chain K V}
    (hwf : ChainWF cfg inner low ch) (hsz : ch.size ≤ cfg.page + slack cfg inner) {l r : Node K V}
    (h : tryConsolidate cfg false ch = some (.split l r)) : l.size ≤ cfg.page ∧ r.size ≤ cfg.page := by
  obtain ⟨_, t2, t3, t4⟩ := tryConsolidate_spec hc.toCfgOK hwf false
  have hmin := hc.min inner
  have hlen := hc.toCfgOK.len inner
  by_cases hs : ch.size ≤ cfg.page
  · by_cases hm : ch.size ≤ cfg.minSize
    · rw [t2 rfl hs hm] at h; cases h
    · rw [t3 rfl hs hm] at h; cases h
  · obtain ⟨lr, x, rr, h1, h2, h3, h4, e⟩ := t4 rfl hs
    rw [e] at h
    injection Option.some.inj h with hl hr
    have hmin' : (cfg.minSize : Int) ≤
        max (cfg.hdr + cfg.recLen inner) ((cfg.page - cfg.hdr) / 2) := by omega
    obtain ⟨g1, g2⟩ := split_fits hc.toCfgOK hwf hsz hmin' hc.minVar h1 h2 h3 h4
    subst hl; subst hr
    exact ⟨g1, g2⟩

theorem removed_cons {ch : Chain K V} (h : ch.isRemoved = true) (b : Bool) :
    tryConsolidate cfg b ch = none := by
  cases ch with
  | base n => cases h
  | removed l => rfl
  | delta d nx => cases h

theorem _root_.BwTree.Layout.EncOK.lenOpt {c : VCfg} {lt : Str → Str → Bool} (he : EncOK cfg c lt e) (hc : CfgOK2 cfg)
    (k : Option K) : (e.opt k).length ≤ cfg.maxKey := by
  cases k with
  | none => exact Nat.zero_le _
  | some k =>
    have h1 := he.klen k
    have h2 := hc.keys k
    show (e.key k).length ≤ _
    omega

/-- Chains, nodes and unlinked deltas in bytes; everything inside its object. -/
def ChI (cap : Nat) (P : VPar) (e : Enc K V) (ch : Chain K V) (b : BChain) : Prop :=
  CImg P.c e ch b ∧ b.Boxed P.c P.dh cap

def NoI (P : VPar) (e : Enc K V) (n : Node K V) (pg : VPage) : Prop :=
  NImg P.c e n pg ∧ pg.InPage P.c P.c.page

def DeI (cap : Nat) (P : VPar) (e : Enc K V) (d : Delta K V) (x : VRec × BRef) : Prop :=
  DeltaI P.c e d x ∧ x.1.InRec P.dh cap ∧ ∀ pg, x.2 = .node pg → pg.InPage P.c P.c.page

theorem bRead_ok (hp : LayPar cfg e P) {ch : Chain K V} {b : BChain} (h : CImg P.c e ch b) (k : K)
    (hub : readChain k ch ≠ .ub) : bRead P.lt P.c P.pay (e.key k) b = e.rd (readChain k ch) := by
  have := bRead_sim hp.enc k h hub
  rwa [show cfg.leafLen - 8 = P.pay by have := hp.pay; omega] at this

theorem smoI_img {smo : SMO K V} {s : LSmo VPage} (h : SmoI (NoI P e) smo s) :
    SmoI (NImg P.c e) smo s := by
  cases smo <;> cases s <;> first | exact h.elim | exact h.1 | exact ⟨h.1.1, h.2.1⟩

/-- The variable-length layout implements the model. -/
theorem varLay_ok (hc : CfgOK2 cfg) (hp : LayPar cfg e P) {cap : Nat}
    (hcap : CapOK P cfg.maxKey cap) :
    LayOK cfg e (varLay P) (HeadOK cfg (256 ^ P.pid)) (ChI cap P e) (NoI P e) (DeI cap P e) where
  isLeaf := fun {ch b} h => by
    show (!BChain.inner b) = _
    rw [h.1.inner, Bool.not_not]
  isRemoved := fun {ch b} h => by
    have h := h.1
    cases ch <;> cases b <;> first | exact h.elim | rfl
  needWait := fun {ch b} h => by
    show (BChain.isDelta b && (decide (P.maxDelta ≤ BChain.cnt b) ||
      decide ((P.c.page : Int) < BChain.size b))) = _
    rw [h.1.isDelta, h.1.cnt, h.1.size, hp.maxDelta, ← hp.enc.page]; rfl
  needCons := fun {ch b} h => by
    show (BChain.isDelta b && (decide (P.thr ≤ BChain.cnt b) ||
      decide ((P.c.page : Int) < BChain.size b))) = _
    rw [h.1.isDelta, h.1.cnt, h.1.size, hp.thr, ← hp.enc.page]; rfl
  child := fun {ch b} h ho k cl hub => by
    show childRes (bChildStep P.lt P.c P.pid (e.key k) cl b) = _
    have h1 := bChildStep_sim hp.enc k cl h.1 hub
    rw [show cfg.idxLen - 8 = P.pid by have := hp.pid; omega] at h1
    rw [h1]
    cases hr : childStep k cl ch with
    | child q =>
      show ChRes.child (pidOf (e.pid q)) = _
      rw [hp.pids, pidOf_bytes _ _ (ho.1 q (childStep_ids.1 hr))]
    | cell w => rfl
    | sibling q => rfl
    | removed => rfl
    | ub => rfl
  validate := fun {ch b} h k cl hub => bValidate_sim hp.enc k cl h.1 hub
  check := fun {ch b} h k hub => by
    have := bKeyCheck_sim hp.enc k h.1 hub
    rwa [show cfg.leafLen - 8 = P.pay by have := hp.pay; omega] at this
  read := fun {ch b} h k hub => bRead_ok hp h.1 k hub
  mergeStep := fun {ch b} h k sib hub => by
    have hm : ∀ s, BwTree.mergeStep cfg k s ch = ((mergeCheckB k s.isSome s ch).1,
        if s.isSome then (mergeCheckB k s.isSome s ch).2 else none) := fun s => by
      unfold BwTree.mergeStep; rw [if_pos hp.buf]
    rw [hm] at hub ⊢
    have h1 := bMergeCheck_sim hp.enc k sib.isSome sib h.1 hub
    show ((bMergeCheck P.lt P.c (e.key k) (sib.map e.key).isSome (sib.map e.key) b).1,
      if (sib.map e.key).isSome then
        (bMergeCheck P.lt P.c (e.key k) (sib.map e.key).isSome (sib.map e.key) b).2 else none) = _
    rw [Option.isSome_map, h1]
    cases sib <;> rfl
  leftmost := fun {ch b q} h ho hq => by
    show (BChain.leftmostChild P.c P.pid b).map pidOf = some q
    have h1 := leftmostChild_sim hp.enc h.1 hq
    rw [show cfg.idxLen - 8 = P.pid by have := hp.pid; omega] at h1
    rw [h1, Option.map_some, hp.pids, pidOf_bytes _ _ (ho.1 q (leftmostChild_ids hq))]
  empty := fun m => ⟨⟨rfl, rfl, congrArg Int.ofNat hp.enc.hdr.symm,
    fun i hi => absurd hi (Nat.not_lt_zero _), ⟨rfl, rfl, rfl⟩, ⟨rfl, rfl, rfl⟩, rfl⟩, empty_box hp.enc m⟩
  base := fun h => h
  mark := fun l => ⟨rfl, trivial⟩
  cons := fun {ch b smo} h ho ht m m' => by
    show ∃ s, (bTryConsolidate P.lt P.c P.minSize m m' false b).map smoRes = some s ∧ _
    rcases ho.2 with hr | ⟨inner, low, hwf, hsz⟩
    · rw [removed_cons hr] at ht; cases ht
    · obtain ⟨bs, h1, h2, h3⟩ := bTryConsolidate_sim hp.enc hc.toCfgOK hwf h.1 m m' false
        (fun h => by cases h) (fun l r h => split_le hc hwf hsz h) ht
      refine ⟨smoRes bs, by rw [hp.minSize, h1]; rfl, ?_⟩
      cases smo with
      | consolidate n =>
        cases bs with
        | one mg pg =>
          simp only [Bool.false_eq_true, if_false, Nat.mul_one] at h3
          cases mg
          · exact ⟨h2, h3.2⟩
          · exact h2.elim
        | two l r => exact h2.elim
      | merge n =>
        cases bs with
        | one mg pg =>
          simp only [Bool.false_eq_true, if_false, Nat.mul_one] at h3
          cases mg
          · exact h2.elim
          · exact ⟨h2, h3.2⟩
        | two l r => exact h2.elim
      | split l r =>
        cases bs with
        | one mg pg => cases mg <;> exact h2.elim
        | two l r =>
          simp only [Bool.false_eq_true, if_false, Nat.mul_one] at h3
          exact ⟨⟨h2.1, h3.1.2⟩, h2.2, h3.2.2⟩
  okCons := fun {ch n} ho ht => by
    rcases ho.2 with hr | ⟨inner, low, hwf, hsz⟩
    · rw [removed_cons hr] at ht; cases ht
    · refine ⟨?_, Or.inr ⟨inner, low, ?_⟩⟩
      · have := tryConsolidate_ids (P := fun q => q < 256 ^ P.pid) ht ho.1
        exact this
      · obtain ⟨_, t2, t3, t4⟩ := tryConsolidate_spec hc.toCfgOK hwf false
        by_cases hs : ch.size ≤ cfg.page
        · by_cases hm : ch.size ≤ cfg.minSize
          · rw [t2 rfl hs hm] at ht
            cases ht
            exact ⟨(consNode_wf hwf).1, hsz⟩
          · rw [t3 rfl hs hm] at ht; cases ht
        · obtain ⟨lr, x, rr, _, _, _, _, e⟩ := t4 rfl hs
          rw [e] at ht; cases ht
  scan := fun {ch b x} h ho bb eb hx hr m => by
    rcases ho.2 with hr' | ⟨inner, low, hwf, hsz⟩
    · rw [hr] at hr'; cases hr'
    · have := bScanOut_sim hp.enc hc.toCfgOK hwf h.1 m (size_le_two hc hsz) hx
      rw [show cfg.leafLen - 8 = P.pay by have := hp.pay; omega, ← hp.minSize] at this
      exact this
  low := fun {n b} h => bound_of hp.enc h.1.low
  high := fun {n b} h => bound_of hp.enc h.1.high
  inner := fun h => h.1.inner
  cnt := fun h => h.1.cnt
  setNext := fun h p => ⟨setNext_img h.1 p, h.2⟩
  diff := fun h => nodeDiff_img hp.enc h.1
  entLen := fun i k => by
    show metaLen + (if i = true then P.pid else P.pay) + (e.key k).length = _
    unfold Cfg.entLen Cfg.recLen
    rw [hp.enc.klen, hp.pay, hp.pid]
    cases i <;> rfl
  put := fun ty k v m => ⟨⟨put_img hp.enc hc.toCfgOK hp.dlt m ty k v, fun n h => (by cases h),
    fun w h => (by cases h)⟩, (put_box hcap m (hp.enc.lenOpt hc (some k)) (by
      have := hp.enc.val v; have := hp.pay; omega)).2, fun pg h => (by cases h)⟩
  del := fun k m => ⟨⟨del_img hp.enc hc.toCfgOK hp.dlt m k, fun n h => (by cases h),
    fun w h => (by cases h)⟩, (del_box hcap m (hp.enc.lenOpt hc (some k))).2, fun pg h => (by cases h)⟩
  entry := fun {n b sep} h hl p m => by
    refine ⟨⟨?_, fun n h => (by cases h), fun w h => (by cases h)⟩, (entry_box hcap m true
      (r := VPage.asRec b) (by rw [show (VPage.asRec b).low.keyLen.toNat = _ from h.1.low.1]; exact hp.enc.lenOpt hc _)
      (by rw [show (VPage.asRec b).high.keyLen.toNat = _ from h.1.high.1]; exact hp.enc.lenOpt hc _)
      (pidBytes_length ..)).2, fun pg h => (by cases h)⟩
    show DImg e _ .insert (VRec.entry P.dh m true (VPage.asRec b) (pidBytes P.pid p))
    rw [← hp.pids]
    exact entry_img hp.enc hc.toCfgOK hp.dlt m h.1 hl p
  idxDel := fun {n b dk} h hl w m => ⟨⟨(idxDel_img hp.enc hc.toCfgOK hp.dlt m h.1 hl w
    (by rw [pidBytes_length, hp.pid])).1, fun n h => (by cases h), fun w h => (by cases h; rfl)⟩,
    (idxDel_box hcap m
      (r := VPage.asRec b) (by rw [show (VPage.asRec b).low.keyLen.toNat = _ from h.1.low.1]; exact hp.enc.lenOpt hc _)
      (by rw [show (VPage.asRec b).high.keyLen.toNat = _ from h.1.high.1]; exact hp.enc.lenOpt hc _)
      (pidBytes_length ..)).2, fun pg h => (by cases h)⟩
  mergeD := fun {n b dk} h hl m => ⟨⟨merge_img hp.enc hc.toCfgOK hp.dlt m h.1 hl
    (by rw [Mem.length_read, hp.pid]), fun n h' => (by cases h'; exact ⟨b, rfl, h.1⟩),
    fun w h => (by cases h)⟩, (entry_box hcap m (VPage.inner b)
      (r := VPage.asRec b) (by rw [show (VPage.asRec b).low.keyLen.toNat = _ from h.1.low.1]; exact hp.enc.lenOpt hc _)
      (by rw [show (VPage.asRec b).high.keyLen.toNat = _ from h.1.high.1]; exact hp.enc.lenOpt hc _)
      (Mem.length_read ..)).2, fun pg h' => (by cases h'; exact h.2)⟩
  root := fun {sep hh rp d} h lp m => by
    show NoI P e _ (VPage.newRoot P.c m (pidBytes P.pid lp) d.1)
    rw [← hp.pids]
    have h1 := newRoot_img hp.enc m (lp := lp) (h.1.1.cell (sep, .child rp) (by simp [entryDelta]) rfl) (by
      have := hc.rootFits
      have := hc.keys sep
      show cfg.hdr + 2 * cfg.idxLen + cfg.klen sep ≤ cfg.page
      omega)
    exact ⟨h1.1, h1.2.1⟩
  push := fun {d dd ch b} h hi diff => ⟨push_img h.1.1 hi.1 h.1.2.1 h.1.2.2 diff, h.2.1, h.2.2, hi.2⟩

end BwTree.Bytes
