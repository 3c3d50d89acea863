import Verif.Fix.FixLay
import Verif.Fix.DeltaImg
import Verif.Fix.SearchSim
import Verif.Bytes.VarSim

/-!
# The layout for fixed-length data implements the model (proofs)
-/

namespace BwTree.Fix

open Layout (Mem Enc Framed)
open Bytes (Lay LSmo LayOK SmoI HeadOK childRes pidBytes pidOf pidBytes_length pidOf_bytes
  removed_cons split_le size_le_two)

set_option linter.unusedSectionVars false

variable {K V : Type} [LinearOrder K] {cfg : Cfg K} {e : Enc K V} {P : FPar}

/-- The constants of the layout are those of the model, and a page ID in a record is the bytes of
the number. -/
structure FixPar (cfg : Cfg K) (e : Enc K V) (P : FPar) : Prop where
  enc : FEncOK cfg P e
  pids : ∀ p, e.pid p = pidBytes P.pid p
  thr : P.thr = cfg.thr
  maxDelta : P.maxDelta = cfg.maxDelta
  buf : cfg.buf = false

/-- Chains, nodes and unlinked deltas in bytes; all records inside their pages. -/
def ChI (P : FPar) (e : Enc K V) (ch : Chain K V) (b : BChain) : Prop := CImg P e ch b ∧ b.Boxed P

def NoI (P : FPar) (e : Enc K V) (n : Node K V) (nd : FNode) : Prop :=
  NImg P e n nd ∧ nd.InPage P P.c.page

def DeI (P : FPar) (e : Enc K V) (d : Delta K V) (x : FRec × BRef) : Prop :=
  DImg P e d d.ty x.1 ∧ (∀ n, d.pay = .node n → ∃ nd, x.2 = .node nd ∧ NImg P e n nd) ∧
    (∀ w, d.pay = .cell w → x.2 = .word w) ∧ ∀ nd, x.2 = .node nd → nd.InPage P P.c.page

theorem smoI_img {smo : SMO K V} {s : LSmo FNode} (h : SmoI (NoI P e) smo s) :
    SmoI (NImg P e) smo s := by
  cases smo <;> cases s <;> first | exact h.elim | exact h.1 | exact ⟨h.1.1, h.2.1⟩

theorem bound_of {h : Option K} {has : Bool} {bytes : Str} (hb : Bnd e h has bytes) :
    (if has then some bytes else none) = h.map e.key := by
  obtain ⟨h1, h2⟩ := hb
  cases h with
  | none => subst h1; rfl
  | some k => subst h1; rw [h2 k rfl]; rfl

/-- The fixed-length layout implements the model. -/
theorem fixLay_ok (hc : CfgOK2 cfg) (hp : FixPar cfg e P) :
    LayOK cfg e (fixLay P) (HeadOK cfg (256 ^ P.pid)) (ChI P e) (NoI P e) (DeI P e) where
  isLeaf := fun {ch b} h => by
    show (!BChain.inner b) = _
    rw [h.1.inner, Bool.not_not]
  isRemoved := fun {ch b} h => by
    have h := h.1
    cases ch <;> cases b <;> first | exact h.elim | rfl
  needWait := fun {ch b} h => by
    show (BChain.isDelta b && (decide (P.maxDelta ≤ BChain.cnt b) ||
      decide ((P.c.page : Int) < BChain.size b))) = _
    rw [h.1.isDelta, h.1.cnt, h.1.size, hp.maxDelta, ← hp.enc.page]; rfl
  needCons := fun {ch b} h => by
    show (BChain.isDelta b && (decide (P.thr ≤ BChain.cnt b) ||
      decide ((P.c.page : Int) < BChain.size b))) = _
    rw [h.1.isDelta, h.1.cnt, h.1.size, hp.thr, ← hp.enc.page]; rfl
  child := fun {ch b} h ho k cl hub => by
    show childRes (bChildStep P P.pid (e.key k) cl b) = _
    rw [bChildStep_sim hp.enc k cl h.1 hub]
    cases hr : childStep k cl ch with
    | child q =>
      show ChRes.child (pidOf (e.pid q)) = _
      rw [hp.pids, pidOf_bytes _ _ (ho.1 q (childStep_ids.1 hr))]
    | cell w => rfl
    | sibling q => rfl
    | removed => rfl
    | ub => rfl
  validate := fun {ch b} h k cl hub => bValidate_sim hp.enc k cl h.1 hub
  check := fun {ch b} h k hub => bKeyCheck_sim hp.enc k h.1 hub
  read := fun {ch b} h k hub => bRead_sim hp.enc k h.1 hub
  mergeStep := fun {ch b} h k sib hub => by
    have hm : BwTree.mergeStep cfg k sib ch = (mergeCheck k sib ch, sib) := by
      unfold BwTree.mergeStep; rw [if_neg (by rw [hp.buf]; decide)]
    rw [hm] at hub ⊢
    show (bMergeCheck P (e.key k) (sib.map e.key) b, sib.map e.key) = _
    rw [bMergeCheck_sim hp.enc k sib h.1 hub]
  leftmost := fun {ch b q} h ho hq => by
    show (BChain.leftmostChild P.c P.pid b).map pidOf = some q
    rw [leftmostChild_sim hp.enc h.1 hq, Option.map_some, hp.pids,
      pidOf_bytes _ _ (ho.1 q (leftmostChild_ids hq))]
  empty := fun m => ⟨empty_img hp.enc m, empty_box m⟩
  base := fun h => h
  mark := fun l => ⟨rfl, trivial⟩
  cons := fun {ch b smo} h ho ht m m' => by
    show ∃ s, (bTryConsolidate P m m' false b).map smoRes = some s ∧ _
    rcases ho.2 with hr | ⟨inner, low, hwf, hsz⟩
    · rw [removed_cons hr] at ht; cases ht
    · obtain ⟨bs, h1, h2, h3⟩ := bTryConsolidate_sim hp.enc hc.toCfgOK hwf h.1 m m' false
        (fun h => by cases h) (fun l r h => split_le hc hwf hsz h) ht
      refine ⟨smoRes bs, by rw [h1]; rfl, ?_⟩
      simp only [Bool.false_eq_true, if_false, Nat.mul_one] at h3
      cases smo with
      | consolidate n =>
        cases bs with
        | one mg pg =>
          cases mg
          · exact ⟨h2, h3.2⟩
          · exact h2.elim
        | two l r => exact h2.elim
      | merge n =>
        cases bs with
        | one mg pg =>
          cases mg
          · exact h2.elim
          · exact ⟨h2, h3.2⟩
        | two l r => exact h2.elim
      | split l r =>
        cases bs with
        | one mg pg => cases mg <;> exact h2.elim
        | two l r => exact ⟨⟨h2.1, h3.1.2⟩, h2.2, h3.2.2⟩
  okCons := fun {ch n} ho ht => by
    rcases ho.2 with hr | ⟨inner, low, hwf, hsz⟩
    · rw [removed_cons hr] at ht; cases ht
    · refine ⟨tryConsolidate_ids (P := fun q => q < 256 ^ P.pid) ht ho.1, Or.inr ⟨inner, low, ?_⟩⟩
      obtain ⟨_, t2, t3, t4⟩ := tryConsolidate_spec hc.toCfgOK hwf false
      by_cases hs : ch.size ≤ cfg.page
      · by_cases hm : ch.size ≤ cfg.minSize
        · rw [t2 rfl hs hm] at ht
          cases ht
          exact ⟨(consNode_wf hwf).1, hsz⟩
        · rw [t3 rfl hs hm] at ht; cases ht
      · obtain ⟨lr, x, rr, _, _, _, _, e⟩ := t4 rfl hs
        rw [e] at ht; cases ht
  scan := fun {ch b x} h ho bb eb hx hr m => by
    rcases ho.2 with hr' | ⟨inner, low, hwf, hsz⟩
    · rw [hr] at hr'; cases hr'
    · exact bScanOut_sim hp.enc hc.toCfgOK hwf h.1 m (size_le_two hc hsz) hx
  low := fun h => bound_of h.1.low
  high := fun h => bound_of h.1.high
  inner := fun h => h.1.inner
  cnt := fun h => h.1.cnt
  setNext := fun h p => ⟨setNext_img h.1 p, h.2⟩
  diff := fun h => nodeDiff_img hp.enc h.1
  entLen := fun i k => by
    show P.plen i + (e.key k).length = _
    unfold Cfg.entLen
    rw [hp.enc.klen, hp.enc.recLen, hp.enc.key]
    omega
  put := fun ty k v m => ⟨put_img m ty k v, fun n h => (by cases h), fun w h => (by cases h),
    fun nd h => (by cases h)⟩
  del := fun k m => ⟨del_img m k, fun n h => (by cases h), fun w h => (by cases h),
    fun nd h => (by cases h)⟩
  entry := fun {n b sep} h hl p m => by
    refine ⟨?_, fun n h => (by cases h), fun w h => (by cases h), fun nd h => (by cases h)⟩
    show DImg P e _ .insert (FRec.entry P m true (FNode.asRec b) (pidBytes P.pid p))
    rw [← hp.pids]
    exact entry_img m h.1 hl p
  idxDel := fun {n b dk} h hl w m => ⟨idxDel_img m h.1 hl w _, fun n h => (by cases h),
    fun w h => (by cases h; rfl), fun nd h => (by cases h)⟩
  mergeD := fun {n b dk} h hl m => ⟨merge_img m h.1 hl _,
    fun n h' => (by cases h'; exact ⟨b, rfl, h.1⟩), fun w h => (by cases h),
    fun nd h' => (by cases h'; exact h.2)⟩
  root := fun {sep hh rp d} h lp m => by
    show NoI P e _ (FNode.newRoot P.c m (pidBytes P.pid lp) d.1)
    rw [← hp.pids]
    have h1 := h.1.cell (sep, .child rp) (by simp [entryDelta]) rfl
    simp only [Enc.pay] at h1
    rw [hp.enc.pid] at h1
    have h2 := newRoot_img hp.enc m (lp := lp) h.1.key h1 (by have := hc.rootFits; omega)
    exact ⟨h2.1, h2.2.1⟩
  push := fun {d dd ch b} h hi diff => ⟨push_img h.1 hi.1 h.2.1 h.2.2.1 diff, h.2.2.2, hi.2⟩

end BwTree.Fix
