import Verif.Props.Bytes
import Verif.Props.Layout

/-!
# Trees on bytes stay inside their pages
-/

namespace BwTree.Props

open Layout Bytes

set_option linter.unusedSectionVars false

variable {P : VPar} {mk : Nat}

/-- Delta records fit in delta pages: the condition of C50, with page IDs of eight bytes. -/
structure DeltasFit (P : VPar) (mk : Nat) : Prop where
  pid : P.pid = 8
  cap : vDeltaCap P.dh mk P.pay < 65536
  fit : ∀ d, KeysLE mk d → vDeltaEnd P.dh P.pay d ≤ vDeltaCap P.dh mk P.pay

theorem DeltasFit.ok (h : DeltasFit P mk) (hP : P.OK mk) :
    CapOK P mk (vDeltaCap P.dh mk P.pay) where
  lim := h.cap
  put := h.fit (.put mk) (Nat.le_refl mk)
  entry := by
    have := h.fit (.entry mk mk) ⟨Nat.le_refl mk, Nat.le_refl mk⟩
    rw [h.pid]
    simp only [vDeltaEnd] at this
    omega
  idx := fun l hl => by
    have := h.fit (.idxDel l mk) ⟨hl, Nat.le_refl mk⟩
    have h1 := hP.idx
    have h2 : P.dh + l ≤ alignUp 3 (P.dh + l) := by
      rw [alignUp_eq 3 _ (by decide) (by omega)]; omega
    rw [h.pid]
    simp only [vDeltaEnd] at this
    omega

section
variable [LinearOrder (KStr mk)]

/-! ## C63: bytes are read and written inside pages -/

/-- In every execution on bytes, what the metadata of the objects in the mapping table refers to
(records, low and high keys, keys and payloads of delta records, nodes to be merged) lies behind the
header and the metadata of the object, and inside its page.  Partial: executions stop at the events of
`Flag`; the delta records fit in their pages (C50). -/
theorem C63_reads_partial (hP : P.OK mk) (hfit : DeltasFit P mk)
    (hlt : ∀ a b : KStr mk, P.lt a.1 b.1 = decide (a < b)) {m : Mem}
    {h : List (Spec.Event Str Str)} {B : BSys (varLay P)}
    (hr : BRun (varLay P) (okCall P mk) (bstart (varLay P) m) h B)
    (hlim : B.sh.npid ≤ 256 ^ P.pid) {p : PID} {hd : Head BChain} (hm : B.sh.mt p = some hd) :
    BChain.Boxed P.c P.dh (vDeltaCap P.dh mk P.pay) hd.ch := by
  obtain ⟨h', hist, S, h1, h2, h3⟩ :=
    bytes_refine (vpar_cfg hP) (vpar_lay hP hlt) (hfit.ok hP) okCall_enc hr hlim
  exact (h3.sh.head p hd hm).2.2.2

/-- In every execution on bytes, consolidation of a node succeeds and leaves the bytes of its pages
unchanged before the end of the header and behind the end of the page; so does consolidation for a scan,
into the page of double size of the thread.  Partial: executions stop at the events of `Flag`. -/
theorem C63_consolidation_writes_partial (hP : P.OK mk)
    (hlt : ∀ a b : KStr mk, P.lt a.1 b.1 = decide (a < b)) {m : Mem}
    {h : List (Spec.Event Str Str)} {B : BSys (varLay P)}
    (hr : BRun (varLay P) (okCall P mk) (bstart (varLay P) m) h B)
    (hlim : B.sh.npid ≤ 256 ^ P.pid) {p : PID} {hd : Head BChain} (hm : B.sh.mt p = some hd)
    (hl : (varLay P).isRemoved hd.ch = false) (m1 m2 : Mem) (scan : Bool) :
    ∃ bs, bTryConsolidate P.lt P.c P.minSize m1 m2 scan hd.ch = some bs ∧
      SFrame P.c (P.c.page * (if scan then 2 else 1)) m1 m2 bs := by
  have hc := vpar_cfg hP
  have hp := vpar_lay hP hlt
  have hL := varLay_ok hc hp (vpar_cap hP)
  obtain ⟨h', hist, S, h1, h2, h3⟩ := bytes_refine hc hp (vpar_cap hP) okCall_enc hr hlim
  obtain ⟨h4, h5, h6⟩ := h3.sh.head p hd hm
  have hrem := hL.isRemoved h6
  rw [hl] at hrem
  obtain ⟨_, _, _, f4, n, f5, _⟩ := C22_nodes_fit_partial hc ⟨_, _, .empty, h2⟩ h5 hrem.symm
  rcases (slots_ok hc .empty h2 (h3.sh.npid ▸ hlim) p _ h5).2 with hx | ⟨inner, low, hwf, hsz⟩
  · rw [← hrem] at hx; cases hx
  · have hcons : ∃ smo, tryConsolidate (P.cfg mk) scan (hist hd.id) = some smo := by
      cases scan with
      | true => exact ⟨_, f5⟩
      | false => exact Option.ne_none_iff_exists'.1 f4
    obtain ⟨smo, ht⟩ := hcons
    obtain ⟨bs, g1, _, g2⟩ := bTryConsolidate_sim hp.enc hc.toCfgOK hwf h6.1 m1 m2 scan
      (fun _ => size_le_two hc hsz) (fun l r h => by
        cases scan with
        | true => rw [f5] at h; cases h
        | false => exact split_le hc hwf hsz h) ht
    exact ⟨bs, g1, g2⟩

end

/-- The delta records of reads, writes and structure modifications leave the bytes of their pages
unchanged before the end of the header and behind the end of the page. -/
theorem C63_delta_writes (hP : P.OK mk) (hfit : DeltasFit P mk) (old : Mem) :
    (∀ k v : Str, k.length ≤ mk → v.length = P.pay →
      Framed P.dh (vDeltaCap P.dh mk P.pay) old (VRec.put P.dh old k v).mem) ∧
    (∀ k : Str, k.length ≤ mk →
      Framed P.dh (vDeltaCap P.dh mk P.pay) old (VRec.del P.dh old k).mem) ∧
    ∀ (r : VRec) (word : Str), r.low.keyLen.toNat ≤ mk → r.high.keyLen.toNat ≤ mk →
      word.length = P.pid →
      (∀ inner, Framed P.dh (vDeltaCap P.dh mk P.pay) old (VRec.entry P.dh old inner r word).mem) ∧
      Framed P.dh (vDeltaCap P.dh mk P.pay) old (VRec.idxDel P.dh old r word).mem :=
  ⟨fun _ _ h1 h2 => (put_box (hfit.ok hP) old h1 h2).1, fun _ h1 => (del_box (hfit.ok hP) old h1).1,
    fun _ _ h1 h2 h3 => ⟨fun inner => (entry_box (hfit.ok hP) old inner h1 h2 h3).1,
      (idxDel_box (hfit.ok hP) old h1 h2 h3).1⟩⟩

/-- A new root is written inside its page. -/
theorem C63_root_writes (hP : P.OK mk) (old : Mem) (left : Str) (hl : left.length = P.pid) (d : VRec)
    (hk : d.low.keyLen.toNat ≤ mk) :
    Framed P.c.hdr P.c.page old (VPage.newRoot P.c old left d).mem := by
  have h1 := hP.root
  have hml : metaLen = 8 := rfl
  have elen : ∀ m, (encMeta m).length = 8 := fun _ => rfl
  have plen : (d.pay left.length).length = left.length := Mem.length_read ..
  refine (((((Framed.refl _ _ _).write ?_ ?_).write ?_ ?_).write ?_ ?_).write ?_ ?_).write ?_ ?_ <;>
    (try simp only [elen, plen, Mem.length_read]) <;> omega

/-! ### Examples -/

theorem exPar_fit : DeltasFit exPar 8 where
  pid := rfl
  cap := by decide +kernel
  fit := (C50_varlen_deltas_fit_partial 32 8 8 (by decide) (by decide)).2 (by decide)

example : ∃ h B, BRun (varLay exPar) (okCall exPar 8) (bstart (varLay exPar) fun _ => 7) h B ∧
    ∃ hd, B.sh.mt 1 = some hd ∧ BChain.isDelta hd.ch = true ∧
      BChain.Boxed exPar.c 32 64 hd.ch ∧ ∀ scan, ∃ bs,
        bTryConsolidate lexLt exPar.c 48 (fun _ => 7) (fun _ => 9) scan hd.ch = some bs ∧
          SFrame exPar.c (272 * (if scan then 2 else 1)) (fun _ => 7) (fun _ => 9) bs := by
  obtain ⟨h, B, h1, _, h2, hd, h3, h4, h5⟩ := strCalls_run
  simp only [Lay.liveLeaf, Bool.and_eq_true, Bool.not_eq_true'] at h4
  refine ⟨h, B, h1, hd, h3, h5, ?_, fun scan => ?_⟩
  · have := C63_reads_partial exPar_ok exPar_fit exPar_lt h1 h2 h3
    rwa [show vDeltaCap exPar.dh 8 exPar.pay = 64 by decide +kernel] at this
  · exact C63_consolidation_writes_partial exPar_ok exPar_lt h1 h2 h3 h4.2 _ _ scan

/-- Without the condition of C50 the bytes behind the page change: an index-delete record with two
keys of twelve bytes writes byte 67 of a page of 64 bytes. -/
theorem C63_false : let r : VRec := ⟨true, fun _ => 5, .mk' 32 12 12, .mk' 44 12 12, 0, 0⟩
    (VRec.idxDel 32 (fun _ => 0) r (List.replicate 8 0)).mem 67 = 5 ∧ vDeltaCap 32 12 8 = 64 ∧
    ¬ Framed 32 64 (fun _ => 0) (VRec.idxDel 32 (fun _ => 0) r (List.replicate 8 0)).mem := by
  have h : (VRec.idxDel 32 (fun _ => 0) ⟨true, fun _ => 5, .mk' 32 12 12, .mk' 44 12 12, 0, 0⟩
    (List.replicate 8 0)).mem 67 = 5 := by decide +kernel
  refine ⟨h, by decide +kernel, fun hf => ?_⟩
  have := hf 67 (Or.inr (by decide))
  rw [h] at this
  exact absurd this (by decide)

end BwTree.Props
