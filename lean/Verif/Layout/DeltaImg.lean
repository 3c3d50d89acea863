import Verif.Layout.Cons
import Verif.Conc.Code

/-!
# The constructors of delta records and nodes write what the model says (proofs)
-/

namespace BwTree.Layout

open Util (Metadata)

variable {K V : Type} [LinearOrder K] {cfg : Cfg K} {c : VCfg} {lt : List UInt8 → List UInt8 → Bool}
  {e : Enc K V}

set_option linter.unusedSectionVars false

/-- The longest delta record has offsets of 16 bits; `dh` is `sizeof(DeltaRecord)`. -/
structure RecOK (cfg : Cfg K) (dh : Nat) : Prop where
  leaf : dh + cfg.maxKey + cfg.leafLen < 65536
  idx : dh + 8 + 2 * cfg.maxKey + cfg.idxLen < 65536

theorem EncOK.keylen (he : EncOK cfg c lt e) (hc : CfgOK cfg) (k : K) :
    (e.key k).length ≤ cfg.maxKey := by rw [← he.klen]; exact hc.keys k

theorem EncOK.optlen (he : EncOK cfg c lt e) (hc : CfgOK cfg) (k : Option K) :
    (e.opt k).length ≤ cfg.maxKey := by
  cases k with
  | none => exact Nat.zero_le _
  | some k => exact he.keylen hc k

theorem put_img (he : EncOK cfg c lt e) (hc : CfgOK cfg) {dh : Nat} (hd : RecOK cfg dh) (old : Mem)
    (ty : DType) (k : K) (v : V) :
    DImg e (putDelta ty k v) ty (VRec.put dh old (e.key k) (e.val v)) := by
  have h1 := he.keylen hc k
  have h2 := he.val v
  have h3 := hd.leaf
  have hr : RecAt (VRec.put dh old (e.key k) (e.val v)).mem (VRec.put dh old (e.key k) (e.val v)).low
      (e.key k) (e.val v) := by
    refine RecAt.mk (mk'_keyLen (by omega)) (mk'_recLen (by omega)) ?_ ?_
    · show ((old.write dh (e.key k)).write (dh + (e.key k).length) (e.val v)).read
        (Metadata.mk' dh _ _).offset.toNat _ = _
      rw [mk'_offset (by omega), Mem.read_write_of_disj (Or.inl (Nat.le_refl _)),
        Mem.read_write_self]
    · show ((old.write dh (e.key k)).write (dh + (e.key k).length) (e.val v)).read
        ((Metadata.mk' dh _ _).offset.toNat + _) _ = _
      rw [mk'_offset (by omega), Mem.read_write_self]
  refine ⟨rfl, rfl, rfl, rfl, ⟨hr.1, hr.key⟩, ?_, ⟨rfl, rfl, rfl⟩⟩
  intro x _ hx
  cases hx
  exact hr

theorem del_img (he : EncOK cfg c lt e) (hc : CfgOK cfg) {dh : Nat} (hd : RecOK cfg dh) (old : Mem)
    (k : K) : DImg e (delDelta (V := V) k) .delete (VRec.del dh old (e.key k)) := by
  have h1 := he.keylen hc k
  have h3 := hd.leaf
  have hr : RecAt (VRec.del dh old (e.key k)).mem (VRec.del dh old (e.key k)).low (e.key k) [] :=
    RecAt.fresh (by omega) (by omega)
  exact ⟨rfl, rfl, rfl, rfl, ⟨hr.1, hr.key⟩, fun x h => absurd rfl h, ⟨rfl, rfl, rfl⟩⟩

/-- The bytes of an entry or merge delta. -/
theorem entry_at (he : EncOK cfg c lt e) (hc : CfgOK cfg) {dh : Nat} (hd : RecOK cfg dh) (old : Mem)
    (inner : Bool) {r : VRec} {k : K} {h : Option K} {word : List UInt8}
    (hl : RecAt r.mem r.low (e.key k) []) (hh : RecAt r.mem r.high (e.opt h) [])
    (hw : 8 + word.length = cfg.idxLen) :
    RecAt (VRec.entry dh old inner r word).mem (VRec.entry dh old inner r word).low (e.key k) word ∧
      RecAt (VRec.entry dh old inner r word).mem (VRec.entry dh old inner r word).high (e.opt h) [] := by
  have h1 := he.keylen hc k
  have h2 := he.optlen hc h
  have h3 := hd.idx
  have hk : r.low.keyLen.toNat = (e.key k).length := hl.1
  have hhk : r.high.keyLen.toNat = (e.opt h).length := hh.1
  have e1 := hl.key
  have e2 := hh.key
  unfold VRec.entry
  simp only [e1, e2]
  simp only [hk, hhk]
  refine ⟨RecAt.mk (mk'_keyLen (by omega)) (mk'_recLen (by omega)) ?_ ?_, RecAt.fresh (by omega) (by omega)⟩
  · rw [mk'_offset (by omega), Mem.read_write_of_disj (Or.inl (by omega)),
      Mem.read_write_of_disj (Or.inl (Nat.le_refl _)), Mem.read_write_self]
  · rw [mk'_offset (by omega), Mem.read_write_of_disj (Or.inl (Nat.le_refl _)), Mem.read_write_self]

theorem entry_img (he : EncOK cfg c lt e) (hc : CfgOK cfg) {dh : Nat} (hd : RecOK cfg dh) (old : Mem)
    {n : Node K V} {pg : VPage} (hn : NImg c e n pg) {sep : K} (hl : n.low = some sep) (p : PID) :
    DImg e (entryDelta (V := V) sep n.high p) .insert
      (VRec.entry dh old true pg.asRec (e.pid p)) := by
  have h1 := hn.low
  rw [hl] at h1
  have h2 := he.pid p
  obtain ⟨r1, r2⟩ := entry_at he hc hd old true (r := pg.asRec) (word := e.pid p) h1 hn.high (by omega)
  refine ⟨rfl, rfl, rfl, rfl, ⟨r1.1, r1.key⟩, ?_, r2⟩
  intro x _ hx
  cases hx
  exact r1

theorem merge_img (he : EncOK cfg c lt e) (hc : CfgOK cfg) {dh : Nat} (hd : RecOK cfg dh) (old : Mem)
    {n : Node K V} {pg : VPage} (hn : NImg c e n pg) {dk : K} (hl : n.low = some dk)
    {word : List UInt8} (hw : 8 + word.length = cfg.idxLen) :
    DImg e (mergeDelta n dk) .merge (VRec.entry dh old pg.inner pg.asRec word) := by
  have h1 := hn.low
  rw [hl] at h1
  obtain ⟨r1, r2⟩ := entry_at he hc hd old pg.inner (r := pg.asRec) h1 hn.high hw
  refine ⟨rfl, hn.inner, rfl, rfl, ⟨r1.1, r1.key⟩, ?_, r2⟩
  intro x _ hx
  cases hx

theorem idxDel_img (he : EncOK cfg c lt e) (hc : CfgOK cfg) {dh : Nat} (hd : RecOK cfg dh) (old : Mem)
    {n : Node K V} {pg : VPage} (hn : NImg c e n pg) {dk : K} (hl : n.low = some dk) (w : Nat)
    {word : List UInt8} (hw : 8 + word.length = cfg.idxLen) :
    DImg e (deleteDelta (V := V) dk n.high w) .delete (VRec.idxDel dh old pg.asRec word) ∧
      (VRec.idxDel dh old pg.asRec word).pay word.length = word ∧
      8 ∣ (VRec.idxDel dh old pg.asRec word).low.offset.toNat +
        (VRec.idxDel dh old pg.asRec word).low.keyLen.toNat := by
  have hl' := hn.low
  rw [hl] at hl'
  have hh := hn.high
  have h1 := he.keylen hc dk
  have h2 := he.optlen hc n.high
  have h3 := hd.idx
  have hk : pg.asRec.low.keyLen.toNat = (e.key dk).length := hl'.1
  have hhk : pg.asRec.high.keyLen.toNat = (e.opt n.high).length := hh.1
  have e1 : pg.asRec.mem.read pg.asRec.low.offset.toNat pg.asRec.low.keyLen.toNat = e.key dk := hl'.key
  have e2 : pg.asRec.mem.read pg.asRec.high.offset.toNat pg.asRec.high.keyLen.toNat = e.opt n.high :=
    hh.key
  obtain ⟨q, hq⟩ : ∃ q, alignUp 3 (dh + (e.key dk).length) = q * 8 ∧ dh + (e.key dk).length ≤ q * 8 ∧
      q * 8 ≤ dh + (e.key dk).length + 7 := by
    refine ⟨(dh + (e.key dk).length + 7) / 8, alignUp_eq 3 _ (by decide) (by omega), ?_, ?_⟩ <;> omega
  have hr : RecAt (VRec.idxDel dh old pg.asRec word).mem (VRec.idxDel dh old pg.asRec word).low
      (e.key dk) word := by
    unfold VRec.idxDel
    simp only [e1, e2]
    simp only [hk, hq.1]
    refine RecAt.mk (mk'_keyLen (by omega)) (mk'_recLen (by omega)) ?_ ?_
    · rw [mk'_offset (by omega), Mem.read_write_of_disj (Or.inl (by omega)),
        Mem.read_write_of_disj (Or.inl (Nat.le_refl _)), Mem.read_write_self]
    · rw [mk'_offset (by omega), Mem.read_write_of_disj (Or.inl (Nat.le_refl _)), Mem.read_write_self]
  have hr2 : RecAt (VRec.idxDel dh old pg.asRec word).mem (VRec.idxDel dh old pg.asRec word).high
      (e.opt n.high) [] := by
    unfold VRec.idxDel
    simp only [e1, e2]
    simp only [hk, hhk, hq.1]
    exact RecAt.fresh (by omega) (by omega)
  refine ⟨⟨rfl, rfl, rfl, rfl, ⟨hr.1, hr.key⟩, fun x h => absurd rfl h, hr2⟩, hr.pay, ?_⟩
  unfold VRec.idxDel
  simp only [hk, hq.1]
  rw [mk'_offset (by omega), mk'_keyLen (by omega)]
  exact ⟨q, by omega⟩

theorem CImg.isDelta {ch : Chain K V} {b : BChain} (h : CImg c e ch b) : b.isDelta = ch.isDelta := by
  cases ch <;> cases b <;> first | exact h.elim | rfl

theorem CImg.cnt {ch : Chain K V} {b : BChain} (h : CImg c e ch b) : b.cnt = ch.cnt := by
  cases ch <;> cases b <;> try exact h.elim
  · exact NImg.cnt h
  · rfl
  · exact h.1.cnt

theorem push_img {d : Delta K V} {ty : DType} {r : VRec} {ref : BRef} {ch : Chain K V} {b : BChain}
    (hd : DImg e d ty r) (h : CImg c e ch b)
    (h1 : ∀ n, d.pay = .node n → ∃ pg, ref = .node pg ∧ NImg c e n pg)
    (h2 : ∀ w, d.pay = .cell w → ref = .word w) (diff : Int) :
    CImg c e (Chain.push d ch diff) (BChain.push ty r ref b diff) := by
  refine ⟨⟨hd.ty, hd.inner, ?_, ?_, hd.key, hd.cell, hd.high⟩, h1, h2, h⟩
  · simp only [h.isDelta, h.cnt]
  · simp only [h.size]

theorem nodeDiff_img (he : EncOK cfg c lt e) {n : Node K V} {pg : VPage} (h : NImg c e n pg) :
    pg.nodeDiff c = cfg.nodeDiff n := by
  unfold VPage.nodeDiff Cfg.nodeDiff
  rw [h.size, h.inner, he.hdr, he.olen, h.low.1]

theorem setNext_img {n : Node K V} {pg : VPage} (h : NImg c e n pg) (p : PID) :
    NImg c e { n with next := p } { pg with next := p } :=
  ⟨h.inner, h.cnt, h.size, h.recs, h.low, h.high, rfl⟩

theorem empty_box (he : EncOK cfg c lt e) (old : Mem) :
    (VPage.init c old false).InPage c c.page := by
  have h1 := he.lim
  have h2 := he.room
  have h3 : Inside (Metadata.mk' c.page 0 0) (c.hdr + 0 * metaLen) c.page := by
    refine ⟨?_, ?_⟩
    · rw [mk'_offset (by omega)]; omega
    · rw [mk'_offset (by omega), mk'_recLen (by omega)]; omega
  exact ⟨fun i hi => absurd hi (Nat.not_lt_zero i), h3, h3⟩

theorem newRoot_img (he : EncOK cfg c lt e) (old : Mem) {d : VRec} {sep : K} {lp rp : PID}
    (hd : RecAt d.mem d.low (e.key sep) (e.pid rp))
    (hfit : cfg.hdr + 2 * cfg.idxLen + cfg.klen sep ≤ cfg.page) :
    NImg c e (newRoot (V := V) cfg sep lp rp) (VPage.newRoot c old (e.pid lp) d) ∧
      (VPage.newRoot c old (e.pid lp) d).InPage c c.page ∧
      Framed c.hdr c.page old (VPage.newRoot c old (e.pid lp) d).mem := by
  have h1 := he.pid lp
  have h2 := he.pid rp
  have h3 := he.klen sep
  have h4 := he.page
  have h5 := he.hdr
  have h6 := he.lim
  have hml : metaLen = 8 := rfl
  have hkl : d.low.keyLen.toNat = (e.key sep).length := hd.1
  have e1 := hd.key
  have e2 : d.pay (e.pid lp).length = e.pid rp := by
    have := hd.pay
    rwa [show (e.pid rp).length = (e.pid lp).length by omega] at this
  have elen : ∀ m, (encMeta m).length = 8 := fun _ => rfl
  generalize hmem : ((((old.write (c.page - (e.pid lp).length) (e.pid lp)).write c.hdr
      (encMeta (Metadata.mk' (c.page - (e.pid lp).length) 0 (e.pid lp).length))).write
      (c.page - (e.pid lp).length - (e.pid lp).length) (e.pid rp)).write
      (c.page - (e.pid lp).length - (e.pid lp).length - (e.key sep).length) (e.key sep)).write
      (c.hdr + metaLen) (encMeta (Metadata.mk'
        (c.page - (e.pid lp).length - (e.pid lp).length - (e.key sep).length) (e.key sep).length
        ((e.key sep).length + (e.pid lp).length))) = mem
  have hpg : VPage.newRoot c old (e.pid lp) d = { VPage.init c old true with
      mem := mem, cnt := 2
      size := c.hdr + (2 * metaLen + c.page -
        (c.page - (e.pid lp).length - (e.pid lp).length - (e.key sep).length)) } := by
    unfold VPage.newRoot
    simp only [e1, e2]
    simp only [hkl, hmem]
  rw [hpg]
  have m0 : decMeta (fun i => mem (c.hdr + 0 * metaLen + i)) =
      Metadata.mk' (c.page - (e.pid lp).length) 0 (e.pid lp).length := by
    rw [← decMeta_write (mem := old.write (c.page - (e.pid lp).length) (e.pid lp)) (off := c.hdr)
      (m := Metadata.mk' (c.page - (e.pid lp).length) 0 (e.pid lp).length), ← hmem]
    refine decMeta_congr fun i hi => ?_
    rw [Nat.zero_mul, Nat.add_zero, Mem.write_apply_of_lt (by omega), Mem.write_apply_of_lt (by omega),
      Mem.write_apply_of_lt (by omega)]
  have m1 : decMeta (fun i => mem (c.hdr + 1 * metaLen + i)) =
      Metadata.mk' (c.page - (e.pid lp).length - (e.pid lp).length - (e.key sep).length)
        (e.key sep).length ((e.key sep).length + (e.pid lp).length) := by
    rw [← hmem, Nat.one_mul]
    exact decMeta_write
  have mbox : Inside (Metadata.mk' c.page 0 0) (c.hdr + 2 * metaLen) c.page := by
    refine ⟨?_, ?_⟩
    · rw [mk'_offset (by omega)]; omega
    · rw [mk'_offset (by omega), mk'_recLen (by omega)]; omega
  refine ⟨⟨rfl, rfl, ?_, ?_, ?_, ?_, rfl⟩, ⟨?_, ?_, ?_⟩, ?_⟩
  · show ((c.hdr + (2 * metaLen + c.page - (c.page - (e.pid lp).length - (e.pid lp).length -
      (e.key sep).length)) : Nat) : Int) = cfg.hdr + 2 * cfg.idxLen + cfg.klen sep
    omega
  · intro i hi
    have hi' : i < 2 := hi
    rcases (show i = 0 ∨ i = 1 by omega) with rfl | rfl
    · show RecAt mem (decMeta _) _ _
      rw [m0]
      simp only [newRoot, and_self, if_true, List.getElem_cons_zero, Enc.pay]
      refine RecAt.mk (mk'_keyLen (by decide)) (by rw [mk'_recLen (by omega)]; simp) rfl ?_
      rw [mk'_offset (by omega), List.length_nil, Nat.add_zero, ← hmem,
        Mem.read_write_of_disj (Or.inr (by rw [elen]; omega)), Mem.read_write_of_disj (Or.inr (by omega)),
        Mem.read_write_of_disj (Or.inr (by omega)), Mem.read_write_of_disj (Or.inr (by rw [elen]; omega)),
        Mem.read_write_self]
    · show RecAt mem (decMeta _) _ _
      rw [m1]
      simp only [newRoot, Nat.one_ne_zero, and_false, if_false, List.getElem_cons_succ,
        List.getElem_cons_zero, Enc.pay]
      refine RecAt.mk (mk'_keyLen (by omega)) (by rw [mk'_recLen (by omega)]; omega) ?_ ?_
      · rw [mk'_offset (by omega), ← hmem, Mem.read_write_of_disj (Or.inr (by rw [elen]; omega)),
          Mem.read_write_self]
      · rw [mk'_offset (by omega), ← hmem, Mem.read_write_of_disj (Or.inr (by rw [elen]; omega)),
          Mem.read_write_of_disj (Or.inr (by omega))]
        have : c.page - (e.pid lp).length - (e.pid lp).length - (e.key sep).length +
            (e.key sep).length = c.page - (e.pid lp).length - (e.pid lp).length := by omega
        rw [this, Mem.read_write_self]
  · exact ⟨rfl, rfl, rfl⟩
  · exact ⟨rfl, rfl, rfl⟩
  · intro i hi
    have hi' : i < 2 := hi
    rcases (show i = 0 ∨ i = 1 by omega) with rfl | rfl
    · show Inside (decMeta _) (c.hdr + 2 * metaLen) c.page
      rw [m0]
      refine ⟨?_, ?_⟩
      · rw [mk'_offset (by omega)]; omega
      · rw [mk'_offset (by omega), mk'_recLen (by omega)]; omega
    · show Inside (decMeta _) (c.hdr + 2 * metaLen) c.page
      rw [m1]
      refine ⟨?_, ?_⟩
      · rw [mk'_offset (by omega)]; omega
      · rw [mk'_offset (by omega), mk'_recLen (by omega)]; omega
  · exact mbox
  · exact mbox
  · intro a ha
    show mem a = old a
    rw [← hmem]
    rcases ha with ha | ha
    · iterate 5 rw [Mem.write_apply_of_lt (by omega)]
    · iterate 5 rw [Mem.write_apply_of_ge (by first | omega | (rw [elen]; omega))]

end BwTree.Layout
