import Verif.Layout.Lemmas

/-!
# Lemmas about variable-length nodes
-/

namespace BwTree.Layout

open Util (Metadata)

theorem decMeta_encMeta (m : Metadata) (b : Nat → UInt8)
    (hb : ∀ i (h : i < (encMeta m).length), b i = (encMeta m)[i]) : decMeta b = m := by
  have h0 := hb 0 (by simp [encMeta])
  have h1 := hb 1 (by simp [encMeta])
  have h2 := hb 2 (by simp [encMeta])
  have h3 := hb 3 (by simp [encMeta])
  have h4 := hb 4 (by simp [encMeta])
  have h5 := hb 5 (by simp [encMeta])
  have h6 := hb 6 (by simp [encMeta])
  have h7 := hb 7 (by simp [encMeta])
  simp only [encMeta, List.getElem_cons_zero, List.getElem_cons_succ] at h0 h1 h2 h3 h4 h5 h6 h7
  obtain ⟨o, k, r⟩ := m
  have ho := o.toNat_lt
  have hk := k.toNat_lt
  have hr := r.toNat_lt
  simp only [decMeta, h0, h1, h2, h3, h4, h5, h6, h7, UInt8.toNat_ofNat', Metadata.mk.injEq]
  refine ⟨?_, ?_, ?_⟩
  · apply UInt32.toNat_inj.1
    rw [UInt32.toNat_ofNat']
    omega
  · apply UInt16.toNat_inj.1
    rw [UInt16.toNat_ofNat']
    omega
  · apply UInt16.toNat_inj.1
    rw [UInt16.toNat_ofNat']
    omega

theorem length_encMeta (m : Metadata) : (encMeta m).length = metaLen := rfl

theorem decMeta_write {mem : Mem} {off : Nat} {m : Metadata} :
    decMeta (fun i => mem.write off (encMeta m) (off + i)) = m := by
  apply decMeta_encMeta
  intro i h
  have e : off + i - off = i := by omega
  simp only [Mem.write, Nat.le_add_right, if_true, e, h, dif_pos]

theorem decMeta_congr {f g : Nat → UInt8} (h : ∀ i, i < 8 → f i = g i) : decMeta f = decMeta g := by
  simp only [decMeta, h 0 (by decide), h 1 (by decide), h 2 (by decide), h 3 (by decide),
    h 4 (by decide), h 5 (by decide), h 6 (by decide), h 7 (by decide)]

theorem mk'_offset {o k l : Nat} (h : o < 65536) : (Metadata.mk' o k l).offset.toNat = o := by
  show (UInt16.ofNat o).toUInt32.toNat = o
  rw [UInt16.toNat_toUInt32, UInt16.toNat_ofNat']
  exact Nat.mod_eq_of_lt h

theorem mk'_keyLen {o k l : Nat} (h : k < 65536) : (Metadata.mk' o k l).keyLen.toNat = k := by
  show (UInt16.ofNat k).toNat = k
  rw [UInt16.toNat_ofNat']
  exact Nat.mod_eq_of_lt h

/-- Bytes of keys and payloads. -/
def total : List (List UInt8 × List UInt8) → Nat
  | [] => 0
  | r :: rs => (r.1.length + r.2.length) + total rs

theorem total_append (a b : List (List UInt8 × List UInt8)) : total (a ++ b) = total a + total b := by
  induction a with
  | nil => simp [total]
  | cons r rs ih => simp only [List.cons_append, total, ih]; omega

theorem total_take_le (a : List (List UInt8 × List UInt8)) (n : Nat) : total (a.take n) ≤ total a := by
  have h := total_append (a.take n) (a.drop n)
  rw [List.take_append_drop] at h
  omega

theorem total_take_mono (a : List (List UInt8 × List UInt8)) {n m : Nat} (h : n ≤ m) :
    total (a.take n) ≤ total (a.take m) := by
  have : a.take n = (a.take m).take n := by rw [List.take_take, Nat.min_eq_left h]
  rw [this]
  exact total_take_le _ _

theorem total_take_succ (a : List (List UInt8 × List UInt8)) {i : Nat} (h : i < a.length) :
    total (a.take (i + 1)) = total (a.take i) + ((a[i]).1.length + (a[i]).2.length) := by
  rw [List.take_succ_eq_append_getElem h, total_append]
  simp [total]

/-- What a page holds after the records `rs` have been stored from offset `start` down. -/
structure VHolds (c : VCfg) (start : Nat) (p0 : VPage) (rs : List (List UInt8 × List UInt8))
    (pg : VPage) : Prop where
  cnt : pg.cnt = rs.length
  size : pg.size = c.hdr + (rs.length * metaLen + total rs)
  metas : ∀ i (h : i < rs.length), pg.rmeta c i =
    Metadata.mk' (start - total (rs.take (i + 1))) (rs[i]).1.length
      ((rs[i]).1.length + (rs[i]).2.length)
  keys : ∀ i (h : i < rs.length),
    pg.mem.read (start - total (rs.take (i + 1))) (rs[i]).1.length = (rs[i]).1
  pays : ∀ i (h : i < rs.length),
    pg.mem.read (start - total (rs.take (i + 1)) + (rs[i]).1.length) (rs[i]).2.length = (rs[i]).2
  head : ∀ a, a < c.hdr → pg.mem a = p0.mem a
  rest : ∀ a, start ≤ a → pg.mem a = p0.mem a
  inner : pg.inner = p0.inner
  high : pg.high = p0.high
  low : pg.low = p0.low
  next : pg.next = p0.next

theorem VHolds.init {c : VCfg} {start : Nat} {p0 : VPage} (h0 : p0.cnt = 0)
    (hs : p0.size = c.hdr) : VHolds c start p0 [] p0 :=
  { cnt := h0, size := by simp [hs, total], metas := fun i h => absurd h (by simp),
    keys := fun i h => absurd h (by simp), pays := fun i h => absurd h (by simp),
    head := fun a h => rfl, rest := fun a h => rfl, inner := rfl, high := rfl, low := rfl,
    next := rfl }

theorem VHolds.snoc {c : VCfg} {start : Nat} {p0 pg : VPage}
    {rs : List (List UInt8 × List UInt8)} (h : VHolds c start p0 rs pg)
    {r : List UInt8 × List UInt8}
    (hfit : c.hdr + ((rs.length + 1) * metaLen + total (rs ++ [r])) ≤ start)
    (hn : rs.length + 1 < 65536) :
    ∃ pg', pg.put c (start - total rs) r.1 r.2 = some (pg', start - total (rs ++ [r])) ∧
      VHolds c start p0 (rs ++ [r]) pg' := by
  have ht : total (rs ++ [r]) = total rs + (r.1.length + r.2.length) := by
    rw [total_append]; simp [total]
  have e1 : (rs.length + 1) * metaLen = rs.length * metaLen + metaLen := Nat.succ_mul _ _
  have hle : r.1.length + r.2.length ≤ start - total rs := by omega
  have heq : start - total rs - (r.1.length + r.2.length) = start - total (rs ++ [r]) := by omega
  have hput : pg.put c (start - total rs) r.1 r.2 = some ({ pg with
      mem := (pg.mem.write (start - total (rs ++ [r])) (r.1 ++ r.2)).write
        (c.hdr + pg.cnt * metaLen) (encMeta (Metadata.mk' (start - total (rs ++ [r])) r.1.length
          (r.1.length + r.2.length)))
      cnt := (pg.cnt + 1) % 65536
      size := pg.size + (metaLen + (r.1.length + r.2.length)) }, start - total (rs ++ [r])) := by
    simp only [VPage.put, hle, if_true, heq]
  refine ⟨_, hput, ?_⟩
  generalize hmem : (pg.mem.write (start - total (rs ++ [r])) (r.1 ++ r.2)).write
    (c.hdr + pg.cnt * metaLen)
    (encMeta (Metadata.mk' (start - total (rs ++ [r])) r.1.length (r.1.length + r.2.length))) = mem
  have hcnt := h.cnt
  rw [hcnt] at hmem
  have hml : (encMeta (Metadata.mk' (start - total (rs ++ [r])) r.1.length
    (r.1.length + r.2.length))).length = metaLen := rfl
  have hrl : (r.1 ++ r.2).length = r.1.length + r.2.length := List.length_append
  have hout : ∀ a, (a < c.hdr + rs.length * metaLen ∨ c.hdr + (rs.length + 1) * metaLen ≤ a) →
      (a < start - total (rs ++ [r]) ∨ start - total rs ≤ a) → mem a = pg.mem a := by
    intro a h1 h2
    rw [← hmem]
    have w1 : ∀ m : Mem, m.write (c.hdr + rs.length * metaLen) (encMeta (Metadata.mk'
        (start - total (rs ++ [r])) r.1.length (r.1.length + r.2.length))) a = m a := by
      intro m
      rcases h1 with h1 | h1
      · exact Mem.write_apply_of_lt h1
      · exact Mem.write_apply_of_ge (by omega)
    rw [w1]
    rcases h2 with h2 | h2
    · exact Mem.write_apply_of_lt h2
    · exact Mem.write_apply_of_ge (by omega)
  have hgt : ∀ i (hi : i < (rs ++ [r]).length), i < rs.length ∨ i = rs.length := by
    intro i hi
    rw [List.length_append] at hi
    have : i < rs.length + 1 := hi
    omega
  have htl : (rs ++ [r]).take (rs.length + 1) = rs ++ [r] := List.take_of_length_le (by simp)
  have htk : ∀ i, i < rs.length → (rs ++ [r]).take (i + 1) = rs.take (i + 1) := by
    intro i hi
    rw [List.take_append_of_le_length (by omega)]
  refine ⟨?_, ?_, ?_, ?_, ?_, ?_, ?_, h.inner, h.high, h.low, h.next⟩
  · show (pg.cnt + 1) % 65536 = _
    rw [hcnt, List.length_append]
    exact Nat.mod_eq_of_lt hn
  · show pg.size + _ = _
    rw [h.size, List.length_append]
    show _ = c.hdr + ((rs.length + 1) * metaLen + _)
    omega
  · intro i hi
    show decMeta (fun j => mem (c.hdr + i * metaLen + j)) = _
    rcases hgt i hi with hlt | rfl
    · simp only [htk i hlt, List.getElem_append_left hlt, ← h.metas i hlt]
      have hm : (i + 1) * metaLen ≤ rs.length * metaLen := Nat.mul_le_mul_right _ hlt
      have e3 : (i + 1) * metaLen = i * metaLen + metaLen := Nat.succ_mul _ _
      have hml8 : metaLen = 8 := rfl
      exact decMeta_congr fun j hj => hout _ (Or.inl (by omega)) (Or.inl (by omega))
    · simp only [htl, List.getElem_append_right (Nat.le_refl _), Nat.sub_self,
        List.getElem_singleton]
      rw [← hmem]
      exact decMeta_write
  · intro i hi
    show mem.read _ _ = _
    rcases hgt i hi with hlt | rfl
    · simp only [htk i hlt, List.getElem_append_left hlt]
      have h1 := total_take_succ rs hlt
      have h2 := total_take_mono rs (n := i + 1) (m := rs.length) hlt
      rw [List.take_length] at h2
      refine Eq.trans ?_ (h.keys i hlt)
      exact Mem.read_congr fun a h3 h4 => hout a (Or.inr (by omega)) (Or.inr (by omega))
    · simp only [htl, List.getElem_append_right (Nat.le_refl _), Nat.sub_self,
        List.getElem_singleton]
      rw [← hmem, Mem.read_write_of_disj (Or.inr (by omega))]
      exact (Mem.read_write_append _ _ _ _).1
  · intro i hi
    show mem.read _ _ = _
    rcases hgt i hi with hlt | rfl
    · simp only [htk i hlt, List.getElem_append_left hlt]
      have h1 := total_take_succ rs hlt
      have h2 := total_take_mono rs (n := i + 1) (m := rs.length) hlt
      rw [List.take_length] at h2
      refine Eq.trans ?_ (h.pays i hlt)
      exact Mem.read_congr fun a h3 h4 => hout a (Or.inr (by omega)) (Or.inr (by omega))
    · simp only [htl, List.getElem_append_right (Nat.le_refl _), Nat.sub_self,
        List.getElem_singleton]
      rw [← hmem, Mem.read_write_of_disj (Or.inr (by omega))]
      exact (Mem.read_write_append _ _ _ _).2
  · intro a ha
    show mem a = _
    rw [hout a (Or.inl (by omega)) (Or.inl (by omega)), h.head a ha]
  · intro a ha
    show mem a = _
    rw [hout a (Or.inr (by omega)) (Or.inr (by omega)), h.rest a ha]

theorem vfill_holds {c : VCfg} {start : Nat} {p0 : VPage} :
    ∀ (rs done : List (List UInt8 × List UInt8)) (pg : VPage),
      VHolds c start p0 done pg →
      c.hdr + ((done.length + rs.length) * metaLen + total (done ++ rs)) ≤ start →
      done.length + rs.length < 65536 →
      ∃ pg', pg.fill c (start - total done) rs = some (pg', start - total (done ++ rs)) ∧
        VHolds c start p0 (done ++ rs) pg'
  | [], done, pg, h, _, _ => ⟨pg, by simp [VPage.fill], by simpa using h⟩
  | r :: rs, done, pg, h, hf, hn => by
    have hlen : (r :: rs).length = rs.length + 1 := rfl
    rw [hlen] at hf hn
    have ea : done ++ r :: rs = (done ++ [r]) ++ rs := by simp
    have ht : total (done ++ r :: rs) = total (done ++ [r]) + total rs := by rw [ea, total_append]
    have hm : (done.length + 1) * metaLen ≤ (done.length + (rs.length + 1)) * metaLen :=
      Nat.mul_le_mul_right _ (by omega)
    obtain ⟨p1, h1, h2⟩ := h.snoc (r := r) (by omega) (by omega)
    obtain ⟨pg', h3, h4⟩ := vfill_holds rs (done ++ [r]) p1 h2
      (by rw [List.length_append, ← ea]; simpa [Nat.add_assoc, Nat.add_comm 1] using hf)
      (by rw [List.length_append]; simpa [Nat.add_assoc, Nat.add_comm 1] using hn)
    refine ⟨pg', ?_, by rw [ea]; exact h4⟩
    rw [ea]
    simp only [VPage.fill, h1, Option.bind_some]
    exact h3

/-- A consolidated node gives back everything that was put into it. -/
structure VReads (c : VCfg) (rs : List (List UInt8 × List UInt8)) (pg : VPage) : Prop where
  cnt : pg.cnt = rs.length
  keys : ∀ i (h : i < rs.length), pg.key c i = (rs[i]).1
  pays : ∀ i (h : i < rs.length), pg.pay c (rs[i]).2.length i = (rs[i]).2

theorem VHolds.reads {c : VCfg} {start : Nat} {p0 pg : VPage}
    {rs : List (List UInt8 × List UInt8)} (h : VHolds c start p0 rs pg) (hs : start < 65536)
    (hk : total rs < 65536) {mem : Mem} {low high : Metadata} {size : Nat}
    (hfit : c.hdr + (rs.length * metaLen + total rs) ≤ start)
    (hmem : ∀ a, (c.hdr ≤ a ∧ a < c.hdr + rs.length * metaLen) ∨
      (start - total rs ≤ a ∧ a < start) → mem a = pg.mem a) :
    VReads c rs { pg with mem := mem, low := low, high := high, size := size } := by
  have hmeta : ∀ i, i < rs.length →
      VPage.rmeta c { pg with mem := mem, low := low, high := high, size := size } i = pg.rmeta c i := by
    intro i hi
    have hm : (i + 1) * metaLen ≤ rs.length * metaLen := Nat.mul_le_mul_right _ hi
    have e3 : (i + 1) * metaLen = i * metaLen + metaLen := Nat.succ_mul _ _
    have hml8 : metaLen = 8 := rfl
    exact decMeta_congr fun j hj => hmem _ (Or.inl ⟨by omega, by omega⟩)
  have hb : ∀ i (hi : i < rs.length), total (rs.take (i + 1)) ≤ total rs ∧
      (rs[i]).1.length + (rs[i]).2.length ≤ total (rs.take (i + 1)) := by
    intro i hi
    have h1 := total_take_succ rs hi
    exact ⟨total_take_le _ _, by omega⟩
  refine ⟨h.cnt, ?_, ?_⟩
  · intro i hi
    have := hb i hi
    simp only [VPage.key, hmeta i hi, h.metas i hi]
    rw [mk'_offset (by omega), mk'_keyLen (by omega)]
    refine Eq.trans ?_ (h.keys i hi)
    exact Mem.read_congr fun a h1 h2 => hmem a (Or.inr ⟨by omega, by omega⟩)
  · intro i hi
    have := hb i hi
    simp only [VPage.pay, hmeta i hi, h.metas i hi]
    rw [mk'_offset (by omega), mk'_keyLen (by omega)]
    refine Eq.trans ?_ (h.pays i hi)
    exact Mem.read_congr fun a h1 h2 => hmem a (Or.inr ⟨by omega, by omega⟩)

theorem consolidate_leaf {c : VCfg} {old : Mem} {start : Nat}
    {rs : List (List UInt8 × List UInt8)} {low high : List UInt8}
    (hs : start < 65536) (hst : rs = [] → c.page ≤ start) (hpg : c.page < 65536)
    (hfit : c.hdr + (rs.length * metaLen + total rs) + low.length + high.length ≤
      if rs = [] then c.page else start)
    (hn : rs.length < 65536) :
    ∃ pg, VPage.consolidate c old false start rs low high = some pg ∧ VReads c rs pg ∧
      pg.border pg.low = low ∧ pg.border pg.high = high ∧
      pg.size = c.hdr + (rs.length * metaLen + total rs) + low.length + high.length ∧
      pg.low.keyLen.toNat = low.length ∧ pg.high.keyLen.toNat = high.length := by
  have hfit0 : c.hdr + (rs.length * metaLen + total rs) ≤ start := by
    split at hfit
    · next h => have := hst h; omega
    · omega
  obtain ⟨p1, h1, h2⟩ := vfill_holds (c := c) (start := start) rs []
    (VPage.init c old false) (VHolds.init rfl rfl)
    (by simpa using hfit0) (by simpa using hn)
  simp only [total, Nat.sub_zero, List.nil_append] at h1 h2
  -- the offset from which the border keys are stored
  obtain ⟨off, hoff, hle, hoff2, hoff3⟩ : ∃ off, (if p1.cnt = 0 then p1.high.offset.toNat
      else (p1.rmeta c (p1.cnt - 1)).offset.toNat) = off ∧ off ≤ start - total rs ∧
      c.hdr + rs.length * metaLen + low.length + high.length ≤ off ∧ off < 65536 := by
    rw [h2.cnt]
    by_cases hnil : rs = []
    · refine ⟨c.page, ?_, ?_, ?_, hpg⟩
      · rw [if_pos (by simp [hnil]), h2.high]
        exact mk'_offset hpg
      · rw [hnil]; simpa [total] using hst hnil
      · rw [if_pos hnil] at hfit
        omega
    · have hpos : 0 < rs.length := List.length_pos_iff.2 hnil
      refine ⟨start - total rs, ?_, Nat.le_refl _, ?_, by omega⟩
      · rw [if_neg (by omega), h2.metas (rs.length - 1) (by omega), mk'_offset (by omega)]
        have : rs.length - 1 + 1 = rs.length := by omega
        rw [this, List.take_length]
      · rw [if_neg hnil] at hfit
        omega
  have hin : p1.inner = false := h2.inner
  refine ⟨{ p1 with
      mem := (p1.mem.write (off - low.length) low).write (off - low.length - high.length) high
      low := Metadata.mk' (off - low.length) low.length low.length
      high := Metadata.mk' (off - low.length - high.length) high.length high.length
      size := p1.size + low.length + high.length }, ?_, ?_, ?_, ?_, ?_, ?_, ?_⟩
  · simp only [VPage.consolidate, h1, Option.bind_some, VPage.copyLow, hoff, hin]
    rw [if_neg (by simp), if_pos (by omega)]
    simp only [Option.bind_some, VPage.copyHigh]
    rw [if_pos (by omega)]
  · refine h2.reads hs (by omega) hfit0 ?_
    intro a ha
    rcases ha with ⟨ha1, ha2⟩ | ⟨ha, _⟩
    · rw [Mem.write_apply_of_lt (by omega), Mem.write_apply_of_lt (by omega)]
    · rw [Mem.write_apply_of_ge (by omega), Mem.write_apply_of_ge (by omega)]
  · simp only [VPage.border]
    rw [mk'_offset (by omega), mk'_keyLen (by omega),
      Mem.read_write_of_disj (Or.inr (by omega)), Mem.read_write_self]
  · simp only [VPage.border]
    rw [mk'_offset (by omega), mk'_keyLen (by omega), Mem.read_write_self]
  · show p1.size + _ + _ = _
    rw [h2.size]
  · exact mk'_keyLen (by omega)
  · exact mk'_keyLen (by omega)

theorem consolidate_inner {c : VCfg} {old : Mem} {start : Nat}
    {rs : List (List UInt8 × List UInt8)} {low high : List UInt8}
    (hs : start < 65536) (hne : rs ≠ [])
    (hfit : c.hdr + (rs.length * metaLen + total rs) + high.length ≤ start)
    (hn : rs.length < 65536) :
    ∃ pg, VPage.consolidate c old true start rs low high = some pg ∧ VReads c rs pg ∧
      (∀ r, rs.head? = some r → pg.border pg.low = r.1) ∧ pg.border pg.high = high ∧
      pg.size = c.hdr + (rs.length * metaLen + total rs) + high.length := by
  obtain ⟨p1, h1, h2⟩ := vfill_holds (c := c) (start := start) rs []
    (VPage.init c old true) (VHolds.init rfl rfl)
    (by simpa using (by omega : c.hdr + (rs.length * metaLen + total rs) ≤ start))
    (by simpa using hn)
  simp only [total, Nat.sub_zero, List.nil_append] at h1 h2
  have hpos : 0 < rs.length := List.length_pos_iff.2 hne
  have hoff : (if p1.cnt = 0 then p1.high.offset.toNat
      else (p1.rmeta c (p1.cnt - 1)).offset.toNat) = start - total rs := by
    rw [h2.cnt, if_neg (by omega), h2.metas (rs.length - 1) (by omega), mk'_offset (by omega)]
    have : rs.length - 1 + 1 = rs.length := by omega
    rw [this, List.take_length]
  have hin : p1.inner = true := h2.inner
  have hm0 := h2.metas 0 hpos
  have hrd := h2.reads (low := { p1.rmeta c 0 with recLen := (p1.rmeta c 0).keyLen })
    (high := Metadata.mk' (start - total rs - high.length) high.length high.length)
    (size := p1.size + high.length)
    (mem := p1.mem.write (start - total rs - high.length) high) hs (by omega)
    (by omega) (fun a ha => by
      rcases ha with ⟨ha1, ha2⟩ | ⟨ha, _⟩
      · rw [Mem.write_apply_of_lt (by omega)]
      · rw [Mem.write_apply_of_ge (by omega)])
  refine ⟨{ p1 with
      mem := p1.mem.write (start - total rs - high.length) high
      low := { p1.rmeta c 0 with recLen := (p1.rmeta c 0).keyLen }
      high := Metadata.mk' (start - total rs - high.length) high.length high.length
      size := p1.size + high.length }, ?_, hrd, ?_, ?_, ?_⟩
  · simp only [VPage.consolidate, h1, Option.bind_some, VPage.copyLow, hoff, hin, if_true,
      VPage.copyHigh]
    rw [if_pos (by omega)]
  · intro r hr
    have h00 : rs[0] = r := by
      rw [List.head?_eq_getElem?, List.getElem?_eq_getElem hpos] at hr
      exact Option.some.inj hr
    have hmm : VPage.rmeta c { p1 with
        mem := p1.mem.write (start - total rs - high.length) high
        low := { p1.rmeta c 0 with recLen := (p1.rmeta c 0).keyLen }
        high := Metadata.mk' (start - total rs - high.length) high.length high.length
        size := p1.size + high.length } 0 = p1.rmeta c 0 := by
      have hml8 : metaLen = 8 := rfl
      refine decMeta_congr fun j hj => Mem.write_apply_of_lt ?_
      have : 1 * metaLen ≤ rs.length * metaLen := Nat.mul_le_mul_right _ hpos
      omega
    have hk0 := hrd.keys 0 hpos
    simp only [VPage.key, hmm] at hk0
    rw [← h00]
    exact hk0
  · simp only [VPage.border]
    rw [mk'_offset (by omega), mk'_keyLen (by omega), Mem.read_write_self]
  · show p1.size + _ = _
    rw [h2.size]

end BwTree.Layout
