import Verif.Layout.Var

/-!
# Pages as bytes: C23, C48, C50, C51
-/

namespace BwTree.Props

open Layout

/-! ## C48: payload addresses in the fixed-length layout -/

/-- The `i`-th record of a page is what was stored as `i`-th record. -/
def ReadsBack (c : FCfg) (plen : Nat) (rs : List (List UInt8 × List UInt8)) (pg : FPage) : Prop :=
  ∀ i (h : i < rs.length), pg.key c i = (rs[i]).1 ∧ pg.pay c plen i = (rs[i]).2

theorem FHolds.readsBack {c : FCfg} {k q : Nat} (hp : c.page = 2 ^ k) (hk : k ≤ 31)
    (hq : q = 1 ∨ q = 2) {plen : Nat} {old : Mem} {rs : List (List UInt8 × List UInt8)} {pg : FPage}
    (h : FHolds c plen (q * c.page) old rs pg) {size : Nat} (hlo : (q - 1) * c.page < size)
    (hhi : size ≤ q * c.page) (hfit : rs.length * plen ≤ q * c.page) :
    ReadsBack c plen rs { pg with size := size } := by
  intro i hi
  refine ⟨h.keys i hi, ?_⟩
  have hm : (i + 1) * plen ≤ rs.length * plen := Nat.mul_le_mul_right _ hi
  have hc : plen * (i + 1) = (i + 1) * plen := Nat.mul_comm _ _
  simp only [FPage.pay]
  rw [payAddr_eq hp hk hq hlo hhi (by omega), hc]
  exact h.pays i hi

theorem leftFits {P h L L1 len : Nat} (hq : h + len ≤ P / 2) (hL : L = L1 + len)
    (h7 : h + L1 ≤ (P - h) / 2) : h + L ≤ P := by omega

theorem rightFits {P h L R : Nat} (hh : h ≤ P / 8) (hf : h + (L + R) ≤ P + P / 4)
    (h6 : (P - h) / 2 < h + L) : h + R ≤ P := by omega

theorem payFits {P h n a b : Nat} (hf : h + n * (a + b) ≤ P) : n * b ≤ 1 * P := by
  rw [Nat.mul_add] at hf
  omega

/-- C48.  If the page size is a power of two (at most 2^31), then keys and payloads are read back as
they were written: from a consolidated node, from a two-page scan node, from a bulkloaded node, from
both halves of a split and from a new root.  Records have the fixed lengths and fit in the page(s);
a split starts from a node that overflows its page by at most a quarter.

Missing for the full property: page sizes that are not powers of two, see `C48_false`; more than
65535 records in a node (`rec_count_` has 16 bits). -/
theorem C48_addressing_partial (c : FCfg) (k plen : Nat) (hp : c.page = 2 ^ k) (hk : k ≤ 31)
    (hkeys : c.keys ≤ c.hdr) (hhdr : 0 < c.hdr) (old old' : Mem)
    (rs : List (List UInt8 × List UInt8))
    (hrs : ∀ r ∈ rs, r.1.length = c.klen ∧ r.2.length = plen) (hn : rs.length < 65536) :
    -- a consolidated node
    (c.hdr + rs.length * (c.klen + plen) ≤ c.page →
      ∃ pg off, (FPage.init c old).fill c c.page rs = some (pg, off) ∧ ReadsBack c plen rs pg) ∧
    -- a bulkloaded node
    (c.hdr + rs.length * (c.klen + plen) ≤ c.page →
      ∃ pg off, (FPage.init c old).bfill c c.page rs = some (pg, off) ∧ ReadsBack c plen rs pg) ∧
    -- a node consolidated for a scan
    (c.hdr + rs.length * (c.klen + plen) ≤ 2 * c.page →
      ∃ pg off, (FPage.init c old).fill c (2 * c.page) rs = some (pg, off) ∧
        ReadsBack c plen rs (pg.forScan c)) ∧
    -- the halves of a split
    (c.hdr ≤ c.page / 8 → c.hdr + (c.klen + plen) ≤ c.page / 2 →
      c.page < c.hdr + rs.length * (c.klen + plen) →
      c.hdr + rs.length * (c.klen + plen) ≤ c.page + c.page / 4 →
      ∃ s l r lp, FSplit.fill c ⟨FPage.init c old, c.page, some (FPage.init c old'), none⟩ rs
          = some s ∧
        rs = l ++ r ∧ s.left = some lp ∧ ReadsBack c plen l lp ∧ ReadsBack c plen r s.cur ∧
        l ≠ [] ∧ r ≠ []) ∧
    -- a new root
    (c.hdr + 2 * (c.klen + plen) ≤ c.page → ∀ sep left right : List UInt8,
      sep.length = c.klen → left.length = plen → right.length = plen →
      ∃ pg, FPage.newRoot c old sep left right = some pg ∧ pg.cnt = 2 ∧ pg.key c 1 = sep ∧
        pg.pay c plen 0 = left ∧ pg.pay c plen 1 = right) := by
  have hbody : ∀ q, q = 1 ∨ q = 2 → c.hdr + rs.length * (c.klen + plen) ≤ q * c.page →
      rs.length * plen ≤ q * c.page := by
    intro q _ h
    rw [Nat.mul_add] at h
    omega
  have hppos : 0 < c.page := by rw [hp]; exact Nat.pow_pos (by decide)
  refine ⟨?_, ?_, ?_, ?_, ?_⟩
  · intro hf
    obtain ⟨pg, h1, h2⟩ := fill_holds hkeys rs [] (FPage.init c old)
      (FHolds.init (plen := plen) (start := c.page) (old := old)) hrs (by simpa using hf)
      (by simpa using hn)
    simp only [List.length_nil, Nat.zero_mul, Nat.sub_zero, List.nil_append] at h1 h2
    refine ⟨pg, _, h1, ?_⟩
    have hs := h2.size
    exact FHolds.readsBack (q := 1) hp hk (Or.inl rfl) (by simpa using h2) (size := pg.size)
      (by omega) (by omega) (hbody 1 (Or.inl rfl) (by simpa using hf))
  · intro hf
    obtain ⟨pg, h1, h2⟩ := bfill_holds hkeys rs [] (FPage.init c old)
      (FHolds.init (plen := plen) (start := c.page) (old := old)) hrs (by simpa using hf)
      (by simpa using hn)
    simp only [List.length_nil, Nat.zero_mul, Nat.sub_zero, List.nil_append] at h1 h2
    refine ⟨pg, _, h1, ?_⟩
    have hs := h2.size
    exact FHolds.readsBack (q := 1) hp hk (Or.inl rfl) (by simpa using h2) (size := pg.size)
      (by omega) (by omega) (hbody 1 (Or.inl rfl) (by simpa using hf))
  · intro hf
    obtain ⟨pg, h1, h2⟩ := fill_holds hkeys rs [] (FPage.init c old)
      (FHolds.init (plen := plen) (start := 2 * c.page) (old := old)) hrs (by simpa using hf)
      (by simpa using hn)
    simp only [List.length_nil, Nat.zero_mul, Nat.sub_zero, List.nil_append] at h1 h2
    refine ⟨pg, _, h1, ?_⟩
    exact FHolds.readsBack (q := 2) hp hk (Or.inr rfl) h2 (size := 2 * c.page)
      (by omega) (by omega) (hbody 2 (Or.inr rfl) hf)
  · intro hh hq hov hf
    obtain ⟨s, l, r, lp, h1, h2, h3, h4, h5, h6, h7⟩ := split_left hkeys (plen := plen)
      (old := old) (old' := old') hh hq rs [] (FPage.init c old) FHolds.init
      (by simp only [List.length_nil, Nat.zero_mul]; omega) hrs (by simpa using hov)
      (by simpa using hf) (by simpa using hn)
    simp only [List.length_nil, Nat.zero_mul, Nat.sub_zero, List.nil_append] at h1 h2
    have hlen : rs.length = l.length + r.length := by rw [h2, List.length_append]
    have hmul : rs.length * (c.klen + plen)
        = l.length * (c.klen + plen) + r.length * (c.klen + plen) := by rw [hlen, Nat.add_mul]
    have hl0 : l ≠ [] := by
      rintro rfl
      simp only [List.length_nil, Nat.zero_mul] at h6
      omega
    have hl1 : 0 < l.length := List.length_pos_iff.2 hl0
    have hlm : l.length * (c.klen + plen) = (l.length - 1) * (c.klen + plen) + (c.klen + plen) := by
      have : l.length = (l.length - 1) + 1 := by omega
      conv => lhs; rw [this]
      exact Nat.succ_mul _ _
    have hls := h4.size
    have hrs' := h5.size
    have hL : c.hdr + l.length * (c.klen + plen) ≤ c.page := leftFits hq hlm h7
    have hR : c.hdr + r.length * (c.klen + plen) ≤ c.page := rightFits hh (hmul ▸ hf) h6
    have hlf : l.length * plen ≤ 1 * c.page := payFits hL
    have hrf : r.length * plen ≤ 1 * c.page := payFits hR
    refine ⟨s, l, r, lp, h1, h2, h3, ?_, ?_, hl0, ?_⟩
    · exact FHolds.readsBack (q := 1) hp hk (Or.inl rfl) (by simpa using h4) (size := lp.size)
        (by rw [hls]; simpa using Nat.add_pos_left hhdr _) (by rw [hls]; simpa using hL) hlf
    · exact FHolds.readsBack (q := 1) hp hk (Or.inl rfl) (by simpa using h5) (size := s.cur.size)
        (by rw [hrs']; simpa using Nat.add_pos_left hhdr _) (by rw [hrs']; simpa using hR) hrf
    · rintro rfl
      rw [List.length_nil, Nat.zero_mul, Nat.add_zero] at hmul
      rw [hmul] at hov
      exact absurd hL (Nat.not_le.2 hov)
  · intro hf sep left right e1 e2 e3
    have hle : left.length + right.length ≤ c.page := by omega
    refine ⟨_, by rw [FPage.newRoot, if_pos hle], rfl, ?_, ?_, ?_⟩
    · simp only [FPage.key, Nat.one_mul]
      rw [Mem.read_write_of_disj (Or.inl (by omega)), Mem.read_write_of_disj (Or.inl (by omega)),
        ← e1, Mem.read_write_self]
    · simp only [FPage.pay]
      rw [payAddr_eq hp hk (q := 1) (Or.inl rfl) (by simp only []; omega) (by simp only []; omega)
        (by omega)]
      have e : 1 * c.page - plen * (0 + 1) = c.page - left.length := by omega
      rw [e, Mem.read_write_of_disj (Or.inr (by omega)), ← e2, Mem.read_write_self]
    · simp only [FPage.pay]
      rw [payAddr_eq hp hk (q := 1) (Or.inl rfl) (by simp only []; omega) (by simp only []; omega)
        (by omega)]
      have e : 1 * c.page - plen * (1 + 1) = c.page - left.length - right.length := by omega
      rw [e, ← e3, Mem.read_write_self]

/-- The default page with 8-byte keys (header 32 bytes). -/
def exF : FCfg := { page := 1024, hdr := 32, keys := 32, klen := 8 }

/-- Sixty-four records of 8 + 8 bytes, more than fit in the page. -/
def exRs : List (List UInt8 × List UInt8) :=
  (List.range 64).map fun i => (List.replicate 8 (UInt8.ofNat i), List.replicate 8 (UInt8.ofNat (i + 100)))

/-- Not vacuous: all hypotheses hold with the default page, for the two-page node and the split. -/
example : exF.page = 2 ^ 10 ∧ (∀ r ∈ exRs, r.1.length = exF.klen ∧ r.2.length = 8) ∧
    exF.page < exF.hdr + exRs.length * (exF.klen + 8) ∧
    exF.hdr + exRs.length * (exF.klen + 8) ≤ exF.page + exF.page / 4 ∧
    exF.hdr + exRs.length * (exF.klen + 8) ≤ 2 * exF.page ∧
    exF.hdr ≤ exF.page / 8 ∧ exF.hdr + (exF.klen + 8) ≤ exF.page / 2 := by decide +kernel

/-- The split of these records stops after 30 of them. -/
example : ((FSplit.fill exF ⟨FPage.init exF (fun _ => 0), 1024, some (FPage.init exF fun _ => 0),
      none⟩ exRs).map fun s =>
    (s.left.map (·.cnt), s.cur.cnt, s.cur.pay exF 8 0)) =
      some (some 30, 34, List.replicate 8 130) := by decide +kernel

/-- C48 is false for page sizes that are not powers of two.  `alignas(kPageAlign)` (`common.hpp` 102
and 111) requires a power of two only below 4096 bytes, so 6000 compiles and meets the static
assertion of `bw_tree.hpp` 1683; the payload of the only record of a node is then read from a wrong
address. -/
theorem C48_false :
    ∃ (c : FCfg) (plen : Nat) (old : Mem) (r : List UInt8 × List UInt8) (pg : FPage) (off : Nat),
      4096 ≤ c.page ∧ c.klen + plen ≤ c.page / 4 ∧ c.keys ≤ c.hdr ∧ c.hdr = 16 + 2 * c.klen ∧
      r.1.length = c.klen ∧ r.2.length = plen ∧ c.hdr + (c.klen + plen) ≤ c.page ∧
      (FPage.init c old).fill c c.page [r] = some (pg, off) ∧ pg.pay c plen 0 ≠ r.2 := by
  have h : ((FPage.init ⟨6000, 32, 32, 8⟩ fun _ => 0).fill ⟨6000, 32, 32, 8⟩ 6000
      [(List.replicate 8 1, List.replicate 8 2)]).map (fun x => x.1.pay ⟨6000, 32, 32, 8⟩ 8 0)
      ≠ some (List.replicate 8 2) := by decide +kernel
  cases hx : (FPage.init ⟨6000, 32, 32, 8⟩ fun _ => 0).fill ⟨6000, 32, 32, 8⟩ 6000
      [(List.replicate 8 1, List.replicate 8 2)] with
  | none => exact absurd (congrArg Option.isSome hx) (by decide +kernel)
  | some x =>
    rw [hx] at h
    exact ⟨⟨6000, 32, 32, 8⟩, 8, fun _ => 0, (List.replicate 8 1, List.replicate 8 2), x.1, x.2,
      by decide, by decide, by decide, by decide, by decide, by decide, by decide, hx,
      fun e => h (by rw [Option.map_some, e])⟩

/-! ## C51: variable-length nodes -/

/-- C51.  A consolidated variable-length node gives back every key and payload and both border keys,
and its `node_size_` is the number of bytes in use, whenever these bytes fit in the page and offsets
fit in 16 bits.  `start` is the page size, or twice that for scans; the border keys of a node without
records always go to the first page. -/
theorem C51_varlen_reads_back (c : VCfg) (old : Mem) (start : Nat)
    (rs : List (List UInt8 × List UInt8)) (low high : List UInt8)
    (hs : start < 65536) (hpg : c.page ≤ start) (hn : rs.length < 65536) :
    (c.hdr + (rs.map fun r => 8 + (r.1.length + r.2.length)).sum + low.length + high.length ≤
        (if rs = [] then c.page else start) →
      ∃ pg, VPage.consolidate c old false start rs low high = some pg ∧
        (∀ i (h : i < rs.length), pg.key c i = (rs[i]).1 ∧
          pg.pay c (rs[i]).2.length i = (rs[i]).2) ∧
        pg.border pg.low = low ∧ pg.border pg.high = high ∧
        pg.size = c.hdr + (rs.map fun r => 8 + (r.1.length + r.2.length)).sum
          + low.length + high.length) ∧
    (rs ≠ [] → c.hdr + (rs.map fun r => 8 + (r.1.length + r.2.length)).sum + high.length ≤ start →
      ∃ pg, VPage.consolidate c old true start rs low high = some pg ∧
        (∀ i (h : i < rs.length), pg.key c i = (rs[i]).1 ∧
          pg.pay c (rs[i]).2.length i = (rs[i]).2) ∧
        (∀ r, rs.head? = some r → pg.border pg.low = r.1) ∧ pg.border pg.high = high ∧
        pg.size = c.hdr + (rs.map fun r => 8 + (r.1.length + r.2.length)).sum + high.length) := by
  have hsum : (rs.map fun r => 8 + (r.1.length + r.2.length)).sum
      = rs.length * metaLen + total rs := by
    clear hn
    induction rs with
    | nil => rfl
    | cons r rs ih =>
      have e : (rs.length + 1) * metaLen = rs.length * metaLen + metaLen := Nat.succ_mul _ _
      have e8 : metaLen = 8 := rfl
      simp only [List.map_cons, List.sum_cons, ih, total, List.length_cons]
      omega
  rw [hsum]
  refine ⟨fun hf => ?_, fun hne hf => ?_⟩
  · obtain ⟨pg, h1, h2, h3, h4, h5, _⟩ := consolidate_leaf (old := old) hs (fun _ => hpg)
      (by omega) hf hn
    exact ⟨pg, h1, fun i hi => ⟨h2.keys i hi, h2.pays i hi⟩, h3, h4, h5⟩
  · obtain ⟨pg, h1, h2, h3, h4, h5⟩ := consolidate_inner (old := old) (low := low) hs hne hf hn
    exact ⟨pg, h1, fun i hi => ⟨h2.keys i hi, h2.pays i hi⟩, h3, h4, h5⟩

/-! ## C23: bulkloaded variable-length leaves -/

/-- Default page, `sizeof(varlen::Node)` is 32. -/
def exV : VCfg := { page := 1024, hdr := 32 }

/-- A key of 100 bytes. -/
def longKey (i : Nat) : List UInt8 := List.replicate 100 (UInt8.ofNat i)

/-- Records with 100-byte keys and 8-byte payloads. -/
def longRecs (n : Nat) : List (List UInt8 × List UInt8) :=
  (List.range n).map fun i => (longKey (i + 1), List.replicate 8 (UInt8.ofNat i))

/-- Bytes a consolidated leaf needs. -/
def leafBytes (c : VCfg) (rs : List (List UInt8 × List UInt8)) (low high : List UInt8) : Nat :=
  c.hdr + (rs.map fun r => 8 + (r.1.length + r.2.length)).sum + low.length + high.length

theorem leafBytes_eq (c : VCfg) (rs : List (List UInt8 × List UInt8)) (low high : List UInt8) :
    leafBytes c rs low high = c.hdr + (rs.length * metaLen + total rs) + low.length + high.length := by
  have hsum : (rs.map fun r => 8 + (r.1.length + r.2.length)).sum
      = rs.length * metaLen + total rs := by
    induction rs with
    | nil => rfl
    | cons r rs ih =>
      have e : (rs.length + 1) * metaLen = rs.length * metaLen + metaLen := Nat.succ_mul _ _
      have e8 : metaLen = 8 := rfl
      simp only [List.map_cons, List.sum_cons, ih, total, List.length_cons]
      omega
  rw [leafBytes, hsum]

/-- Number of bytes counted by the loop of `Bulkload`. -/
theorem bulkCount_le (cap : Nat) : ∀ (es : List (List UInt8 × List UInt8)) (n : Nat),
    n ≤ cap → n + ((es.take (bulkCount cap n es)).length * metaLen
      + total (es.take (bulkCount cap n es))) ≤ cap
  | [], n, h => by simp [bulkCount, total, h]
  | r :: rs, n, h => by
    simp only [bulkCount]
    split
    · simpa [total] using h
    · next hle =>
      have ih := bulkCount_le cap rs (n + (r.1.length + r.2.length + metaLen)) (by omega)
      simp only [List.take_succ_cons, List.length_cons, total]
      have e : ((rs.take (bulkCount cap (n + (r.1.length + r.2.length + metaLen)) rs)).length + 1)
          * metaLen = (rs.take (bulkCount cap (n + (r.1.length + r.2.length + metaLen)) rs)).length
          * metaLen + metaLen := Nat.succ_mul _ _
      omega

/-- C23, what holds.  A bulkloaded leaf is stored correctly, but its `node_size_` leaves out the
lowest key.  Hence a chain on it, whose size is that of the leaf plus the sizes of the later records,
is consolidated correctly as long as the size plus the length of the lowest key is at most a page.

Missing for the full property: sizes between `page - low.length` and `page`, see `C23_false`. -/
theorem C23_bulk_leaf_partial (c : VCfg) (maxKey cap : Nat) (old : Mem)
    (es : List (List UInt8 × List UInt8)) (high : List UInt8) (hpg : c.page < 65536)
    (hcap : cap ≤ c.page) (hmk : c.hdr + maxKey ≤ cap) (hhigh : high.length ≤ maxKey) :
    ∃ pg rest n, VPage.bulkload c maxKey cap old false es = some (pg, rest) ∧
      rest = es.drop n ∧
      (∀ i (h : i < (es.take n).length), (pg.linkNext c high).key c i = ((es.take n)[i]).1 ∧
        (pg.linkNext c high).pay c ((es.take n)[i]).2.length i = ((es.take n)[i]).2) ∧
      (pg.linkNext c high).border (pg.linkNext c high).high = high ∧
      (pg.linkNext c high).size = leafBytes c (es.take n) [] high ∧
      -- later records change the contents and the size alike
      ∀ (rs : List (List UInt8 × List UInt8)) (low : List UInt8) (old' : Mem) (size : Nat),
        rs.length < 65536 → size = leafBytes c rs [] high → size + low.length ≤ c.page →
        ∃ pg', VPage.consolidate c old' false c.page rs low high = some pg' ∧
          (∀ i (h : i < rs.length), pg'.key c i = (rs[i]).1 ∧
            pg'.pay c (rs[i]).2.length i = (rs[i]).2) ∧
          pg'.border pg'.low = low ∧ pg'.border pg'.high = high ∧
          pg'.size = leafBytes c rs low high := by
  have hb := bulkCount_le cap es (c.hdr + maxKey + 0 * maxKey) (by omega)
  generalize hn : bulkCount cap (c.hdr + maxKey + 0 * maxKey) es = n at hb
  have hlen : (es.take n).length < 65536 := by
    have : (es.take n).length * 1 ≤ (es.take n).length * metaLen := Nat.mul_le_mul_left _ (by decide)
    omega
  obtain ⟨p1, h1, h2⟩ := vfill_holds (c := c) (start := c.page - maxKey) (es.take n) []
    (VPage.init c old false) (VHolds.init rfl rfl)
    (by simp only [List.length_nil, Nat.zero_add, List.nil_append]; omega)
    (by simpa using hlen)
  simp only [total, Nat.sub_zero, List.nil_append] at h1 h2
  have hkeep : ∀ a, (c.hdr ≤ a ∧ a < c.hdr + (es.take n).length * metaLen) ∨
      (c.page - maxKey - total (es.take n) ≤ a ∧ a < c.page - maxKey) →
      (p1.mem.write (c.page - high.length) high) a = p1.mem a := by
    intro a ha
    refine Mem.write_apply_of_lt ?_
    rcases ha with ⟨ha1, ha2⟩ | ⟨_, ha⟩ <;> omega
  refine ⟨{ p1 with low := { p1.rmeta c 0 with recLen := (p1.rmeta c 0).keyLen }
                    size := p1.size + 0 * (p1.rmeta c 0).keyLen.toNat }, es.drop n, n, ?_, rfl, ?_, ?_, ?_, ?_⟩
  · simp only [VPage.bulkload, if_false, Bool.false_eq_true, hn, h1, Option.map_some]
  · have hr := h2.reads (mem := p1.mem.write (c.page - high.length) high)
      (low := { p1.rmeta c 0 with recLen := (p1.rmeta c 0).keyLen })
      (high := Util.Metadata.mk' (c.page - high.length) high.length high.length)
      (size := p1.size + 0 * (p1.rmeta c 0).keyLen.toNat + high.length) (by omega) (by omega)
      (by omega) hkeep
    intro i hi
    exact ⟨hr.keys i hi, hr.pays i hi⟩
  · show Mem.read _ _ _ = _
    show Mem.read (p1.mem.write (c.page - high.length) high) _ _ = high
    simp only [VPage.linkNext]
    rw [mk'_offset (by omega), mk'_keyLen (by omega), Mem.read_write_self]
  · show p1.size + 0 * (p1.rmeta c 0).keyLen.toNat + high.length = _
    rw [leafBytes_eq, h2.size]
    simp only [List.length_nil]
    omega
  · intro rs low old' size hrs hsz hle
    rw [leafBytes_eq] at hsz ⊢
    simp only [List.length_nil] at hsz
    obtain ⟨pg, h1, h2, h3, h4, h5, _⟩ := consolidate_leaf (old := old') (start := c.page) (c := c)
      (rs := rs) (low := low) (high := high) hpg (fun _ => Nat.le_refl _) hpg
      (by rw [ite_self]; omega) hrs
    exact ⟨pg, h1, fun i hi => ⟨h2.keys i hi, h2.pays i hi⟩, h3, h4, h5⟩

/-- Not vacuous: with the default page and keys of up to 128 bytes the leaf takes six records. -/
example : (VPage.bulkload exV 128 921 (fun _ => 0) false (longRecs 9)).map
    (fun x => (x.1.cnt, x.1.size, x.2.length, (x.1.linkNext exV (longKey 7)).size))
      = some (6, 728, 3, 828) ∧ exV.hdr + 128 ≤ 921 := by decide +kernel

/-- C23 is false.  With the default page size (1024 bytes, bulkload capacity 921) and the default
maximum key length, a bulkloaded leaf with six records (100-byte keys, 8-byte payloads) and a right
sibling has a `node_size_` of 828 instead of 928 bytes.  Inserting a seventh record gives a chain of
size 944, which is at most a page, so the chain is consolidated and not split.  The consolidated node
needs 1044 bytes; its highest key is stored over the metadata and the last record is lost. -/
theorem C23_false :
    ∃ (pg : VPage) (rest : List (List UInt8 × List UInt8)) (high : List UInt8)
      (r : List UInt8 × List UInt8) (pg' : VPage),
      VPage.bulkload exV 128 921 (fun _ => 0) false (longRecs 9) = some (pg, rest) ∧
      rest.head?.map Prod.fst = some high ∧
      (pg.linkNext exV high).size + (r.1.length + r.2.length + metaLen) ≤ exV.page ∧
      VPage.consolidate exV (fun _ => 0) false exV.page (longRecs 6 ++ [r]) (longKey 1) high
        = some pg' ∧
      pg'.cnt = 7 ∧ pg'.key exV 6 ≠ r.1 ∧ exV.page < pg'.size := by
  have hb : (VPage.bulkload exV 128 921 (fun _ => 0) false (longRecs 9)).map (fun x =>
      (x.2.head?.map Prod.fst, decide ((x.1.linkNext exV (longKey 7)).size + (100 + 8 + 8) ≤ 1024)))
      = some (some (longKey 7), true) := by decide +kernel
  have hc : (VPage.consolidate exV (fun _ => 0) false exV.page
      (longRecs 6 ++ [(longKey 60, List.replicate 8 9)]) (longKey 1) (longKey 7)).map (fun p =>
      (p.cnt, (p.rmeta exV 6).keyLen.toNat, decide (exV.page < p.size)))
      = some (7, 1799, true) := by decide +kernel
  rw [Option.map_eq_some_iff] at hb hc
  obtain ⟨⟨pg, rest⟩, hb1, hb2⟩ := hb
  obtain ⟨pg', hc1, hc2⟩ := hc
  simp only [Prod.mk.injEq, decide_eq_true_eq] at hb2 hc2
  refine ⟨pg, rest, longKey 7, (longKey 60, List.replicate 8 9), pg', hb1, hb2.1, hb2.2, hc1,
    hc2.1, fun h => ?_, hc2.2.2⟩
  have hl : (pg'.key exV 6).length = 1799 := by
    simp only [VPage.key, Mem.read, List.length_map, List.length_range]
    exact hc2.2.1
  rw [h] at hl
  exact absurd hl (by decide +kernel)

/-! ## C50: delta records fit in their pages -/

/-- The keys of a delta record are at most `maxKey` bytes long. -/
def KeysLE (maxKey : Nat) : DKind → Prop
  | .put k => k ≤ maxKey
  | .del k => k ≤ maxKey
  | .entry l h => l ≤ maxKey ∧ h ≤ maxKey
  | .idxDel l h => l ≤ maxKey ∧ h ≤ maxKey
  | .remove => True

theorem alignUp6 {x : Nat} (h : x < 2 ^ 60) : alignUp 6 x = (x + 63) / 64 * 64 :=
  alignUp_eq 6 x (by decide) (by omega)

theorem alignUp3 {x : Nat} (h : x < 2 ^ 60) : alignUp 3 x = (x + 7) / 8 * 8 :=
  alignUp_eq 3 x (by decide) (by omega)

/-- C50, variable-length layout.  All delta records fit in a delta page iff an index-delete record
with two keys of maximum length does, i.e. iff rounding the end of the lowest key up to a word does
not use up the slack of the page.  This is the case for maximum key lengths divisible by eight.

Missing for the full property: other maximum key lengths, see `C50_false`. -/
theorem C50_varlen_deltas_fit_partial (hdr maxKey payLen : Nat) (h8 : hdr % 8 = 0)
    (hsmall : hdr + 2 * maxKey + payLen < 2 ^ 40) :
    ((∀ d, KeysLE maxKey d → vDeltaEnd hdr payLen d ≤ vDeltaCap hdr maxKey payLen) ↔
      hdr + (maxKey + 7) / 8 * 8 + 8 + maxKey
        ≤ (hdr + 2 * maxKey + max payLen 8 + 63) / 64 * 64) ∧
    (maxKey % 8 = 0 →
      ∀ d, KeysLE maxKey d → vDeltaEnd hdr payLen d ≤ vDeltaCap hdr maxKey payLen) := by
  have hcap : vDeltaCap hdr maxKey payLen = (hdr + 2 * maxKey + max payLen 8 + 63) / 64 * 64 :=
    alignUp6 (by omega)
  have hal : ∀ l, l ≤ maxKey → alignUp 3 (hdr + l) = hdr + (l + 7) / 8 * 8 := by
    intro l hl
    rw [alignUp3 (by omega)]
    omega
  have main : hdr + (maxKey + 7) / 8 * 8 + 8 + maxKey
        ≤ (hdr + 2 * maxKey + max payLen 8 + 63) / 64 * 64 →
      ∀ d, KeysLE maxKey d → vDeltaEnd hdr payLen d ≤ vDeltaCap hdr maxKey payLen := by
    intro hc d hd
    rw [hcap]
    cases d with
    | put k => simp only [vDeltaEnd, KeysLE] at *; omega
    | del k => simp only [vDeltaEnd, KeysLE] at *; omega
    | entry l h => simp only [vDeltaEnd, KeysLE] at *; omega
    | idxDel l h =>
      simp only [vDeltaEnd, KeysLE] at *
      rw [hal l hd.1]
      omega
    | remove => simp only [vDeltaEnd]; omega
  refine ⟨⟨fun h => ?_, main⟩, fun hm => main (by omega)⟩
  have := h (.idxDel maxKey maxKey) ⟨Nat.le_refl _, Nat.le_refl _⟩
  rw [hcap] at this
  simp only [vDeltaEnd] at this
  rw [hal maxKey (Nat.le_refl _)] at this
  omega

/-- Not vacuous: the default maximum key length; and the bound is reached up to the rounding. -/
example : (128 % 8 = 0 ∧ 32 % 8 = 0) ∧ vDeltaEnd 32 8 (.idxDel 128 128) = 296 ∧
    vDeltaCap 32 128 8 = 320 := by decide +kernel

/-- C50 is false for 12-byte keys in the general layout (`BwTreeVarLen`, `bw_tree.hpp` 1709) and
8-byte payloads: an index-delete record with two keys ends four bytes behind its page of 64
bytes. -/
theorem C50_false :
    KeysLE 12 (.idxDel 12 12) ∧ vDeltaCap 32 12 8 = 64 ∧ vDeltaEnd 32 8 (.idxDel 12 12) = 68 := by
  refine ⟨⟨by decide, by decide⟩, ?_, ?_⟩ <;> decide +kernel

/-- The same with variable-length keys of at most 108 bytes. -/
example : KeysLE 108 (.idxDel 108 108) ∧ vDeltaCap 32 108 8 < vDeltaEnd 32 8 (.idxDel 108 108) :=
  ⟨⟨by decide, by decide⟩, by decide +kernel⟩

/-- C50, fixed-length layout: all delta records fit. -/
theorem C50_fixlen_deltas_fit (hdr block payLen : Nat) (h8 : hdr % 8 = 0) (hb : block ≤ hdr)
    (hsmall : hdr + payLen < 2 ^ 40) (d : DKind) :
    fDeltaEnd hdr block payLen d ≤ fDeltaCap hdr payLen := by
  have hcap : fDeltaCap hdr payLen = (hdr + max payLen 8 + 63) / 64 * 64 := alignUp6 (by omega)
  have hal : alignUp 3 hdr = hdr := by rw [alignUp3 (by omega)]; omega
  rw [hcap]
  cases d <;> simp only [fDeltaEnd, hal] <;> omega

/-- Not vacuous: 8-byte keys and payloads. -/
example : fDeltaCap 32 8 = 64 ∧ fDeltaEnd 32 32 8 (.idxDel 8 8) = 40 := by decide +kernel

end BwTree.Props
