import Verif.Layout.Model

/-!
# Lemmas about pages as bytes
-/

namespace BwTree.Layout

open Util (Metadata)

/-! ## Rounding up -/

theorem roundBits (k x : Nat) (hk : k ≤ 63) (hx : x + (2 ^ k - 1) < 2 ^ 64) :
    ((BitVec.ofNat 64 x + BitVec.ofNat 64 (2 ^ k - 1)) &&&
      ~~~ (BitVec.ofNat 64 (2 ^ k - 1))).toNat = (x + (2 ^ k - 1)) / 2 ^ k * 2 ^ k := by
  have e : BitVec.ofNat 64 x + BitVec.ofNat 64 (2 ^ k - 1) = BitVec.ofNat 64 (x + (2 ^ k - 1)) := by
    rw [BitVec.ofNat_add]
  rw [e]
  generalize hy : x + (2 ^ k - 1) = y at hx
  apply Nat.eq_of_testBit_eq
  intro i
  rw [← BitVec.getLsbD, BitVec.getLsbD_and, BitVec.getLsbD_not, BitVec.getLsbD_ofNat,
    BitVec.getLsbD_ofNat, Nat.testBit_two_pow_sub_one, Nat.mul_comm, Nat.testBit_two_pow_mul,
    Nat.testBit_div_two_pow]
  by_cases hi : i < 64
  · by_cases hki : k ≤ i
    · have : ¬ i < k := by omega
      simp [hi, hki, this]
    · have : i < k := by omega
      simp [hi, hki, this]
  · have h1 : y.testBit i = false := Nat.testBit_lt_two_pow
      (Nat.lt_of_lt_of_le hx (Nat.pow_le_pow_right (by decide) (by omega)))
    have hki : k ≤ i := by omega
    simp [hi, hki, h1]

theorem alignUp_eq (k x : Nat) (hk : k ≤ 63) (hx : x + (2 ^ k - 1) < 2 ^ 64) :
    alignUp k x = (x + (2 ^ k - 1)) / 2 ^ k * 2 ^ k := roundBits k x hk hx

/-! ## Reading and writing bytes -/

theorem Mem.write_apply_of_lt {m : Mem} {off : Nat} {bs : List UInt8} {a : Nat} (h : a < off) :
    m.write off bs a = m a := by
  have : ¬ off ≤ a := by omega
  simp [Mem.write, this]

theorem Mem.write_apply_of_ge {m : Mem} {off : Nat} {bs : List UInt8} {a : Nat}
    (h : off + bs.length ≤ a) : m.write off bs a = m a := by
  have h1 : ¬ a - off < bs.length := by omega
  simp only [Mem.write, h1, dif_neg, not_false_eq_true, ite_self]

theorem Mem.read_congr {m m' : Mem} {off len : Nat}
    (h : ∀ a, off ≤ a → a < off + len → m a = m' a) : m.read off len = m'.read off len := by
  apply List.map_congr_left
  intro i hi
  rw [List.mem_range] at hi
  exact h _ (by omega) (by omega)

theorem Mem.read_write_self (m : Mem) (off : Nat) (bs : List UInt8) :
    (m.write off bs).read off bs.length = bs := by
  apply List.ext_getElem
  · simp [Mem.read]
  · intro i h1 h2
    simp [Mem.read, Mem.write, h2]

theorem Mem.read_write_of_disj {m : Mem} {off off' len : Nat} {bs : List UInt8}
    (h : off' + len ≤ off ∨ off + bs.length ≤ off') :
    (m.write off bs).read off' len = m.read off' len := by
  apply Mem.read_congr
  intro a h1 h2
  rcases h with h | h
  · exact Mem.write_apply_of_lt (by omega)
  · exact Mem.write_apply_of_ge (by omega)

theorem Mem.read_write_append (m : Mem) (off : Nat) (a b : List UInt8) :
    (m.write off (a ++ b)).read off a.length = a ∧
      (m.write off (a ++ b)).read (off + a.length) b.length = b := by
  constructor
  · apply List.ext_getElem
    · simp [Mem.read]
    · intro i h1 h2
      have : i < a.length + b.length := by omega
      simp [Mem.read, Mem.write, this, h2]
  · apply List.ext_getElem
    · simp [Mem.read]
    · intro i h1 h2
      have h3 : off + a.length + i - off = a.length + i := by omega
      have h4 : off ≤ off + a.length + i := by omega
      simp only [Mem.read, Mem.write, List.getElem_map, List.getElem_range, h3, h4, if_true,
        List.length_append, Nat.add_lt_add_iff_left, h2, dif_pos]
      rw [List.getElem_append_right (by omega)]
      simp

/-! ## Fixed-length nodes -/

/-- What a page holds after the records `rs` have been stored from offset `start` down. -/
structure FHolds (c : FCfg) (plen start : Nat) (old : Mem) (rs : List (List UInt8 × List UInt8))
    (pg : FPage) : Prop where
  cnt : pg.cnt = rs.length
  size : pg.size = c.hdr + rs.length * (c.klen + plen)
  keys : ∀ i (h : i < rs.length), pg.mem.read (c.keys + i * c.klen) c.klen = (rs[i]).1
  pays : ∀ i (h : i < rs.length), pg.mem.read (start - (i + 1) * plen) plen = (rs[i]).2
  head : ∀ a, a < c.keys → pg.mem a = old a
  rest : ∀ a, start ≤ a → pg.mem a = old a

theorem FHolds.init {c : FCfg} {plen start : Nat} {old : Mem} :
    FHolds c plen start old [] (FPage.init c old) :=
  { cnt := rfl, size := by simp [FPage.init], keys := fun i h => absurd h (by simp),
    pays := fun i h => absurd h (by simp), head := fun a h => rfl, rest := fun a h => rfl }

/-- Space for one more record. -/
theorem room {c : FCfg} (hk : c.keys ≤ c.hdr) {plen start n : Nat}
    (hfit : c.hdr + (n + 1) * (c.klen + plen) ≤ start) :
    (n + 1) * plen ≤ start ∧ c.keys + (n + 1) * c.klen ≤ start - (n + 1) * plen := by
  rw [Nat.mul_add] at hfit
  constructor <;> omega

theorem FHolds.snoc {c : FCfg} (hk : c.keys ≤ c.hdr) {plen start : Nat} {old : Mem}
    {rs : List (List UInt8 × List UInt8)} {pg : FPage} (h : FHolds c plen start old rs pg)
    {r : List UInt8 × List UInt8} (hr1 : r.1.length = c.klen) (hr2 : r.2.length = plen)
    (hfit : c.hdr + (rs.length + 1) * (c.klen + plen) ≤ start) (hn : rs.length + 1 < 65536)
    {mem : Mem}
    (hmem : mem = (pg.mem.write (c.keys + pg.cnt * c.klen) r.1).write
        (start - (rs.length + 1) * plen) r.2 ∨
      mem = (pg.mem.write (start - (rs.length + 1) * plen) r.2).write
        (c.keys + pg.cnt * c.klen) r.1) :
    FHolds c plen start old (rs ++ [r])
      { mem := mem, cnt := (pg.cnt + 1) % 65536, size := pg.size + (c.klen + r.2.length) } := by
  have hroom := room hk hfit
  obtain ⟨hroom1, hroom2⟩ := hroom
  have hcnt := h.cnt
  rw [hcnt] at hmem
  have e1 : (rs.length + 1) * c.klen = rs.length * c.klen + c.klen := Nat.succ_mul _ _
  have e2 : (rs.length + 1) * plen = rs.length * plen + plen := Nat.succ_mul _ _
  -- values of the new memory
  have hout : ∀ a, (a < c.keys + rs.length * c.klen ∨ c.keys + (rs.length + 1) * c.klen ≤ a) →
      (a < start - (rs.length + 1) * plen ∨ start - rs.length * plen ≤ a) → mem a = pg.mem a := by
    intro a h1 h2
    have w1 : ∀ m : Mem, m.write (c.keys + rs.length * c.klen) r.1 a = m a := by
      intro m
      rcases h1 with h1 | h1
      · exact Mem.write_apply_of_lt h1
      · exact Mem.write_apply_of_ge (by omega)
    have w2 : ∀ m : Mem, m.write (start - (rs.length + 1) * plen) r.2 a = m a := by
      intro m
      rcases h2 with h2 | h2
      · exact Mem.write_apply_of_lt h2
      · exact Mem.write_apply_of_ge (by omega)
    rcases hmem with hm | hm <;> rw [hm]
    · rw [w2, w1]
    · rw [w1, w2]
  have hkey : mem.read (c.keys + rs.length * c.klen) c.klen = r.1 := by
    rcases hmem with hm | hm <;> rw [hm]
    · rw [Mem.read_write_of_disj (Or.inl (by omega)), ← hr1, Mem.read_write_self]
    · rw [← hr1, Mem.read_write_self]
  have hpay : mem.read (start - (rs.length + 1) * plen) plen = r.2 := by
    rcases hmem with hm | hm <;> rw [hm]
    · rw [← hr2, Mem.read_write_self]
    · rw [Mem.read_write_of_disj (Or.inr (by omega)), ← hr2, Mem.read_write_self]
  refine ⟨?_, ?_, ?_, ?_, ?_, ?_⟩
  · show (pg.cnt + 1) % 65536 = _
    rw [hcnt, List.length_append]
    exact Nat.mod_eq_of_lt hn
  · show pg.size + _ = _
    rw [h.size, hr2, List.length_append]
    have : (rs.length + [r].length) * (c.klen + plen)
        = rs.length * (c.klen + plen) + (c.klen + plen) := Nat.succ_mul _ _
    omega
  · intro i hi
    show mem.read _ _ = _
    rw [List.length_append] at hi
    have hi' : i < rs.length + 1 := hi
    by_cases hlt : i < rs.length
    · rw [List.getElem_append_left hlt, ← h.keys i hlt]
      have hm : (i + 1) * c.klen ≤ rs.length * c.klen := Nat.mul_le_mul_right _ hlt
      have e3 : (i + 1) * c.klen = i * c.klen + c.klen := Nat.succ_mul _ _
      exact Mem.read_congr fun a h1 h2 => hout a (Or.inl (by omega)) (Or.inl (by omega))
    · have : i = rs.length := by omega
      subst this
      rw [List.getElem_append_right (Nat.le_refl _)]
      simpa using hkey
  · intro i hi
    show mem.read _ _ = _
    rw [List.length_append] at hi
    have hi' : i < rs.length + 1 := hi
    by_cases hlt : i < rs.length
    · rw [List.getElem_append_left hlt, ← h.pays i hlt]
      have hm : (i + 1) * plen ≤ rs.length * plen := Nat.mul_le_mul_right _ hlt
      exact Mem.read_congr fun a h1 h2 => hout a (Or.inr (by omega)) (Or.inr (by omega))
    · have : i = rs.length := by omega
      subst this
      rw [List.getElem_append_right (Nat.le_refl _)]
      simpa using hpay
  · intro a ha
    show mem a = old a
    rw [hout a (Or.inl (by omega)) (Or.inl (by omega)), h.head a ha]
  · intro a ha
    show mem a = old a
    rw [hout a (Or.inr (by omega)) (Or.inr (by omega)), h.rest a ha]

theorem fill_holds {c : FCfg} (hk : c.keys ≤ c.hdr) {plen start : Nat} {old : Mem} :
    ∀ (rs done : List (List UInt8 × List UInt8)) (pg : FPage),
      FHolds c plen start old done pg →
      (∀ r ∈ rs, r.1.length = c.klen ∧ r.2.length = plen) →
      c.hdr + (done.length + rs.length) * (c.klen + plen) ≤ start →
      done.length + rs.length < 65536 →
      ∃ pg', pg.fill c (start - done.length * plen) rs
          = some (pg', start - (done.length + rs.length) * plen) ∧
        FHolds c plen start old (done ++ rs) pg'
  | [], done, pg, h, _, _, _ => ⟨pg, rfl, by simpa using h⟩
  | r :: rs, done, pg, h, hl, hf, hn => by
    have hr := hl r List.mem_cons_self
    have hlen : (r :: rs).length = rs.length + 1 := rfl
    rw [hlen] at hf hn
    have hm : (done.length + 1) * (c.klen + plen) ≤ (done.length + (rs.length + 1)) * (c.klen + plen) :=
      Nat.mul_le_mul_right _ (by omega)
    have hroom := room (n := done.length) hk (start := start) (plen := plen) (by omega)
    have e2 : (done.length + 1) * plen = done.length * plen + plen := Nat.succ_mul _ _
    have hle : r.2.length ≤ start - done.length * plen := by omega
    have heq : start - done.length * plen - r.2.length = start - (done.length + 1) * plen := by omega
    have hs := h.snoc hk hr.1 hr.2 (by omega) (by omega) (Or.inl rfl)
    obtain ⟨pg', h1, h2⟩ := fill_holds hk rs (done ++ [r]) _ hs
      (fun x hx => hl x (List.mem_cons_of_mem _ hx))
      (by rw [List.length_append]; simpa [Nat.add_assoc, Nat.add_comm 1] using hf)
      (by rw [List.length_append]; simpa [Nat.add_assoc, Nat.add_comm 1] using hn)
    refine ⟨pg', ?_, by simpa using h2⟩
    rw [List.length_append] at h1
    simp only [FPage.fill, FPage.put, hle, if_true, Option.bind_some, heq, hlen]
    have e : done.length + [r].length + rs.length = done.length + (rs.length + 1) := by
      simp only [List.length_singleton]; omega
    rw [e] at h1
    exact h1

theorem bfill_holds {c : FCfg} (hk : c.keys ≤ c.hdr) {plen start : Nat} {old : Mem} :
    ∀ (rs done : List (List UInt8 × List UInt8)) (pg : FPage),
      FHolds c plen start old done pg →
      (∀ r ∈ rs, r.1.length = c.klen ∧ r.2.length = plen) →
      c.hdr + (done.length + rs.length) * (c.klen + plen) ≤ start →
      done.length + rs.length < 65536 →
      ∃ pg', pg.bfill c (start - done.length * plen) rs
          = some (pg', start - (done.length + rs.length) * plen) ∧
        FHolds c plen start old (done ++ rs) pg'
  | [], done, pg, h, _, _, _ => ⟨pg, rfl, by simpa using h⟩
  | r :: rs, done, pg, h, hl, hf, hn => by
    have hr := hl r List.mem_cons_self
    have hlen : (r :: rs).length = rs.length + 1 := rfl
    rw [hlen] at hf hn
    have hm : (done.length + 1) * (c.klen + plen) ≤ (done.length + (rs.length + 1)) * (c.klen + plen) :=
      Nat.mul_le_mul_right _ (by omega)
    have hroom := room (n := done.length) hk (start := start) (plen := plen) (by omega)
    have e2 : (done.length + 1) * plen = done.length * plen + plen := Nat.succ_mul _ _
    have hle : r.2.length ≤ start - done.length * plen := by omega
    have heq : start - done.length * plen - r.2.length = start - (done.length + 1) * plen := by omega
    have hs := h.snoc hk hr.1 hr.2 (by omega) (by omega) (Or.inr rfl)
    obtain ⟨pg', h1, h2⟩ := bfill_holds hk rs (done ++ [r]) _ hs
      (fun x hx => hl x (List.mem_cons_of_mem _ hx))
      (by rw [List.length_append]; simpa [Nat.add_assoc, Nat.add_comm 1] using hf)
      (by rw [List.length_append]; simpa [Nat.add_assoc, Nat.add_comm 1] using hn)
    refine ⟨pg', ?_, by simpa using h2⟩
    rw [List.length_append] at h1
    simp only [FPage.bfill, FPage.bput, hle, if_true, Option.bind_some, heq, hlen]
    have e : done.length + [r].length + rs.length = done.length + (rs.length + 1) := by
      simp only [List.length_singleton]; omega
    rw [e] at h1
    exact h1

/-- The address a payload is read from. -/
theorem payAddr_eq {c : FCfg} {k : Nat} (hp : c.page = 2 ^ k) (hk : k ≤ 31) {pg : FPage} {q : Nat}
    (hq : q = 1 ∨ q = 2) (hlo : (q - 1) * c.page < pg.size) (hhi : pg.size ≤ q * c.page)
    {plen pos : Nat} (hfit : plen * (pos + 1) ≤ q * c.page) :
    pg.payAddr c plen pos = q * c.page - plen * (pos + 1) := by
  have hpk : 2 ^ k ≤ 2 ^ 31 := Nat.pow_le_pow_right (by decide) hk
  have hpos : 0 < 2 ^ k := Nat.pow_pos (by decide)
  unfold FPage.payAddr
  have hr := roundBits k pg.size (by omega) (by rcases hq with rfl | rfl <;> omega)
  rw [hp]
  have hdiv : (pg.size + (2 ^ k - 1)) / 2 ^ k = q := by
    rw [Nat.div_eq_iff hpos]
    rw [hp] at hlo hhi
    rcases hq with rfl | rfl <;> omega
  rw [hdiv] at hr
  rw [hp] at hfit
  have h1 : (BitVec.ofNat 64 (plen * (pos + 1))).toNat = plen * (pos + 1) := by
    rw [BitVec.toNat_ofNat]
    exact Nat.mod_eq_of_lt (by rcases hq with rfl | rfl <;> omega)
  rw [BitVec.toNat_sub_of_le (by rw [BitVec.le_def, hr, h1]; exact hfit), hr, h1]

theorem split_right {c : FCfg} (hk : c.keys ≤ c.hdr) {plen : Nat} {old : Mem} {lp : FPage} :
    ∀ (rs done : List (List UInt8 × List UInt8)) (pg : FPage),
      FHolds c plen c.page old done pg →
      (∀ r ∈ rs, r.1.length = c.klen ∧ r.2.length = plen) →
      c.hdr + (done.length + rs.length) * (c.klen + plen) ≤ c.page →
      done.length + rs.length < 65536 →
      ∃ s', FSplit.fill c
          { cur := pg, off := c.page - done.length * plen, right := none, left := some lp } rs
          = some s' ∧ s'.left = some lp ∧ FHolds c plen c.page old (done ++ rs) s'.cur
  | [], done, pg, h, _, _, _ => ⟨_, rfl, rfl, by simpa using h⟩
  | r :: rs, done, pg, h, hl, hf, hn => by
    have hr := hl r List.mem_cons_self
    have hlen : (r :: rs).length = rs.length + 1 := rfl
    rw [hlen] at hf hn
    have hm : (done.length + 1) * (c.klen + plen) ≤ (done.length + (rs.length + 1)) * (c.klen + plen) :=
      Nat.mul_le_mul_right _ (by omega)
    have hroom := room (n := done.length) hk (start := c.page) (plen := plen) (by omega)
    have e2 : (done.length + 1) * plen = done.length * plen + plen := Nat.succ_mul _ _
    have hle : r.2.length ≤ c.page - done.length * plen := by omega
    have heq : c.page - done.length * plen - r.2.length = c.page - (done.length + 1) * plen := by omega
    have hs := h.snoc hk hr.1 hr.2 (by omega) (by omega) (Or.inl rfl)
    obtain ⟨s', h1, h2, h3⟩ := split_right hk (lp := lp) rs (done ++ [r]) _ hs
      (fun x hx => hl x (List.mem_cons_of_mem _ hx))
      (by rw [List.length_append]; simpa [Nat.add_assoc, Nat.add_comm 1] using hf)
      (by rw [List.length_append]; simpa [Nat.add_assoc, Nat.add_comm 1] using hn)
    refine ⟨s', ?_, h2, by simpa using h3⟩
    rw [List.length_append] at h1
    simp only [FSplit.fill, FSplit.put, FPage.put, hle, if_true, Option.map_some, Option.bind_some,
      heq]
    exact h1

theorem split_left {c : FCfg} (hk : c.keys ≤ c.hdr) {plen : Nat} {old old' : Mem}
    (hh : c.hdr ≤ c.page / 8) (hquart : c.hdr + (c.klen + plen) ≤ c.page / 2) :
    ∀ (rs done : List (List UInt8 × List UInt8)) (pg : FPage),
      FHolds c plen c.page old done pg →
      c.hdr + done.length * (c.klen + plen) ≤ (c.page - c.hdr) / 2 →
      (∀ r ∈ rs, r.1.length = c.klen ∧ r.2.length = plen) →
      c.page < c.hdr + (done.length + rs.length) * (c.klen + plen) →
      c.hdr + (done.length + rs.length) * (c.klen + plen) ≤ c.page + c.page / 4 →
      done.length + rs.length < 65536 →
      ∃ s' l r lp, FSplit.fill c
          { cur := pg, off := c.page - done.length * plen, right := some (FPage.init c old'),
            left := none } rs
          = some s' ∧ done ++ rs = l ++ r ∧ s'.left = some lp ∧
        FHolds c plen c.page old l lp ∧ FHolds c plen c.page old' r s'.cur ∧
        (c.page - c.hdr) / 2 < c.hdr + l.length * (c.klen + plen) ∧
        c.hdr + (l.length - 1) * (c.klen + plen) ≤ (c.page - c.hdr) / 2
  | [], done, pg, h, hd, _, hov, _, _ => by
    simp only [List.length_nil, Nat.add_zero] at hov
    omega
  | r :: rs, done, pg, h, hd, hl, hov, hf, hn => by
    have hr := hl r List.mem_cons_self
    have hlen : (r :: rs).length = rs.length + 1 := rfl
    rw [hlen] at hf hn hov
    have e1 : (done.length + 1) * (c.klen + plen) = done.length * (c.klen + plen) + (c.klen + plen) :=
      Nat.succ_mul _ _
    have hroom := room (n := done.length) hk (start := c.page) (plen := plen) (by omega)
    have e2 : (done.length + 1) * plen = done.length * plen + plen := Nat.succ_mul _ _
    have hle : r.2.length ≤ c.page - done.length * plen := by omega
    have heq : c.page - done.length * plen - r.2.length = c.page - (done.length + 1) * plen := by omega
    have hs := h.snoc hk hr.1 hr.2 (by omega) (by omega) (Or.inl rfl)
    have hsz := hs.size
    rw [List.length_append] at hsz
    have hsz' : pg.size + (c.klen + r.2.length) = c.hdr + (done.length + 1) * (c.klen + plen) := hsz
    have hrs : ∀ x ∈ rs, x.1.length = c.klen ∧ x.2.length = plen :=
      fun x hx => hl x (List.mem_cons_of_mem _ hx)
    by_cases hsw : (c.page - c.hdr) / 2 < c.hdr + (done.length + 1) * (c.klen + plen)
    · have hm : (done.length + (rs.length + 1)) * (c.klen + plen)
          = (done.length + 1) * (c.klen + plen) + rs.length * (c.klen + plen) := by
        rw [← Nat.add_mul]; congr 1; omega
      obtain ⟨s', h1, h2, h3⟩ := split_right hk
        (lp := { mem := (pg.mem.write (c.keys + pg.cnt * c.klen) r.1).write
                   (c.page - (done.length + 1) * plen) r.2
                 cnt := (pg.cnt + 1) % 65536, size := pg.size + (c.klen + r.2.length) })
        rs [] (FPage.init c old') FHolds.init hrs
        (by simp only [List.length_nil, Nat.zero_add]; omega) (by simp only [List.length_nil]; omega)
      refine ⟨s', done ++ [r], rs, _, ?_, by simp, h2, hs, by simpa using h3, ?_, ?_⟩
      · simp only [FSplit.fill, FSplit.put, FPage.put, hle, if_true, Option.map_some,
          Option.bind_some, heq, hsz', hsw]
        simpa [hsz'] using h1
      · rw [List.length_append]; exact hsw
      · rw [List.length_append]
        show c.hdr + (done.length + 1 - 1) * _ ≤ _
        simpa using hd
    · obtain ⟨s', l, rr, lp, h1, h2, h3⟩ := split_left hk (old' := old') hh hquart rs (done ++ [r]) _ hs
        (by rw [List.length_append]; show c.hdr + (done.length + 1) * _ ≤ _; omega) hrs
        (by rw [List.length_append]; simpa [Nat.add_assoc, Nat.add_comm 1] using hov)
        (by rw [List.length_append]; simpa [Nat.add_assoc, Nat.add_comm 1] using hf)
        (by rw [List.length_append]; simpa [Nat.add_assoc, Nat.add_comm 1] using hn)
      refine ⟨s', l, rr, lp, ?_, by simpa using h2, h3⟩
      rw [List.length_append] at h1
      simp only [FSplit.fill, FSplit.put, FPage.put, hle, if_true, Option.map_some,
        Option.bind_some, heq, hsz', hsw, if_false]
      simpa [hsz'] using h1

end BwTree.Layout
