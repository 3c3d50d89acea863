import Verif.Util.Model
import Mathlib.Order.Basic

/-!
# C24, C34, C35: utilities
-/

namespace BwTree.Props

open BwTree.Util

/-! ## C34 -/

/-- A byte string with a terminating NUL somewhere. -/
def Terminated (s : List UInt8) : Prop := (0 : UInt8) ∈ s

/-- A valid argument of the comparator: null, or a terminated string. -/
def ValidKey (a : Option (List UInt8)) : Prop := ∀ s, a = some s → Terminated s

/-- The characters in front of the NUL. -/
def chars (s : List UInt8) : List Nat := (s.takeWhile (· ≠ 0)).map UInt8.toNat

/-- Dictionary order. -/
inductive Dict : List Nat → List Nat → Prop where
  | nil (b bs) : Dict [] (b :: bs)
  | head {a b as bs} (h : a < b) : Dict (a :: as) (b :: bs)
  | tail {a as bs} (h : Dict as bs) : Dict (a :: as) (a :: bs)

/-- The order on keys: dictionary order of the characters, null greater than everything. -/
def KeyLt : Option (List UInt8) → Option (List UInt8) → Prop
  | none, _ => False
  | some _, none => True
  | some a, some b => Dict (chars a) (chars b)

theorem strcmp_spec (a b : List UInt8) (ha : Terminated a) (hb : Terminated b) :
    (strcmp a b = some .lt ∧ Dict (chars a) (chars b)) ∨
    (strcmp a b = some .gt ∧ Dict (chars b) (chars a)) ∨
    (strcmp a b = some .eq ∧ chars a = chars b) := by
  induction a generalizing b with
  | nil => simp [Terminated] at ha
  | cons x a ih =>
    cases b with
    | nil => simp [Terminated] at hb
    | cons y b =>
      by_cases h1 : x < y
      · left
        refine ⟨by simp [strcmp, h1], ?_⟩
        have hy : y ≠ 0 := by
          intro e; subst e
          rw [UInt8.lt_iff_toNat_lt] at h1
          simp at h1
        rw [UInt8.lt_iff_toNat_lt] at h1
        by_cases hx : x = 0
        · subst hx
          have e1 : chars (0 :: a) = [] := by simp [chars]
          have e2 : chars (y :: b) = y.toNat :: chars b := by simp [chars, hy]
          rw [e1, e2]; exact .nil _ _
        · have e1 : chars (x :: a) = x.toNat :: chars a := by simp [chars, hx]
          have e2 : chars (y :: b) = y.toNat :: chars b := by simp [chars, hy]
          rw [e1, e2]; exact .head h1
      · by_cases h2 : y < x
        · right; left
          refine ⟨by simp [strcmp, h1, h2], ?_⟩
          have hx : x ≠ 0 := by
            intro e; subst e
            rw [UInt8.lt_iff_toNat_lt] at h2
            simp at h2
          rw [UInt8.lt_iff_toNat_lt] at h2
          by_cases hy : y = 0
          · subst hy
            have e1 : chars (0 :: b) = [] := by simp [chars]
            have e2 : chars (x :: a) = x.toNat :: chars a := by simp [chars, hx]
            rw [e1, e2]; exact .nil _ _
          · have e1 : chars (x :: a) = x.toNat :: chars a := by simp [chars, hx]
            have e2 : chars (y :: b) = y.toNat :: chars b := by simp [chars, hy]
            rw [e1, e2]; exact .head h2
        · have hxy : x = y := by
            rw [UInt8.lt_iff_toNat_lt] at h1 h2
            exact UInt8.toNat.inj (by omega)
          subst hxy
          by_cases hx : x = 0
          · right; right
            subst hx
            exact ⟨by simp [strcmp], by simp [chars]⟩
          · have ha' : Terminated a := by
              simp only [Terminated, List.mem_cons] at ha
              rcases ha with e | e
              · exact absurd e.symm hx
              · exact e
            have hb' : Terminated b := by
              simp only [Terminated, List.mem_cons] at hb
              rcases hb with e | e
              · exact absurd e.symm hx
              · exact e
            have e0 : strcmp (x :: a) (x :: b) = strcmp a b := by
              conv => lhs; unfold strcmp
              simp [h1, hx]
            have e1 : chars (x :: a) = x.toNat :: chars a := by simp [chars, hx]
            have e2 : chars (x :: b) = x.toNat :: chars b := by simp [chars, hx]
            rw [e0, e1, e2]
            rcases ih b ha' hb' with ⟨i1, i2⟩ | ⟨i1, i2⟩ | ⟨i1, i2⟩
            · exact Or.inl ⟨i1, .tail i2⟩
            · exact Or.inr (Or.inl ⟨i1, .tail i2⟩)
            · exact Or.inr (Or.inr ⟨i1, by rw [i2]⟩)

theorem Dict.irrefl (a : List Nat) : ¬ Dict a a := by
  induction a with
  | nil => intro h; cases h
  | cons x a ih =>
    intro h
    cases h with
    | head h => omega
    | tail h => exact ih h

theorem Dict.trans {a b c : List Nat} (h1 : Dict a b) (h2 : Dict b c) : Dict a c := by
  induction h1 generalizing c with
  | nil b bs => cases h2 <;> exact .nil _ _
  | head h =>
    cases h2 with
    | head h' => exact .head (by omega)
    | tail h' => exact .head h
  | tail h ih =>
    cases h2 with
    | head h' => exact .head h'
    | tail h' => exact .tail (ih h')

theorem Dict.total (a b : List Nat) : Dict a b ∨ a = b ∨ Dict b a := by
  induction a generalizing b with
  | nil => cases b with
    | nil => exact Or.inr (Or.inl rfl)
    | cons y b => exact Or.inl (.nil _ _)
  | cons x a ih =>
    cases b with
    | nil => exact Or.inr (Or.inr (.nil _ _))
    | cons y b =>
      rcases Nat.lt_trichotomy x y with h | h | h
      · exact Or.inl (.head h)
      · subst h
        rcases ih b with h | h | h
        · exact Or.inl (.tail h)
        · exact Or.inr (Or.inl (by rw [h]))
        · exact Or.inr (Or.inr (.tail h))
      · exact Or.inr (Or.inr (.head h))

/-- On valid arguments the comparator reads no byte past a terminator and decides `KeyLt`. -/
theorem compare_iff (a b : Option (List UInt8)) (ha : ValidKey a) (hb : ValidKey b) :
    ∃ r, compareAsCString a b = some r ∧ (r = true ↔ KeyLt a b) := by
  cases a with
  | none => exact ⟨false, rfl, by simp [KeyLt]⟩
  | some a =>
    cases b with
    | none => exact ⟨true, rfl, by simp [KeyLt]⟩
    | some b =>
      simp only [compareAsCString, KeyLt]
      rcases strcmp_spec a b (ha a rfl) (hb b rfl) with ⟨h1, h2⟩ | ⟨h1, h2⟩ | ⟨h1, h2⟩
      · exact ⟨true, by simp [h1], by simp [h2]⟩
      · refine ⟨false, by simp [h1], by simp; intro h; exact Dict.irrefl _ (h.trans h2)⟩
      · refine ⟨false, by simp [h1], by simp [h2, Dict.irrefl]⟩

/-- Neither is smaller. -/
def Incomparable (a b : Option (List UInt8)) : Prop :=
  compareAsCString a b = some false ∧ compareAsCString b a = some false

/-- **C34.**  On null pointers and NUL-terminated strings the comparator is well defined and is a
strict weak order: irreflexive, transitive, with transitive incomparability; null is above every
string; and it is the dictionary order of the characters up to the NUL (so bytes behind the NUL do
not matter). -/
theorem C34_comparator_strict_weak_order :
    (∀ a b, ValidKey a → ValidKey b → ∃ r, compareAsCString a b = some r) ∧
    (∀ a, ValidKey a → compareAsCString a a = some false) ∧
    (∀ a b c, ValidKey a → ValidKey b → ValidKey c → compareAsCString a b = some true →
      compareAsCString b c = some true → compareAsCString a c = some true) ∧
    (∀ a b c, ValidKey a → ValidKey b → ValidKey c → Incomparable a b → Incomparable b c →
      Incomparable a c) ∧
    (∀ s, Terminated s → compareAsCString (some s) none = some true ∧
      compareAsCString none (some s) = some false) ∧
    (∀ s t, Terminated s → Terminated t →
      (compareAsCString (some s) (some t) = some true ↔ Dict (chars s) (chars t)) ∧
      (Incomparable (some s) (some t) ↔ chars s = chars t)) := by
  have T : ∀ a b, ValidKey a → ValidKey b → (compareAsCString a b = some true ↔ KeyLt a b) := by
    intro a b ha hb
    obtain ⟨r, h1, h2⟩ := compare_iff a b ha hb
    rw [h1, ← h2]; simp
  have F : ∀ a b, ValidKey a → ValidKey b → (compareAsCString a b = some false ↔ ¬ KeyLt a b) := by
    intro a b ha hb
    obtain ⟨r, h1, h2⟩ := compare_iff a b ha hb
    rw [h1, ← h2]; simp
  have I : ∀ a b, ValidKey a → ValidKey b →
      (Incomparable a b ↔ a.map chars = b.map chars) := by
    intro a b ha hb
    unfold Incomparable
    rw [F a b ha hb, F b a hb ha]
    cases a <;> cases b <;> simp [KeyLt]
    rename_i s t
    constructor
    · rintro ⟨h1, h2⟩
      rcases Dict.total (chars s) (chars t) with h | h | h
      · exact absurd h h1
      · exact h
      · exact absurd h h2
    · intro h; rw [h]; simp [Dict.irrefl]
  refine ⟨?_, ?_, ?_, ?_, ?_, ?_⟩
  · intro a b ha hb
    obtain ⟨r, h, _⟩ := compare_iff a b ha hb
    exact ⟨r, h⟩
  · intro a ha
    rw [F a a ha ha]
    cases a <;> simp [KeyLt, Dict.irrefl]
  · intro a b c ha hb hc
    rw [T a b ha hb, T b c hb hc, T a c ha hc]
    cases a <;> cases b <;> cases c <;> simp [KeyLt]
    intro h1 h2; exact h1.trans h2
  · intro a b c ha hb hc
    rw [I a b ha hb, I b c hb hc, I a c ha hc]
    intro h1 h2; rw [h1, h2]
  · intro s _; exact ⟨rfl, rfl⟩
  · intro s t hs ht
    have vs : ValidKey (some s) := by intro x e; cases e; exact hs
    have vt : ValidKey (some t) := by intro x e; cases e; exact ht
    exact ⟨T _ _ vs vt, by rw [I _ _ vs vt]; simp⟩

/-- Terminated strings with a common prefix, one with a byte above 127, and garbage after NUL. -/
example : Terminated [97, 98, 0] ∧ Terminated [97, 200, 0, 5] ∧
    compareAsCString (some [97, 98, 0]) (some [97, 200, 0, 5]) = some true ∧
    compareAsCString (some [97, 0, 1]) (some [97, 0, 2]) = some false := by
  refine ⟨by simp [Terminated], by simp [Terminated], by decide, by decide⟩

/-! ## C35 -/

/-- **C35.**  `Log2 n` is the greatest `e` with `2^e ≤ n`, and 0 for `n = 0`. -/
theorem C35_log2_floor (n : Nat) :
    (n = 0 → log2 n = 0) ∧
    (1 ≤ n → 2 ^ log2 n ≤ n ∧ ∀ e, 2 ^ e ≤ n → e ≤ log2 n) := by
  refine ⟨fun h => by subst h; unfold log2; simp, ?_⟩
  induction n using Nat.strongRecOn with
  | _ n ih =>
    intro hn
    by_cases h1 : n = 1
    · subst h1
      refine ⟨by unfold log2; simp, ?_⟩
      intro e he
      have e0 : log2 1 = 0 := by unfold log2; simp
      rw [e0]
      by_contra hc
      have : 2 ^ 1 ≤ 2 ^ e := Nat.pow_le_pow_right (by omega) (by omega)
      omega
    · have e0 : log2 n = log2 (n / 2) + 1 := by
        conv => lhs; unfold log2
        simp [h1, show n ≠ 0 by omega, Nat.shiftRight_eq_div_pow]
      obtain ⟨i1, i2⟩ := ih (n / 2) (by omega) (by omega)
      rw [e0, Nat.pow_succ]
      refine ⟨by omega, ?_⟩
      intro e he
      cases e with
      | zero => omega
      | succ e =>
        rw [Nat.pow_succ] at he
        have := i2 e (by omega)
        omega

example : log2 1 = 0 ∧ log2 4 = 2 ∧ log2 1023 = 9 := by simp [log2]

/-! ## C24 -/

/-- **C24 (partial).**  A triple is read back unchanged whenever its offset and lengths are below
`2^16`.  In a page of at most 32 KiB (so that the two-page scan copies have at most 64 KiB) every
offset and length qualifies.  Missing: larger pages, for which the property is false
(`C24_false_for_large_pages`). -/
theorem C24_metadata_lossless_partial (page offset keyLen totalLen : Nat) (hp : page ≤ 32768)
    (ho : offset + totalLen ≤ 2 * page) (hk : keyLen ≤ totalLen) (ht : 0 < totalLen)
    (hl : totalLen ≤ page) :
    (Metadata.mk' offset keyLen totalLen).offset.toNat = offset ∧
    (Metadata.mk' offset keyLen totalLen).keyLen.toNat = keyLen ∧
    (Metadata.mk' offset keyLen totalLen).recLen.toNat = totalLen ∧
    (Metadata.mk' offset keyLen totalLen).payloadLength = totalLen - keyLen := by
  have h1 : offset < 65536 := by omega
  have h2 : keyLen < 65536 := by omega
  have h3 : totalLen < 65536 := by omega
  simp [Metadata.mk', Metadata.payloadLength, Nat.mod_eq_of_lt h1, Nat.mod_eq_of_lt h2,
    Nat.mod_eq_of_lt h3]

example : (1000 : Nat) + 24 ≤ 2 * 1024 ∧ 16 ≤ 24 ∧ 24 ≤ 1024 ∧ 1024 ≤ 32768 ∧
    (Metadata.mk' 1000 16 24).offset.toNat = 1000 := by decide

/-- The code violates C24 for pages above 32 KiB: the scan copy of a 64 KiB page places its first
record near offset 128 KiB, and the offset is truncated to 16 bits although the field has 32. -/
theorem C24_false_for_large_pages :
    ∃ page offset keyLen totalLen : Nat, page = 65536 ∧ offset + totalLen ≤ 2 * page ∧
      keyLen ≤ totalLen ∧ totalLen < 65536 ∧
      (Metadata.mk' offset keyLen totalLen).offset.toNat ≠ offset :=
  ⟨65536, 131048, 16, 24, rfl, by decide, by decide, by decide, by decide⟩

end BwTree.Props
