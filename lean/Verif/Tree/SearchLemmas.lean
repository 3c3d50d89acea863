import Verif.Tree.WF

/-!
# Binary searches are exact
-/

namespace BwTree

set_option linter.unusedSectionVars false

variable {K V α : Type} [LinearOrder K]

theorem sortedK_drop_lt {recs : List (K × α)} {b0 : Nat} (hs : SortedK (recs.drop b0))
    {i j : Nat} (hi : b0 ≤ i) (hij : i < j) (hj : j < recs.length) :
    (recs[i]'(by omega)).1 < recs[j].1 := by
  have h1 : i - b0 < (recs.drop b0).length := by simp; omega
  have h2 : j - b0 < (recs.drop b0).length := by simp; omega
  have := hs.getElem_lt h1 h2 (by omega)
  simpa [List.getElem_drop, Nat.add_sub_cancel' hi, Nat.add_sub_cancel' (show b0 ≤ j by omega)]
    using this

/-- Exactness of the binary search loop. -/
theorem bsLoop_spec (recs : List (K × α)) (key : K) (b0 : Nat) (hs : SortedK (recs.drop b0)) :
    ∀ (f b e : Nat), b0 ≤ b → e ≤ recs.length → e - b ≤ f →
    (b ≤ e ∨ b = b0) →
    (∀ i (_ : i < recs.length), b0 ≤ i → i < b → recs[i].1 < key) →
    (∀ i (_ : i < recs.length), b0 ≤ i → e ≤ i → key < recs[i].1) →
    (∃ pos, ∃ h : pos < recs.length, b0 ≤ pos ∧ bsLoop recs key f b e = some (true, pos) ∧
        recs[pos].1 = key) ∨
    (∃ pos, b0 ≤ pos ∧ (pos ≤ recs.length ∨ pos = b0) ∧ bsLoop recs key f b e = some (false, pos) ∧
        (∀ i (_ : i < recs.length), b0 ≤ i → i < pos → recs[i].1 < key) ∧
        (∀ i (_ : i < recs.length), b0 ≤ i → pos ≤ i → key < recs[i].1)) := by
  intro f
  induction f with
  | zero =>
    intro b e hb he hf hbe hl hr
    right
    refine ⟨b, hb, ?_, ?_, hl, ?_⟩
    · rcases hbe with h | h
      · left; omega
      · exact Or.inr h
    · simp [bsLoop]; omega
    · intro i hi h0 h1; exact hr i hi h0 (by omega)
  | succ f ih =>
    intro b e hb he hf hbe hl hr
    unfold bsLoop
    by_cases hlt : b < e
    · simp only [hlt, if_true]
      have hpos1 : b ≤ (b + e - 1) / 2 := by omega
      have hpos2 : (b + e - 1) / 2 < e := by omega
      have hposl : (b + e - 1) / 2 < recs.length := by omega
      generalize hp : (b + e - 1) / 2 = pos at *
      rw [List.getElem?_eq_getElem hposl]
      simp only
      split
      · next h =>
        refine ih b pos hb (by omega) (by omega) (by left; omega) hl ?_
        intro i hi h0 h1
        rcases Nat.lt_or_ge pos i with h2 | h2
        · have := sortedK_drop_lt hs (by omega) h2 hi
          order
        · have : i = pos := by omega
          subst this; exact h
      · split
        · next h1 h2 =>
          refine ih (pos + 1) e (by omega) he (by omega) (by left; omega) ?_ hr
          intro i hi h0 h3
          rcases Nat.lt_or_ge i pos with h4 | h4
          · have := sortedK_drop_lt hs h0 h4 hposl
            order
          · have : i = pos := by omega
            subst this; exact h2
        · next h1 h2 =>
          left
          refine ⟨pos, hposl, by omega, rfl, ?_⟩
          order
    · simp only [hlt, if_false]
      right
      refine ⟨b, hb, ?_, rfl, hl, ?_⟩
      · rcases hbe with h | h
        · left; omega
        · exact Or.inr h
      · intro i hi h0 h1; exact hr i hi h0 (by omega)

theorem mem_drop_iff {l : List α} {n : Nat} {x : α} :
    x ∈ l.drop n ↔ ∃ i, ∃ h : i < l.length, n ≤ i ∧ l[i] = x := by
  constructor
  · intro h
    obtain ⟨i, hi, e⟩ := List.mem_iff_getElem.1 h
    refine ⟨n + i, by simp at hi; omega, by omega, ?_⟩
    rw [← e, List.getElem_drop]
  · rintro ⟨i, h, hn, e⟩
    refine List.mem_iff_getElem.2 ⟨i - n, by simp; omega, ?_⟩
    rw [List.getElem_drop, ← e]
    congr 1; omega

/-- Number of records the record search skips. -/
def Node.skip (n : Node K V) : Nat := if n.leftInner then 1 else 0

theorem Node.body_eq (n : Node K V) : n.body = n.recs.drop n.skip := by
  unfold Node.body Node.skip; split <;> simp

/-- `SearchRecord` of a node is exact. -/
theorem Node.searchRecord_spec (n : Node K V) (hs : SortedK n.body) (key : K) :
    (∃ pos, ∃ h : pos < n.recs.length, n.searchRecord key = some (true, pos) ∧
        n.skip ≤ pos ∧ n.recs[pos].1 = key ∧ alook n.body key = some n.recs[pos].2) ∨
    (∃ pos, n.searchRecord key = some (false, pos) ∧ n.skip ≤ pos ∧
        (pos ≤ n.recs.length ∨ pos = n.skip) ∧ alook n.body key = none ∧
        (∀ i (_ : i < n.recs.length), n.skip ≤ i → i < pos → n.recs[i].1 < key) ∧
        (∀ i (_ : i < n.recs.length), n.skip ≤ i → pos ≤ i → key < n.recs[i].1)) := by
  have hs' := hs
  rw [n.body_eq] at hs
  have hskip : (if n.inner && n.low.isNone then 1 else 0) = n.skip := rfl
  have h := bsLoop_spec n.recs key n.skip hs n.recs.length n.skip n.recs.length (Nat.le_refl _)
    (Nat.le_refl _) (by omega) (Or.inr rfl) (by intros; omega) (by intros; omega)
  rcases h with ⟨pos, hp, h0, h1, h2⟩ | ⟨pos, h0, h1, h2, h3, h4⟩
  · left
    refine ⟨pos, hp, ?_, h0, h2, ?_⟩
    · unfold Node.searchRecord; rw [hskip]; exact h1
    · apply alook_of_mem hs'
      rw [n.body_eq, mem_drop_iff]
      exact ⟨pos, hp, h0, by rw [← h2]⟩
  · right
    refine ⟨pos, ?_, h0, h1, ?_, h3, h4⟩
    · unfold Node.searchRecord; rw [hskip]; exact h2
    · rw [alook_none, n.body_eq]
      intro x hx e
      obtain ⟨i, hi, hn, e'⟩ := mem_drop_iff.1 hx
      subst e'
      rcases Nat.lt_or_ge i pos with h | h
      · have := h3 i hi hn h; order
      · have := h4 i hi hn h; order

/-- Existence part of `SearchRecord` (as used by all callers). -/
theorem Node.searchRecord_found (n : Node K V) (hs : SortedK n.body) (key : K) :
    ∃ f pos, n.searchRecord key = some (f, pos) ∧ (f = true ↔ alook n.body key ≠ none) ∧
      (f = true → ∃ h : pos < n.recs.length, alook n.body key = some n.recs[pos].2 ∧
        n.recs[pos].1 = key) := by
  rcases n.searchRecord_spec hs key with ⟨pos, hp, h1, _, h3, h2⟩ | ⟨pos, h1, _, _, h2, _, _⟩
  · exact ⟨true, pos, h1, by simp [h2], fun _ => ⟨hp, h2, h3⟩⟩
  · exact ⟨false, pos, h1, by simp [h2], by simp⟩

/-- `SearchChild` routes to the last separator `≤ key` (closed) / `< key` (open); record 0 is the
default. -/
theorem Node.searchChild_spec (n : Node K V) (hs : SortedK (n.recs.drop 1))
    (hne : n.recs ≠ []) (key : K) (closed : Bool)
    (hk : ∀ x ∈ n.recs, ∃ c, x.2 = Pay.child c) :
    ∃ pos, ∃ h : pos < n.recs.length, ∃ c, n.searchChild key closed = some c ∧
      n.recs[pos].2 = .child c ∧
      (∀ i (_ : i < n.recs.length), 1 ≤ i → i ≤ pos →
        if closed then n.recs[i].1 ≤ key else n.recs[i].1 < key) ∧
      (∀ i (_ : i < n.recs.length), pos < i →
        if closed then key < n.recs[i].1 else key ≤ n.recs[i].1) := by
  have hlen : 0 < n.recs.length := List.length_pos_iff.2 hne
  have h := bsLoop_spec n.recs key 1 hs n.recs.length 1 n.recs.length (Nat.le_refl _)
    (Nat.le_refl _) (by omega) (Or.inr rfl) (by intros; omega) (by intros; omega)
  rcases h with ⟨pos, hp, h0, h1, h2⟩ | ⟨pos, h0, h1, h2, h3, h4⟩
  · cases closed with
    | true =>
      obtain ⟨c, hc⟩ := hk n.recs[pos] (List.getElem_mem hp)
      refine ⟨pos, hp, c, ?_, hc, ?_, ?_⟩
      · unfold Node.searchChild
        rw [h1]; simp only [if_true]
        have e : n.recs[pos + 1 - 1]? = some n.recs[pos] := by simp
        rw [e]
        generalize n.recs[pos] = x at *
        obtain ⟨x1, x2⟩ := x; simp at hc; subst hc; rfl
      · intro i hi h5 h6
        simp only [if_true]
        rcases Nat.lt_or_ge i pos with h | h
        · have := sortedK_drop_lt hs h5 h hp; order
        · have : i = pos := by omega
          subst this; order
      · intro i hi h5
        simp only [if_true]
        have := sortedK_drop_lt hs h0 h5 hi; order
    | false =>
      have hp' : pos - 1 < n.recs.length := by omega
      obtain ⟨c, hc⟩ := hk n.recs[pos - 1] (List.getElem_mem hp')
      refine ⟨pos - 1, hp', c, ?_, hc, ?_, ?_⟩
      · unfold Node.searchChild
        rw [h1]
        simp only [if_true, Bool.false_eq_true, if_false, Nat.add_zero]
        rw [List.getElem?_eq_getElem hp']
        generalize n.recs[pos - 1] = x at *
        obtain ⟨x1, x2⟩ := x; simp at hc; subst hc; rfl
      · intro i hi h5 h6
        simp only [Bool.false_eq_true, if_false]
        have := sortedK_drop_lt hs h5 (show i < pos by omega) hp; order
      · intro i hi h5
        simp only [Bool.false_eq_true, if_false]
        rcases Nat.lt_or_ge pos i with h | h
        · have := sortedK_drop_lt hs h0 h hi; order
        · have : i = pos := by omega
          subst this; order
  · have hp' : pos - 1 < n.recs.length := by omega
    obtain ⟨c, hc⟩ := hk n.recs[pos - 1] (List.getElem_mem hp')
    refine ⟨pos - 1, hp', c, ?_, hc, ?_, ?_⟩
    · unfold Node.searchChild
      rw [h2]
      simp only [Bool.false_eq_true, if_false]
      rw [List.getElem?_eq_getElem hp']
      generalize n.recs[pos - 1] = x at *
      obtain ⟨x1, x2⟩ := x; simp at hc; subst hc; rfl
    · intro i hi h5 h6
      have := h3 i hi h5 (by omega)
      split <;> order
    · intro i hi h5
      have := h4 i hi (by omega) (by omega)
      split <;> order

end BwTree
