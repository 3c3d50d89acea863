import Mathlib.Order.Basic
import Mathlib.Order.Defs.LinearOrder
import Mathlib.Tactic.Order

/-!
# Sorted association lists

Helper library (no C++ counterpart): finite maps as key-sorted lists.  Used to
*state* what consolidation has to produce, never to model code.
-/

namespace BwTree

variable {K α : Type} [LinearOrder K]

/-- Keys strictly increasing. -/
def SortedK (l : List (K × α)) : Prop := l.Pairwise (fun a b => a.1 < b.1)

/-- Lookup by key. -/
def alook : List (K × α) → K → Option α
  | [], _ => none
  | (a, v) :: l, k => if a = k then some v else alook l k

/-- Sorted insert-or-replace. -/
def ains (k : K) (v : α) : List (K × α) → List (K × α)
  | [] => [(k, v)]
  | (a, w) :: l =>
    if a < k then (a, w) :: ains k v l
    else if k < a then (k, v) :: (a, w) :: l
    else (k, v) :: l

/-- Remove a key. -/
def adel (k : K) : List (K × α) → List (K × α)
  | [] => []
  | (a, w) :: l => if a = k then adel k l else (a, w) :: adel k l

@[simp] theorem alook_nil (k : K) : alook ([] : List (K × α)) k = none := rfl

theorem alook_cons (a : K) (v : α) (l : List (K × α)) (k : K) :
    alook ((a, v) :: l) k = if a = k then some v else alook l k := rfl

theorem SortedK.tail {x : K × α} {l : List (K × α)} (h : SortedK (x :: l)) : SortedK l :=
  (List.pairwise_cons.1 h).2

theorem SortedK.head_lt {x : K × α} {l : List (K × α)} (h : SortedK (x :: l)) :
    ∀ y ∈ l, x.1 < y.1 := (List.pairwise_cons.1 h).1

theorem sortedK_nil : SortedK ([] : List (K × α)) := List.Pairwise.nil

theorem alook_mem {l : List (K × α)} {k : K} {v : α} (h : alook l k = some v) : (k, v) ∈ l := by
  induction l with
  | nil => simp at h
  | cons x l ih =>
    obtain ⟨a, w⟩ := x
    rw [alook_cons] at h
    split at h
    · next e => cases h; subst e; simp
    · exact List.mem_cons_of_mem _ (ih h)

theorem alook_none {l : List (K × α)} {k : K} : alook l k = none ↔ ∀ x ∈ l, x.1 ≠ k := by
  induction l with
  | nil => simp
  | cons x l ih =>
    obtain ⟨a, w⟩ := x
    rw [alook_cons]
    split
    · next e => simp [e]
    · next e => simp [ih, e]

theorem alook_of_mem {l : List (K × α)} (hs : SortedK l) {k : K} {v : α} (h : (k, v) ∈ l) :
    alook l k = some v := by
  induction l with
  | nil => simp at h
  | cons x l ih =>
    obtain ⟨a, w⟩ := x
    rw [alook_cons]
    rcases List.mem_cons.1 h with e | h'
    · cases e; simp
    · have := hs.head_lt _ h'
      rw [if_neg (by simp at this; order)]
      exact ih hs.tail h'

theorem alook_none_of_lt {l : List (K × α)} {k : K} (h : ∀ x ∈ l, k < x.1) : alook l k = none := by
  rw [alook_none]; intro x hx e; have := h x hx; order

theorem alook_none_of_gt {l : List (K × α)} {k : K} (h : ∀ x ∈ l, x.1 < k) : alook l k = none := by
  rw [alook_none]; intro x hx e; have := h x hx; order

theorem mem_ains {k : K} {v : α} {l : List (K × α)} {x : K × α} (h : x ∈ ains k v l) :
    x = (k, v) ∨ x ∈ l := by
  induction l with
  | nil => simp [ains] at h; exact Or.inl h
  | cons y l ih =>
    obtain ⟨a, w⟩ := y
    unfold ains at h
    split at h
    · rcases List.mem_cons.1 h with e | h
      · right; simp [e]
      · rcases ih h with e | h
        · exact Or.inl e
        · right; simp [h]
    · split at h
      · rcases List.mem_cons.1 h with e | h
        · exact Or.inl e
        · exact Or.inr h
      · rcases List.mem_cons.1 h with e | h
        · exact Or.inl e
        · right; simp [h]

theorem sorted_ains {k : K} {v : α} {l : List (K × α)} (hs : SortedK l) : SortedK (ains k v l) := by
  induction l with
  | nil => simp [ains, SortedK]
  | cons y l ih =>
    obtain ⟨a, w⟩ := y
    have ht := hs.tail
    have hh := hs.head_lt
    unfold ains
    split
    · next h =>
      refine List.pairwise_cons.2 ⟨?_, ih ht⟩
      intro x hx
      rcases mem_ains hx with e | hx
      · subst e; exact h
      · exact hh x hx
    · split
      · next h =>
        refine List.pairwise_cons.2 ⟨?_, hs⟩
        intro x hx
        rcases List.mem_cons.1 hx with e | hx
        · subst e; exact h
        · have := hh x hx; simp at this ⊢; order
      · next h1 h2 =>
        refine List.pairwise_cons.2 ⟨?_, ht⟩
        intro x hx
        have := hh x hx
        simp at this ⊢; order

theorem alook_ains {k : K} {v : α} {l : List (K × α)} (hs : SortedK l) (q : K) :
    alook (ains k v l) q = if k = q then some v else alook l q := by
  induction l with
  | nil => simp [ains, alook]
  | cons y l ih =>
    obtain ⟨a, w⟩ := y
    have ht := hs.tail
    unfold ains
    split
    · next h =>
      rw [alook_cons, ih ht, alook_cons]
      by_cases e : k = q
      · subst e; simp [ne_of_lt h]
      · simp [e]
    · split
      · next h1 h2 => rw [alook_cons]
      · next h1 h2 =>
        have : a = k := by order
        subst this
        rw [alook_cons, alook_cons]
        split <;> rfl

theorem length_ains {k : K} {v : α} {l : List (K × α)} (hs : SortedK l) :
    (ains k v l).length = if alook l k = none then l.length + 1 else l.length := by
  induction l with
  | nil => simp [ains]
  | cons y l ih =>
    obtain ⟨a, w⟩ := y
    have ht := hs.tail
    have hh := hs.head_lt
    unfold ains
    rw [alook_cons]
    split
    · next h =>
      rw [if_neg (ne_of_lt h)]
      simp only [List.length_cons, ih ht]; split <;> simp
    · split
      · next h1 h2 =>
        rw [if_neg (ne_of_gt h2)]
        rw [if_pos]
        · simp
        · apply alook_none_of_lt
          intro x hx
          have := hh x hx
          simp at this; order
      · next h1 h2 =>
        have : a = k := by order
        simp [this]

theorem mem_adel {k : K} {l : List (K × α)} {x : K × α} : x ∈ adel k l ↔ x ∈ l ∧ x.1 ≠ k := by
  induction l with
  | nil => simp [adel]
  | cons y l ih =>
    obtain ⟨a, w⟩ := y
    unfold adel
    split
    · next e =>
      rw [ih]
      constructor
      · rintro ⟨h1, h2⟩; exact ⟨List.mem_cons_of_mem _ h1, h2⟩
      · rintro ⟨h1, h2⟩
        rcases List.mem_cons.1 h1 with e' | h1
        · subst e'; exact absurd e h2
        · exact ⟨h1, h2⟩
    · next e =>
      rw [List.mem_cons, List.mem_cons, ih]
      constructor
      · rintro (e' | ⟨h1, h2⟩)
        · subst e'; exact ⟨Or.inl rfl, e⟩
        · exact ⟨Or.inr h1, h2⟩
      · rintro ⟨e' | h1, h2⟩
        · exact Or.inl e'
        · exact Or.inr ⟨h1, h2⟩

theorem sorted_adel {k : K} {l : List (K × α)} (hs : SortedK l) : SortedK (adel k l) := by
  induction l with
  | nil => simpa [adel]
  | cons y l ih =>
    obtain ⟨a, w⟩ := y
    unfold adel
    split
    · exact ih hs.tail
    · refine List.pairwise_cons.2 ⟨?_, ih hs.tail⟩
      intro x hx
      exact hs.head_lt x (mem_adel.1 hx).1

theorem alook_adel {k : K} {l : List (K × α)} (q : K) :
    alook (adel k l) q = if k = q then none else alook l q := by
  induction l with
  | nil => simp [adel]
  | cons y l ih =>
    obtain ⟨a, w⟩ := y
    unfold adel
    split
    · next e =>
      subst e
      rw [ih, alook_cons]
      split <;> rfl
    · next e =>
      rw [alook_cons, ih, alook_cons]
      by_cases e2 : k = q
      · subst e2; simp [e]
      · simp [e2]

theorem length_adel {k : K} {l : List (K × α)} (hs : SortedK l) :
    (adel k l).length = if alook l k = none then l.length else l.length - 1 := by
  induction l with
  | nil => simp [adel]
  | cons y l ih =>
    obtain ⟨a, w⟩ := y
    have hh := hs.head_lt
    unfold adel
    rw [alook_cons]
    split
    · next e =>
      subst e
      have : alook l a = none := alook_none_of_lt hh
      rw [ih hs.tail, this]; simp
    · next e =>
      simp only [List.length_cons, ih hs.tail]
      split
      · rfl
      · next h =>
        have : l ≠ [] := by rintro rfl; simp at h
        have := List.length_pos_iff.2 this
        omega

/-- Two sorted lists with the same lookups are equal. -/
theorem sorted_ext {l₁ l₂ : List (K × α)} (h₁ : SortedK l₁) (h₂ : SortedK l₂)
    (h : ∀ k, alook l₁ k = alook l₂ k) : l₁ = l₂ := by
  induction l₁ generalizing l₂ with
  | nil =>
    cases l₂ with
    | nil => rfl
    | cons y l =>
      obtain ⟨a, w⟩ := y
      have := h a; simp [alook_cons] at this
  | cons x l₁ ih =>
    obtain ⟨a, v⟩ := x
    cases l₂ with
    | nil => have := h a; simp [alook_cons] at this
    | cons y l₂ =>
      obtain ⟨b, w⟩ := y
      have h1 := h₁.head_lt
      have h2 := h₂.head_lt
      have hab : a = b := by
        rcases lt_trichotomy a b with hlt | e | hlt
        · have e1 : alook ((b, w) :: l₂) a = none := by
            apply alook_none_of_lt
            intro x hx
            rcases List.mem_cons.1 hx with e | hx
            · subst e; exact hlt
            · have := h2 x hx; simp at this; order
          have := h a
          rw [e1, alook_cons] at this; simp at this
        · exact e
        · have e1 : alook ((a, v) :: l₁) b = none := by
            apply alook_none_of_lt
            intro x hx
            rcases List.mem_cons.1 hx with e | hx
            · subst e; exact hlt
            · have := h1 x hx; simp at this; order
          have := h b
          rw [e1, alook_cons] at this; simp at this
      subst hab
      have hv : v = w := by
        have := h a; simp [alook_cons] at this; exact this
      subst hv
      congr 1
      apply ih h₁.tail h₂.tail
      intro k
      by_cases e : a = k
      · subst e
        rw [alook_none_of_lt h1, alook_none_of_lt h2]
      · have := h k; simpa [alook_cons, e] using this

theorem alook_append {l₁ l₂ : List (K × α)} (k : K) :
    alook (l₁ ++ l₂) k = (alook l₁ k).orElse (fun _ => alook l₂ k) := by
  induction l₁ with
  | nil => simp [alook]
  | cons x l ih =>
    obtain ⟨a, v⟩ := x
    rw [List.cons_append, alook_cons, alook_cons, ih]
    split <;> simp

theorem sorted_append {l₁ l₂ : List (K × α)} (h₁ : SortedK l₁) (h₂ : SortedK l₂)
    (h : ∀ x ∈ l₁, ∀ y ∈ l₂, x.1 < y.1) : SortedK (l₁ ++ l₂) :=
  List.pairwise_append.2 ⟨h₁, h₂, h⟩

theorem SortedK.append_left {l₁ l₂ : List (K × α)} (h : SortedK (l₁ ++ l₂)) : SortedK l₁ :=
  (List.pairwise_append.1 h).1

theorem SortedK.append_right {l₁ l₂ : List (K × α)} (h : SortedK (l₁ ++ l₂)) : SortedK l₂ :=
  (List.pairwise_append.1 h).2.1

theorem SortedK.append_lt {l₁ l₂ : List (K × α)} (h : SortedK (l₁ ++ l₂)) :
    ∀ x ∈ l₁, ∀ y ∈ l₂, x.1 < y.1 := (List.pairwise_append.1 h).2.2

theorem SortedK.getElem_lt {l : List (K × α)} (h : SortedK l) {i j : Nat} (hi : i < l.length)
    (hj : j < l.length) (hij : i < j) : l[i].1 < l[j].1 :=
  List.pairwise_iff_getElem.1 h i j hi hj hij

end BwTree
