import Verif.Spec.Linear

/-!
# Scans as sequences of node visits (specification)

An iterator visits one node after the other; each visit begins (inclusively) at the key at which the
previous visit ended.
-/

namespace BwTree.Spec

set_option linter.unusedSectionVars false

/-- A node visit as the caller sees it. -/
structure Visit (K V : Type) where
  b : Bound K
  recs : List (K × V)
  next : Option K

variable {K V : Type}

/-- The visits continue each other; the first one begins at `b`. -/
def Linked : Bound K → List (Visit K V) → Prop
  | _, [] => True
  | b, v :: vs => v.b = b ∧ (vs ≠ [] → ∃ k, v.next = some k ∧ Linked (some (k, true)) vs)

/-- The keys a visit is responsible for. -/
def Visit.covers [LT K] (v : Visit K V) (e : Bound K) (k : K) : Prop :=
  fromB v.b k ∧ toB e k ∧ ∀ h, v.next = some h → k < h

/-- The scan has reached its end. -/
def Finished (vs : List (Visit K V)) : Prop :=
  ∃ v, vs.getLast? = some v ∧ v.next = none

/-! ## Consequences of correct pages -/

variable [LinearOrder K]

/-- Every visit returned a right page of some map. -/
def Pages (e : Bound K) (vs : List (Visit K V)) : Prop :=
  ∀ v ∈ vs, ∃ m : K → Option V, PageOK m v.b e v.recs v.next

theorem Pages.tail {e : Bound K} {v : Visit K V} {vs : List (Visit K V)} (h : Pages e (v :: vs)) :
    Pages e vs := fun w hw => h w (List.mem_cons_of_mem _ hw)

/-- Later visits begin where an earlier one ended, or further right. -/
theorem Linked.begins {e : Bound K} : ∀ {vs : List (Visit K V)} {y : K}, Linked (some (y, true)) vs →
    Pages e vs → ∀ v ∈ vs, ∃ z, v.b = some (z, true) ∧ y ≤ z
  | [], _, _, _, v, hv => by cases hv
  | w :: vs, y, hl, hp, v, hv => by
    obtain ⟨h1, h2⟩ := hl
    rcases List.mem_cons.mp hv with rfl | hv
    · exact ⟨y, h1, le_refl y⟩
    · obtain ⟨n, h3, h4⟩ := h2 (List.ne_nil_of_mem hv)
      obtain ⟨m, hm⟩ := hp w (List.mem_cons_self ..)
      obtain ⟨z, h5, h6⟩ := h4.begins hp.tail v hv
      refine ⟨z, h5, le_trans ?_ h6⟩
      rcases hm.next_from n y true h3 h1 with h | ⟨h, _⟩
      · exact le_of_lt h
      · cases h

theorem Linked.later {e b : Bound K} {w v : Visit K V} {vs : List (Visit K V)}
    (hl : Linked b (w :: vs)) (hp : Pages e (w :: vs)) (hv : v ∈ vs) :
    ∃ y z, w.next = some y ∧ v.b = some (z, true) ∧ y ≤ z := by
  obtain ⟨n, h3, h4⟩ := hl.2 (List.ne_nil_of_mem hv)
  obtain ⟨z, h5, h6⟩ := h4.begins hp.tail v hv
  exact ⟨n, z, h3, h5, h6⟩

/-- The visits are responsible for disjoint intervals, from left to right. -/
theorem Linked.disjoint {e : Bound K} : ∀ {vs : List (Visit K V)} {b : Bound K}, Linked b vs →
    Pages e vs → vs.Pairwise fun w v => ∀ k k', w.covers e k → v.covers e k' → k < k'
  | [], _, _, _ => .nil
  | w :: vs, b, hl, hp => by
    refine .cons ?_ ?_
    · intro v hv k k' hk hk'
      obtain ⟨y, z, h1, h2, h3⟩ := hl.later hp hv
      have h4 : z ≤ k' := by
        rcases hk'.1 z true h2 with h | ⟨_, h⟩
        · exact le_of_lt h
        · exact le_of_eq h
      exact lt_of_lt_of_le (hk.2.2 y h1) (le_trans h3 h4)
    · cases vs with
      | nil => exact .nil
      | cons v vs =>
        obtain ⟨n, _, h4⟩ := hl.2 (by simp)
        exact h4.disjoint hp.tail

/-- A finished scan leaves no gap. -/
theorem Linked.complete {e : Bound K} : ∀ {vs : List (Visit K V)} {b : Bound K}, Linked b vs →
    Finished vs → ∀ k, fromB b k → toB e k → ∃ v ∈ vs, v.covers e k
  | [], _, _, hf, _, _, _ => by obtain ⟨v, h, _⟩ := hf; cases h
  | w :: vs, b, hl, hf, k, hk, he => by
    by_cases hn : ∀ h, w.next = some h → k < h
    · exact ⟨w, List.mem_cons_self .., hl.1 ▸ hk, he, hn⟩
    · have : ∃ h, w.next = some h ∧ h ≤ k := by
        by_contra hc
        refine hn fun h hh => ?_
        by_contra hlt
        exact hc ⟨h, hh, not_lt.mp hlt⟩
      obtain ⟨y, h1, h2⟩ := this
      have hne : vs ≠ [] := by
        rintro rfl
        obtain ⟨v, h3, h4⟩ := hf
        have hw : w = v := by simpa using h3
        subst hw
        rw [h1] at h4; cases h4
      obtain ⟨y', h3, h4⟩ := hl.2 hne
      have : y' = y := by rw [h1] at h3; exact (Option.some.inj h3).symm
      subst this
      have hf' : Finished vs := by
        obtain ⟨v, h5, h6⟩ := hf
        cases vs with
        | nil => exact absurd rfl hne
        | cons a l => exact ⟨v, by rw [List.getLast?_cons_cons] at h5; exact h5, h6⟩
      have hfr : fromB (some (y', true)) k := by
        intro x c hx
        cases hx
        rcases lt_or_eq_of_le h2 with h | h
        · exact Or.inl h
        · exact Or.inr ⟨rfl, h⟩
      obtain ⟨v, hv, hc⟩ := h4.complete hf' k hfr he
      exact ⟨v, List.mem_cons_of_mem _ hv, hc⟩

/-- Only an open begin key itself may be covered outside the range, and only after an empty first
page. -/
theorem Linked.from_begin {e b : Bound K} {w v : Visit K V} {vs : List (Visit K V)}
    (hl : Linked b (w :: vs)) (hp : Pages e (w :: vs)) (hv : v ∈ w :: vs) {k : K}
    (hk : v.covers e k) :
    fromB b k ∨ (b = some (k, false) ∧ w.next = some k ∧ w.recs = [] ∧ v ∈ vs) := by
  rcases List.mem_cons.mp hv with rfl | hv
  · exact Or.inl (hl.1 ▸ hk.1)
  · cases b with
    | none => exact Or.inl fun x c h => by cases h
    | some b =>
      obtain ⟨x, c⟩ := b
      obtain ⟨y, z, h1, h2, h3⟩ := hl.later hp hv
      obtain ⟨m, hm⟩ := hp w (List.mem_cons_self ..)
      have h4 : z ≤ k := by
        rcases hk.1 z true h2 with h | ⟨_, h⟩
        · exact le_of_lt h
        · exact le_of_eq h
      rcases hm.next_from y x c h1 hl.1 with h | ⟨h, h'⟩
      · left
        intro x' c' hx
        cases hx
        exact Or.inl (lt_of_lt_of_le h (le_trans h3 h4))
      · subst h h'
        rcases lt_or_eq_of_le (le_trans h3 h4) with h5 | h5
        · left
          intro x' c' hx
          cases hx
          exact Or.inl h5
        · subst h5
          refine Or.inr ⟨rfl, h1, ?_, hv⟩
          rw [List.eq_nil_iff_forall_not_mem]
          rintro ⟨a, b⟩ hab
          obtain ⟨_, h6, _, h7⟩ := (hm.mem a b).mp hab
          rcases h6 x false hl.1 with h8 | ⟨h8, _⟩
          · exact lt_asymm h8 (h7 x h1)
          · cases h8

/-- All records of a scan, in order. -/
def allRecs (vs : List (Visit K V)) : List (K × V) := vs.flatMap Visit.recs

theorem mem_covers {e : Bound K} {vs : List (Visit K V)} (hp : Pages e vs) {v : Visit K V}
    (hv : v ∈ vs) {k : K} {x : V} (hx : (k, x) ∈ v.recs) : v.covers e k := by
  obtain ⟨m, hm⟩ := hp v hv
  exact ((hm.mem k x).mp hx).2

theorem Linked.increasing {e : Bound K} : ∀ {vs : List (Visit K V)} {b : Bound K}, Linked b vs →
    Pages e vs → (allRecs vs).Pairwise fun x y => x.1 < y.1
  | [], _, _, _ => .nil
  | w :: vs, b, hl, hp => by
    have hd := hl.disjoint hp
    have hpw : (allRecs vs).Pairwise fun x y => x.1 < y.1 := by
      cases vs with
      | nil => exact .nil
      | cons v vs =>
        obtain ⟨n, _, h4⟩ := hl.2 (by simp)
        exact h4.increasing hp.tail
    obtain ⟨m, hm⟩ := hp w (List.mem_cons_self ..)
    rw [allRecs, List.flatMap_cons, List.pairwise_append]
    refine ⟨hm.incr, hpw, ?_⟩
    rintro ⟨k, x⟩ hx ⟨k', x'⟩ hx'
    obtain ⟨v, hv, hx'⟩ := List.mem_flatMap.mp hx'
    exact (List.pairwise_cons.mp hd).1 v hv k k' (mem_covers hp (List.mem_cons_self ..) hx)
      (mem_covers hp.tail hv hx')

end BwTree.Spec
