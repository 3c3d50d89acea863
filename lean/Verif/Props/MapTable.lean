import Verif.MapTable.Inv
import Mathlib.Data.List.Nodup

/-!
# C25 - C29: the mapping table
-/

namespace BwTree.Props

open BwTree.MapTable

/-! ## C25, C26 -/

/-- **C25.**  In every interleaving of any number of threads reserving page IDs, all the IDs returned
so far are pairwise different (as long as no store outside the directory has happened, which is the
subject of C27 and impossible before 132 120 575 reservations). -/
theorem C25_page_ids_unique {s : St} (h : Reachable s) (ho : s.oob = false) : s.out.Nodup :=
  (reachable_inv h ho).nodup

/-- **C26.**  Every ID returned so far resolves to an allocated slot (from the moment it is returned
on), and different IDs resolve to different slots. -/
theorem C26_ids_resolve {s : St} (h : Reachable s) (ho : s.oob = false) :
    (∀ id ∈ s.out, ∃ i j k, slotOf s id = some (i, j, k) ∧ i < tabCap ∧ j < arrCap ∧ k < arrCap) ∧
    (∀ id ∈ s.out, ∀ id' ∈ s.out, slotOf s id = slotOf s id' → id = id') := by
  obtain ⟨T, R, C, h1, h2, h3, h4, h5, h6, h7, h8, h9, h10, h11⟩ := (reachable_inv h ho).main
  have hT : T < 504 := h2
  have key : ∀ id ∈ s.out, ∃ t r c, id = enc t r c ∧ t < tabCap ∧ r < 512 ∧ c < 512 ∧
      slotOf s id = some (t, r, c) := by
    intro id hid
    obtain ⟨t, r, c, e1, e2, e3, e4, e5⟩ := h7 id hid
    have ht : t < 504 := e2
    have hpos : (t < T ∧ r < 512) ∨ (t = T ∧ r ≤ R) := by
      unfold rank at e5
      split at e5 <;> omega
    obtain ⟨d1, d2⟩ := h5 t r hpos
    refine ⟨t, r, c, e1, e2, e3, e4, ?_⟩
    subst e1
    unfold slotOf
    rw [tabOf_enc (by omega) (by omega) (by omega), rowOf_enc (by omega) (by omega),
      colOf_enc (by omega), d1, d2]
    rfl
  refine ⟨?_, ?_⟩
  · intro id hid
    obtain ⟨t, r, c, _, e2, e3, e4, e5⟩ := key id hid
    exact ⟨t, r, c, e5, e2, e3, e4⟩
  · intro id hid id' hid' he
    obtain ⟨t, r, c, e1, _, _, _, e5⟩ := key id hid
    obtain ⟨t', r', c', e1', _, _, _, e5'⟩ := key id' hid'
    rw [e5, e5'] at he
    cases he
    rw [e1, e1']

/-- One thread alone reserves the next ID. -/
theorem solo_next {s : St} (h : Reachable s) {T R C : Nat} (hc : s.cnt = enc T R C) (hR : R < 512)
    (hC : C < 512) (hT : T < 504) (hi : ∀ u, s.pc u = .idle) :
    ∃ s', Reachable s' ∧ (∀ u, s'.pc u = .idle) ∧ s'.out = enc T R C :: s.out ∧
      (C + 1 < 512 → s'.oob = s.oob) ∧
      s'.cnt = (if C + 1 < 512 then enc T R (C + 1) else if R + 1 < 512 then enc T (R + 1) 0
        else enc (T + 1) 0 0) := by
  have s1 : Reachable (step s 0 false) := .step h 0 false
  have e1 : step s 0 false = s.setPc 0 (.loaded (enc T R C)) := by
    have : tabOf s.cnt < arrCap := by
      rw [hc, tabOf_enc (by omega) (by omega) (by omega)]; unfold arrCap; omega
    simp only [step, hi 0, this, if_true]; rw [hc]
  have s2 := s1.step 0 false
  rw [e1] at s2
  have hnew : enc T R C + 1 = enc T R (C + 1) := by unfold enc; omega
  have hcol0 : colOf (enc T R C) < arrCap := by rw [colOf_enc (by omega)]; exact hC
  have hcol1 : colOf (enc T R C) < 512 := hcol0
  have hcol : colOf (enc T R (C + 1)) = C + 1 := colOf_enc (by omega)
  by_cases hf : C + 1 < 512
  · refine ⟨_, s2, ?_, ?_, ?_, ?_⟩ <;>
      simp [step, hcol1, hnew, hcol, St.ret, St.setPc, hc, hf, arrCap, hi]
  · have hrow2 : enc T R (C + 1) + rowUnit = enc T (R + 1) 512 := by
      unfold enc rowUnit; omega
    have hrow : rowOf (enc T (R + 1) 512) = R + 1 := rowOf_enc (by omega) (by omega)
    by_cases hr : R + 1 < 512
    · have e2 : step (s.setPc 0 (.loaded (enc T R C))) 0 false =
          ({ s with cnt := enc T R (C + 1) } : St).setPc 0
            (.extRow (enc T R C) (enc T (R + 1) 512)) := by
        simp only [step, setPc_self, hcol0, if_true, hnew, hcol]
        simp [St.setPc, hc, hf, arrCap, hrow2, hrow, hr]
        funext u; split <;> rfl
      rw [e2] at s2
      have s3 := s2.step 0 false
      have s4 := s3.step 0 false
      refine ⟨_, s4, ?_, ?_, fun h => absurd h hf, ?_⟩
      · simp only [step, St.ret, St.setPc, if_true, hi]
        intro u; by_cases hu : u = 0 <;> simp [hu]
      · simp [step, St.ret, St.setPc]
      · simp [step, St.ret, St.setPc, hf, hr]
        unfold enc rowUnit; omega
    · have e2 : step (s.setPc 0 (.loaded (enc T R C))) 0 false =
          ({ s with cnt := enc T R (C + 1) } : St).setPc 0
            (.extTab (enc T R C) (enc T (R + 1) 512)) := by
        simp only [step, setPc_self, hcol0, if_true, hnew, hcol]
        simp [St.setPc, hc, hf, arrCap, hrow2, hrow, hr]
        funext u; split <;> rfl
      rw [e2] at s2
      have s3 := s2.step 0 false
      have s4 := s3.step 0 false
      refine ⟨_, s4, ?_, ?_, fun h => absurd h hf, ?_⟩
      · simp only [step, St.ret, St.setPc, if_true, hi]
        intro u; by_cases hu : u = 0 <;> simp [hu]
      · simp [step, St.ret, St.setPc]
      · simp [step, St.ret, St.setPc, hf, hr]
        unfold enc tabUnit; omega

/-- Every counter value up to the end of the directory is reached. -/
theorem solo_reach (n : Nat) (hn : n < 504 * 262144) :
    ∃ s, Reachable s ∧ (∀ u, s.pc u = .idle) ∧
      s.cnt = enc (n / 262144) (n / 512 % 512) (n % 512) ∧ s.out.length = n := by
  induction n with
  | zero => exact ⟨init, .init, fun _ => rfl, by decide, rfl⟩
  | succ n ih =>
    obtain ⟨s, h1, h2, h3, h4⟩ := ih (by omega)
    obtain ⟨s', g1, g2, g3, _, g4⟩ := solo_next h1 h3 (by omega) (by omega) (by omega) h2
    refine ⟨s', g1, g2, ?_, by rw [g3]; simp [h4]⟩
    rw [g4]
    unfold enc
    split
    · omega
    · split <;> omega

/-- C25/C26 are not vacuous: three threads' worth of states exist with many IDs handed out. -/
example : ∃ s, Reachable s ∧ s.out.length = 600 := by
  obtain ⟨s, h1, _, _, h4⟩ := solo_reach 600 (by decide)
  exact ⟨s, h1, h4⟩

/-- An interleaving of two threads across a row border is reachable without a bad store. -/
example : ∃ s, Reachable s ∧ s.oob = false ∧ s.pc 0 ≠ .idle ∧ s.pc 1 ≠ .idle := by
  refine ⟨step (step init 0 false) 1 false, .step (.step .init 0 false) 1 false, ?_, ?_, ?_⟩ <;>
    decide

/-! ## C27 -/

theorem out_mono (s : St) (t : Nat) (fail : Bool) : s.out.length ≤ (step s t fail).out.length := by
  unfold step
  split
  · split <;> simp [St.setPc]
  · exact Nat.le_refl _
  · split
    · split
      · simp only
        split
        · simp [St.ret, St.setPc]
        · split <;> simp [St.setPc]
      · simp [St.setPc]
    · simp [St.setPc]
  · simp [St.setPc]
  · simp [St.ret, St.setPc]
  · simp [St.setPc]
  · simp [St.ret, St.setPc]

/-- A store outside the directory needs all its 504 * 512 * 512 IDs but one to have been returned. -/
theorem oob_needs {s : St} (h : Reachable s) : s.oob = true → 504 * 262144 - 1 ≤ s.out.length := by
  induction h with
  | init => intro h; cases h
  | @step s h t fail ih =>
    intro ho
    cases hs : s.oob with
    | true => exact Nat.le_trans (ih hs) (out_mono s t fail)
    | false =>
      obtain ⟨T, R, C, h1, h2, h3, h4, h5, h6, h7, h8, h9, h10, h11⟩ := (reachable_inv h hs).main
      have hT : T < 504 := h2
      have hpc := h6 t
      cases e : s.pc t with
      | idle =>
        simp only [step, e] at ho
        split at ho <;> simp [St.setPc, hs] at ho
      | aborted => rw [e] at hpc; exact hpc.elim
      | loaded cur =>
        exfalso
        have : (step s t fail).oob = s.oob := by
          simp only [step, e]
          split
          · split
            · split
              · simp [St.ret, St.setPc]
              · split <;> simp [St.setPc]
            · simp [St.setPc]
          · simp [St.setPc]
        rw [this, hs] at ho; cases ho
      | extRow cur new =>
        rw [e] at hpc
        obtain ⟨p1, p2, p3, p4⟩ := hpc
        have htab : tabOf new = T := by rw [p4, tabOf_enc (by omega) (by omega) (by omega)]
        have := (h5 T R (Or.inr ⟨rfl, by omega⟩)).1
        simp [step, e, St.setPc, hs, htab, this] at ho
      | extRowSt cur new => simp [step, e, St.ret, St.setPc, hs] at ho
      | extTab cur new =>
        rw [e] at hpc
        obtain ⟨p1, p2, p3, p4⟩ := hpc
        have hnew : new + tabUnit = enc (T + 1) 512 512 := by rw [p4]; unfold enc tabUnit; omega
        have htab : tabOf (new + tabUnit) = T + 1 := by
          rw [hnew, tabOf_enc (by omega) (by omega) (by omega)]
        simp [step, e, St.setPc, hs, htab, tabCap] at ho
        have hl : (step s t fail).out.length = s.out.length := by
          simp [step, e, St.setPc]
        rw [hl, h8]
        simp only [p1, if_true]
        unfold rank
        omega
      | extTabSt cur new => simp [step, e, St.ret, St.setPc, hs] at ho

/-- **C27 (partial).**  No store goes outside the table directory (or through a null table pointer)
while fewer than `504 * 512 * 512 - 1` page IDs have been returned.  Missing: the last reservation of
the last table, for which the property is false (`C27_false`). -/
theorem C27_directory_bound_partial {s : St} (h : Reachable s)
    (hl : s.out.length < 504 * 512 * 512 - 1) : s.oob = false := by
  cases ho : s.oob with
  | false => rfl
  | true => have := oob_needs h ho; omega

example : ∃ s, Reachable s ∧ s.out.length = 5000 ∧ 5000 < 504 * 512 * 512 - 1 := by
  obtain ⟨s, h1, _, _, h4⟩ := solo_reach 5000 (by decide)
  exact ⟨s, h1, h4, by decide⟩

/-- The code violates C27: the directory has 504 entries, but exhaustion is tested against 512
(`mapping_table.hpp` 130), so the thread that reserves the last ID of the 504th table stores a table
pointer at index 504, outside `tables_`; no assertion has failed by then. -/
theorem C27_false : ∃ s, Reachable s ∧ s.oob = true ∧ ∀ t, s.pc t ≠ .aborted := by
  obtain ⟨s0, h1, h2, h3, h4⟩ := solo_reach (504 * 262144 - 2) (by decide)
  have h3 : s0.cnt = enc 503 511 510 := h3
  have ho := C27_directory_bound_partial h1 (by rw [h4]; decide)
  obtain ⟨s, g1, g2, g3, g4, g5⟩ := solo_next h1 h3 (by decide) (by decide) (by decide) h2
  have g5 : s.cnt = enc 503 511 511 := g5
  refine ⟨_, .step (.step (.step g1 0 false) 0 false) 0 false, ?_⟩
  have e1 : step s 0 false = s.setPc 0 (.loaded (enc 503 511 511)) := by
    simp only [step, g2 0, g5]; rfl
  have e2 : step (s.setPc 0 (.loaded (enc 503 511 511))) 0 false =
      ({ s with cnt := enc 503 511 512 } : St).setPc 0
        (.extTab (enc 503 511 511) (enc 503 512 512)) := by
    simp only [step, setPc_self]
    have c1 : colOf (enc 503 511 511) < arrCap := by decide
    have c2 : ¬ colOf (enc 503 511 511 + 1) < arrCap := by decide
    have c3 : ¬ rowOf (enc 503 511 511 + 1 + rowUnit) < arrCap := by decide
    have c4 : (s.setPc 0 (.loaded (enc 503 511 511))).cnt = enc 503 511 511 := g5
    have c5 : enc 503 511 511 + 1 + rowUnit = enc 503 512 512 := by decide
    simp only [c1, c2, c3, c4, if_true, if_false, and_self]
    rw [c5]
    simp only [St.setPc, St.mk.injEq, true_and, and_true]
    refine ⟨by decide, ?_⟩
    funext u; split <;> rfl
  rw [e1, e2]
  refine ⟨?_, ?_⟩
  · simp only [step, setPc_self]
    have : tabCap ≤ tabOf (enc 503 512 512 + tabUnit) := by decide
    simp [St.setPc, this]
  · intro t
    simp only [step, setPc_self]
    by_cases ht : t = 0
    · simp [St.setPc, ht]
    · simp [St.setPc, ht, g2 t]

/-! ## C28 -/

/-- All slots of IDs handed out so far, and all rows and tables, are released by the destructor
exactly once: the full property C28 for a quiescent state `s`. -/
def ReleasesAll (s : St) : Prop :=
  (∀ id ∈ s.out, ((dtorSlots s.cnt).count (tabOf id, rowOf id, colOf id)) = 1) ∧
  (∀ i j, s.rows i j = true → (dtorRows s.cnt).count (i, j) = 1)

/-- The code violates C28 in every execution that has reserved fewer than `512 * 512` IDs: the
destructor loops over `i < table_id` and `table_id` is the index of the table in use, so nothing at
all is released, although (for instance) the root page exists. -/
theorem C28_false {s : St} (h : Reachable s) (ho : s.oob = false)
    (hl : s.out.length < 262144) :
    dtorSlots s.cnt = [] ∧ dtorRows s.cnt = [] ∧ ¬ ReleasesAll s := by
  obtain ⟨T, R, C, h1, h2, h3, h4, h5, h6, h7, h8, h9, h10, h11⟩ := (reachable_inv h ho).main
  have hT : T = 0 := by
    rw [h8] at hl; unfold rank at hl; split at hl <;> omega
  subst hT
  have htab : tabOf s.cnt = 0 := by rw [h1]; exact tabOf_enc (by omega) (by omega) (by omega)
  have e1 : dtorSlots s.cnt = [] := by simp [dtorSlots, htab]
  have e2 : dtorRows s.cnt = [] := by simp [dtorRows, htab]
  refine ⟨e1, e2, ?_⟩
  intro hr
  have := hr.2 0 0 (h5 0 0 (Or.inr ⟨rfl, by omega⟩)).2
  rw [e2] at this; cases this

example : ∃ s, Reachable s ∧ s.oob = false ∧ (∀ t, s.pc t = .idle) ∧ s.out.length = 1000 ∧
    1000 < 262144 := by
  obtain ⟨s, h1, h2, _, h4⟩ := solo_reach 1000 (by decide)
  exact ⟨s, h1, C27_directory_bound_partial h1 (by rw [h4]; decide), h2, h4, by decide⟩

/-- **C28 (partial).**  What the destructor does visit is visited once, lies in allocated rows, and
is a slot that has been handed out.  Missing: it does not visit everything (`C28_false`). -/
theorem C28_destructor_partial {s : St} (h : Reachable s) (ho : s.oob = false)
    (hq : ∀ t, s.pc t = .idle) :
    (dtorSlots s.cnt).Nodup ∧ (dtorRows s.cnt).Nodup ∧
    (∀ x ∈ dtorSlots s.cnt, s.dir x.1 = true ∧ s.rows x.1 x.2.1 = true ∧ x.2.2 < arrCap ∧
      rank x.1 x.2.1 x.2.2 < s.out.length) ∧
    (∀ x ∈ dtorRows s.cnt, s.dir x.1 = true ∧ s.rows x.1 x.2 = true) := by
  obtain ⟨T, R, C, h1, h2, h3, h4, h5, h6, h7, h8, h9, h10, h11⟩ := (reachable_inv h ho).main
  have hT : T < 504 := h2
  have hC : C < 512 := by
    rcases Nat.lt_or_ge C 512 with h | h
    · exact h
    · obtain ⟨t, ht⟩ := h9 (by omega)
      rw [hq t] at ht; cases ht
  have htab : tabOf s.cnt = T := by rw [h1]; exact tabOf_enc (by omega) (by omega) (by omega)
  have hrow : rowOf s.cnt = R := by rw [h1]; exact rowOf_enc (by omega) (by omega)
  have hcol : colOf s.cnt = C := by rw [h1]; exact colOf_enc (by omega)
  have hrk : (if C = 512 then 511 else C) = C := by simp; omega
  rw [hrk] at h8
  refine ⟨?_, ?_, ?_, ?_⟩
  · unfold dtorSlots
    rw [List.nodup_flatMap]
    refine ⟨?_, ?_⟩
    · intro i _
      rw [List.nodup_flatMap]
      refine ⟨?_, ?_⟩
      · intro j _
        exact List.Nodup.map (fun a b e => by simpa using e) List.nodup_range
      · refine List.Pairwise.imp ?_ List.nodup_range
        intro a b hne
        simp only [Function.onFun, List.disjoint_left, List.mem_map]
        rintro x ⟨k, _, rfl⟩ ⟨k', _, e⟩
        simp at e; exact hne e.1.symm
    · refine List.Pairwise.imp ?_ List.nodup_range
      intro a b hne
      simp only [Function.onFun, List.disjoint_left, List.mem_flatMap, List.mem_map]
      rintro x ⟨j, _, k, _, rfl⟩ ⟨j', _, k', _, e⟩
      simp at e; exact hne e.1.symm
  · unfold dtorRows
    rw [List.nodup_flatMap]
    refine ⟨?_, ?_⟩
    · intro j _
      exact List.Nodup.map (fun a b e => by simpa using e) List.nodup_range
    · refine List.Pairwise.imp ?_ List.nodup_range
      intro a b hne
      simp only [Function.onFun, List.disjoint_left, List.mem_map]
      rintro x ⟨k, _, rfl⟩ ⟨k', _, e⟩
      simp at e; exact hne e.1.symm
  · intro x hx
    unfold dtorSlots at hx
    rw [htab, hrow, hcol] at hx
    simp only [List.mem_flatMap, List.mem_map, List.mem_range] at hx
    obtain ⟨i, hi, j, hj, k, hk, rfl⟩ := hx
    have hj' : j < 512 := by split at hj <;> (try unfold arrCap at hj) <;> omega
    have hk' : k < 512 := by split at hk <;> (try unfold arrCap at hk) <;> omega
    obtain ⟨q1, q2⟩ := h5 i j (Or.inl ⟨hi, hj'⟩)
    refine ⟨q1, q2, hk', ?_⟩
    rw [h8]
    unfold rank
    show (i * 512 + j) * 512 + k < _
    omega
  · intro x hx
    unfold dtorRows at hx
    rw [htab, hrow] at hx
    simp only [List.mem_flatMap, List.mem_map, List.mem_range] at hx
    obtain ⟨i, hi, j, hj, rfl⟩ := hx
    have hj' : j < 512 := by split at hj <;> (try unfold arrCap at hj) <;> omega
    exact h5 i j (Or.inl ⟨hi, hj'⟩)

/-- A state in which the destructor visits something: 512 * 512 + 513 IDs reserved. -/
example : ∃ s, Reachable s ∧ s.oob = false ∧ (∀ t, s.pc t = .idle) ∧ dtorSlots s.cnt ≠ [] := by
  obtain ⟨s, h1, h2, h3, h4⟩ := solo_reach (262144 + 513) (by decide)
  refine ⟨s, h1, C27_directory_bound_partial h1 (by rw [h4]; decide), h2, ?_⟩
  have h3 : s.cnt = enc 1 1 1 := h3
  rw [h3]
  have : dtorSlots (enc 1 1 1) = [(0, 0, 0)] := by decide
  rw [this]; simp

/-! ## C29 -/

/-- **C29 (partial).**  Whenever no reservation is in progress: the reserved bytes are exactly the
bytes of all pages allocated; the used bytes do not exceed the reserved ones; and the used bytes are
the reserved bytes minus the unused words of the directory, of the current table and of the current
row, plus 8.  Missing: the number of used bytes is not exact, it is one word too large
(`C29_false`). -/
theorem C29_statistics_partial {s : St} (h : Reachable s) (ho : s.oob = false)
    (hq : ∀ t, s.pc t = .idle) :
    ∃ T R C : Nat, s.cnt = enc T R C ∧ s.out.length = (T * 512 + R) * 512 + C ∧ C < 512 ∧ R < 512 ∧
      (stats s.cnt).2 = s.pages * 4096 ∧ (stats s.cnt).1 ≤ (stats s.cnt).2 ∧
      (stats s.cnt).1 = s.pages * 4096 -
        8 * ((tabCap - (T + 1)) + (arrCap - (R + 1)) + (arrCap - C)) + 8 := by
  obtain ⟨T, R, C, h1, h2, h3, h4, h5, h6, h7, h8, h9, h10, h11⟩ := (reachable_inv h ho).main
  have hT : T < 504 := h2
  have hC : C < 512 := by
    rcases Nat.lt_or_ge C 512 with h | h
    · exact h
    · obtain ⟨t, ht⟩ := h9 (by omega)
      rw [hq t] at ht; cases ht
  have htab : tabOf s.cnt = T := by rw [h1]; exact tabOf_enc (by omega) (by omega) (by omega)
  have hrow : rowOf s.cnt = R := by rw [h1]; exact rowOf_enc (by omega) (by omega)
  have hcol : colOf s.cnt = C := by rw [h1]; exact colOf_enc (by omega)
  have hrk : (if C = 512 then 511 else C) = C := by simp; omega
  rw [hrk] at h8
  have hp := h11 (fun t => by rw [hq t]; rfl)
  refine ⟨T, R, C, h1, h8, hC, h3, ?_, ?_, ?_⟩ <;>
    (unfold stats; rw [htab, hrow, hcol]) <;> (try rw [hp]) <;>
    simp only [arrCap, tabCap] <;> omega

example : ∃ s, Reachable s ∧ s.oob = false ∧ (∀ t, s.pc t = .idle) ∧ s.out.length = 700 := by
  obtain ⟨s, h1, h2, _, h4⟩ := solo_reach 700 (by decide)
  exact ⟨s, h1, C27_directory_bound_partial h1 (by rw [h4]; decide), h2, h4⟩

/-- The code violates the exactness part of C29: of a fresh table (3 pages, of which 503 + 511 + 512
words are unused) it reports one used word too many. -/
theorem C29_false : Reachable init ∧ (∀ t, init.pc t = .idle) ∧ init.out = [] ∧
    (stats init.cnt).1 ≠ init.pages * 4096 - 8 * ((504 - 1) + (512 - 1) + 512) :=
  ⟨.init, fun _ => rfl, rfl, by decide⟩

end BwTree.Props
