import Verif.Tree.SortArray
import Verif.Props.VarLen

/-!
# C57: the sort array of a consolidation
-/

namespace BwTree.Spec
open BwTree
variable {K V : Type} [LinearOrder K]

/-- The newest record for `k` in a chain, merge records aside. -/
def newestDelta (k : K) : Chain K V → Option (Delta K V)
  | .base _ => none
  | .removed _ => none
  | .delta d nx => if d.ty ≠ .merge ∧ d.key = k then some d else newestDelta k nx

/-- The chain can be sorted: it ends in a node, and every merge record carries one. -/
def Sortable : Chain K V → Prop
  | .base _ => True
  | .removed _ => False
  | .delta d nx => (d.ty = .merge → ∃ n, d.pay = .node n) ∧ Sortable nx

end BwTree.Spec

namespace BwTree.Props

open BwTree

variable {K V : Type} [LinearOrder K] {cfg : Cfg K}
set_option linter.unusedSectionVars false

theorem newestDelta_eq (k : K) (c : Chain K V) : Spec.newestDelta k c = newest k c := by
  induction c with
  | base n => rfl
  | removed b => rfl
  | delta d nx ih =>
    simp only [Spec.newestDelta, newest, ih]
    by_cases h : d.ty = .merge <;> by_cases h' : d.key = k <;> simp [h, h']

theorem dcSort_sortable {c : Chain K V} (h : Spec.Sortable c) :
    ∀ (arr : List (Delta K V)) (nodes : List (Node K V)), SortedD arr →
    ∃ arr' nodes', dcSort arr nodes c = some (arr', nodes') ∧ SortedD arr' ∧
      (∀ k, dlook arr' k = (dlook arr k).orElse (fun _ => newest k c)) ∧
      arr'.length ≤ arr.length + Spec.deltas c := by
  induction c with
  | base n => intro arr nodes hs; exact ⟨arr, _, rfl, hs, by simp [newest], by simp⟩
  | removed b => exact h.elim
  | delta d nx ih =>
    intro arr nodes hs
    have hlen := length_addSort d arr
    by_cases hd : d.ty = .merge
    · obtain ⟨n, hn⟩ := h.1 hd
      obtain ⟨a, b, e1, e2, e3, e4⟩ := ih h.2 arr (nodes ++ [n]) hs
      refine ⟨a, b, by simp only [dcSort, hd, hn]; exact e1, e2, fun k => ?_, ?_⟩
      · rw [e3]; simp [newest, hd]
      · simp only [Spec.deltas]; omega
    · obtain ⟨a, b, e1, e2, e3, e4⟩ := ih h.2 (addByInsertionSort d arr) nodes (sorted_addSort hs)
      refine ⟨a, b, ?_, e2, fun k => ?_, ?_⟩
      · rw [← e1]
        cases ht : d.ty <;> simp_all [dcSort]
      · rw [e3, dlook_addSort hs]
        cases dlook arr k
        · simp only [newest, hd, if_false]
          simp
          split <;> simp
        · simp
      · simp only [Spec.deltas]; omega

theorem dlook_getElem {l : List (Delta K V)} (hs : SortedD l) {j : Nat} (hj : j < l.length) :
    dlook l l[j].key = some l[j] := by
  induction l generalizing j with
  | nil => exact absurd hj (Nat.not_lt_zero _)
  | cons r rs ih =>
    cases j with
    | zero => simp [dlook]
    | succ j =>
      have hj' : j < rs.length := by simpa using hj
      have := (List.pairwise_cons.1 hs).1 rs[j] (List.getElem_mem hj')
      simp only [List.getElem_cons_succ, dlook]
      rw [if_neg (ne_of_lt this)]
      exact ih (List.pairwise_cons.1 hs).2 hj'

theorem dlook_mem {l : List (Delta K V)} {k : K} {d : Delta K V} (h : dlook l k = some d) :
    d ∈ l := by
  induction l with
  | nil => cases h
  | cons r rs ih =>
    simp only [dlook] at h
    split at h
    · cases h; simp
    · exact List.mem_cons_of_mem _ (ih h)

/-- Sorting a chain of at most `N` records never leaves the array, in either layout and whatever the
thread's previous consolidation left in the array and the key page.  Afterwards the keys increase
strictly; every slot in use holds the newest record for its key, every key of the chain has its slot,
no two slots share a key buffer, and the copies made from the array are those of the list model. -/
theorem C57_sort_array {N : Nat} {c : Chain K V} (hs : Spec.Sortable c) (hl : Spec.deltas c ≤ N)
    (var : Bool) (old : Nat → Slot K V) (mem : Nat → K) :
    ∃ st nodes, sortSlots var N (createTemp old mem) [] c = some (st, nodes) ∧ st.count ≤ N ∧
      (∀ i j, i < j → j < st.count → st.keyAt var i < st.keyAt var j) ∧
      (∀ j, j < st.count → ∃ d, (st.arr j).ptr = some d ∧ st.keyAt var j = d.key ∧
        Spec.newestDelta d.key c = some d) ∧
      (∀ k d, Spec.newestDelta k c = some d → ∃ j, j < st.count ∧ (st.arr j).ptr = some d) ∧
      (∀ i j, i < N → j < N → (st.arr i).buf = (st.arr j).buf → i = j) ∧
      ∃ arr, dcSort [] [] c = some (arr, nodes) ∧
        seqSlots var st nodes.reverse 0 = copySeq nodes.reverse arr := by
  obtain ⟨arr, nodes, e1, e2, e3, e4⟩ := dcSort_sortable hs [] [] List.Pairwise.nil
  have hsp := sortSlots_spec (var := var) (N := N) c [] (ArrHolds.create var N old mem)
    (by rw [← deltas_eq]; simpa using hl)
  rw [e1] at hsp
  obtain ⟨st, f1, h⟩ := hsp
  have hn : ∀ k, dlook arr k = Spec.newestDelta k c := by
    intro k; rw [e3, newestDelta_eq]; simp [dlook]
  refine ⟨st, nodes, f1, ?_, ?_, ?_, ?_, h.inj, arr, e1, ?_⟩
  · rw [h.count]; exact h.cap
  · intro i j hij hj
    rw [h.count] at hj
    rw [h.key i (by omega), h.key j hj]
    exact List.pairwise_iff_getElem.1 e2 i j (by omega) hj hij
  · intro j hj
    rw [h.count] at hj
    exact ⟨arr[j], h.ptr j hj, h.key j hj, by rw [← hn]; exact dlook_getElem e2 hj⟩
  · intro k d hk
    rw [← hn] at hk
    obtain ⟨j, hj, rfl⟩ := List.getElem_of_mem (dlook_mem hk)
    exact ⟨j, by rw [h.count]; exact hj, h.ptr j hj⟩
  · rw [h.seqSlots _ 0 (Nat.zero_le _)]; rfl

/-- A leaf with the keys 20, 10 and 20 again in its chain. -/
def exSort : Chain Nat Nat :=
  .delta { inner := false, ty := .delete, key := 20, high := none, pay := .none, cnt := 3, size := 80 }
  (.delta { inner := false, ty := .insert, key := 10, high := none, pay := .val 1, cnt := 2, size := 96 }
  (.delta { inner := false, ty := .insert, key := 20, high := none, pay := .val 2, cnt := 1, size := 80 }
    (.base { inner := false, low := none, high := none, next := 0, recs := [(15, .val 3)], size := 64 })))

example : Spec.Sortable exSort ∧ Spec.deltas exSort ≤ 64 :=
  ⟨⟨by simp, by simp, by simp, trivial⟩, by decide⟩

/-- The array after sorting `exSort`: the record for 10 was put in front of that for 20 and uses the
second key buffer. -/
example : ((sortSlots true 64 (createTemp (fun _ => ⟨0, 0, none⟩) (fun _ => 7)) [] exSort).map fun x =>
    (x.1.count, x.1.keyAt true 0, (x.1.arr 0).buf, x.1.keyAt true 1, (x.1.arr 1).buf)) =
    some (2, 10, 1, 20, 0) := by decide

/-- The bound is needed: an array with one slot does not suffice. -/
theorem C57_needs_room : Spec.Sortable exSort ∧
    sortSlots true 1 (createTemp (fun _ => ⟨0, 0, none⟩) (fun _ => 7)) [] exSort = none ∧
    sortSlots false 1 (createTemp (fun _ => ⟨0, 0, none⟩) (fun _ => 7)) [] exSort = none := by
  refine ⟨⟨by simp, by simp, by simp, trivial⟩, ?_, ?_⟩ <;> rfl

theorem _root_.BwTree.ChainWF.sortable {inner : Bool} {low : Option K} {c : Chain K V}
    (h : ChainWF cfg inner low c) : Spec.Sortable c := by
  induction c with
  | base n => trivial
  | removed b => exact h.elim
  | delta d nx ih =>
    refine ⟨fun hm => ?_, ih h.next⟩
    obtain ⟨_, _, _, _, _, _, h4⟩ := h
    rw [hm] at h4
    obtain ⟨_, n, hn, _⟩ := h4
    exact ⟨n, hn⟩

/-- So it is for every page of every execution. -/
theorem C57_reachable_partial (hc : CfgOK2 cfg) {m : K → Option V} {S : Sys K V}
    (hr : Reachable cfg m S) {p : PID} {c : Chain K V} (hm : S.sh.mt p = some c)
    (hn : c.isRemoved = false) (old : Nat → Slot K V) (mem : Nat → K) :
    ∃ st nodes arr, sortSlots cfg.buf cfg.maxDelta (createTemp old mem) [] c = some (st, nodes) ∧
      dcSort [] [] c = some (arr, nodes) ∧
      seqSlots cfg.buf st nodes.reverse 0 = copySeq nodes.reverse arr := by
  obtain ⟨s, hS⟩ := hr.sound hc
  have hsh : s.mt = S.sh.mt := congrArg Sh.mt hS.sh
  obtain ⟨inner, low, hwf⟩ := hS.inv.slot_chain (by rw [hsh]; exact hm) hn
  obtain ⟨st, nodes, e1, _, _, _, _, _, arr, e2, e3⟩ := C57_sort_array (N := cfg.maxDelta)
    hwf.sortable (C21_chains_bounded_partial hc hr hm).1 cfg.buf old mem
  exact ⟨st, nodes, arr, e1, e2, e3⟩

end BwTree.Props
