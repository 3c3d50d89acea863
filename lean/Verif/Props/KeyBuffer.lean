import Verif.Tree.KeyBuffer
import Verif.Props.Chain

/-!
# C52: the merge check in the general layout decides on the removed node's own bounds
-/

namespace BwTree.Props

open BwTree

variable {K V : Type} [LinearOrder K] {cfg : Cfg K} {low : Option K}
set_option linter.unusedSectionVars false

/-- Whatever the buffer holds, a successful check still implies that the entry is present in the
parent and is not the parent's lower bound: the shared buffer cannot make a wrong entry disappear. -/
theorem C52_general_check_sound {c : Chain K V} (h : ChainWF cfg true low c) (key : K)
    (has : Bool) (buf : Option K)
    (hok : (mergeCheckB key has buf c).1 = .ok) :
    (∃ p, Spec.look key c = some p) ∧ (∀ l, low = some l → l < key) := by
  have hk : KeyIn low c key := by
    have hf := dcSearchForMergeB_fst key buf c false false (!has)
    rcases dcSearchForMerge_spec h key buf false false (!has) (by simp) with
      e | ⟨e, e'⟩ | ⟨e, _⟩ | ⟨n, kf, sf, e1, e2, e3, e4⟩
    · rw [e] at hf
      simp only [mergeCheckB] at hok
      split at hok <;> simp_all
    · rcases e' with e' | e'
      · cases e'
      · exact e'
    · rw [e] at hf
      simp only [mergeCheckB] at hok
      split at hok <;> simp_all
    · rw [e1] at hf
      cases kf with
      | true =>
        rcases e3 rfl with x | x
        · cases x
        · exact x
      | false =>
        apply e4 rfl
        obtain ⟨f, hf1, hf2⟩ := nodeHas_spec e2 key
        apply hf2.1
        cases f with
        | true => rfl
        | false =>
          exfalso
          generalize hb' : (dcSearchForMergeB key buf false false (!has) c).2 = b
          have hp : dcSearchForMergeB key buf false false (!has) c = (.base n false sf, b) :=
            Prod.ext hf hb'
          simp only [mergeCheckB, hp, Bool.false_eq_true, if_false, hf1] at hok
          cases sf with
          | true => cases hok
          | false =>
            cases b with
            | none => cases hok
            | some s0 =>
              obtain ⟨g, hg, _⟩ := nodeHas_spec e2 s0
              simp [hg] at hok
  refine ⟨?_, ?_⟩
  · rw [look_eq h]; exact Option.ne_none_iff_exists'.1 hk.1
  · intro l hl; have := hk.2 l hl; simpa using this

/-- If the parent has no highest key the check is that of the fixed-length layout. -/
theorem C52_unbounded_parent_partial {c : Chain K V} (key : K)
    (sib : Option K) (hh : c.high = none) :
    (mergeCheckB key sib.isSome sib c).1 = mergeCheck key sib c := by
  have hbuf : ∀ (c : Chain K V) smo kf sf, (smo = true ∨ c.high = none) →
      (dcSearchForMergeB key sib smo kf sf c).2 = sib := by
    intro c
    induction c with
    | base n =>
      intro smo kf sf hh
      simp only [dcSearchForMergeB]
      rcases hh with hh | hh
      · subst hh
        simp only [Bool.not_true, Bool.and_false, Bool.false_eq_true, if_false]
        split <;> rfl
      · change n.high = none at hh
        simp only [hh, loadHigh]
        repeat' split
        all_goals rfl
    | removed b => intro smo kf sf hh; rfl
    | delta d nx ih =>
      intro smo kf sf hh
      simp only [dcSearchForMergeB]
      simp only [Chain.high] at hh
      cases hd : d.ty with
      | insert =>
        simp only [hd, reduceCtorEq, if_false] at hh ⊢
        split <;> [rfl; (split <;> [rfl; exact ih _ _ _ hh])]
      | modify => rfl
      | delete =>
        simp only [hd, reduceCtorEq, if_false] at hh ⊢
        split <;> [rfl; (split <;> [rfl; exact ih _ _ _ hh])]
      | merge =>
        simp only [hd, if_true] at hh ⊢
        split
        · cases d.pay with
          | node n =>
            rcases hh with hh | hh
            · subst hh; simp
            · simp only [hh, loadHigh]
              repeat' split
              all_goals rfl
          | _ => rfl
        · split <;> [rfl; exact ih _ _ _ (Or.inl rfl)]
  have hp : dcSearchForMergeB key sib false false (!sib.isSome) c =
      (dcSearchForMerge key sib false false sib.isNone c, sib) := by
    refine Prod.ext ?_ (hbuf c _ _ _ (Or.inr hh))
    rw [dcSearchForMergeB_fst]
    cases sib <;> rfl
  simp only [mergeCheckB, hp, mergeCheck]
  cases dcSearchForMerge key sib false false sib.isNone c with
  | base n kf sf =>
    simp only
    cases (if kf then some true else nodeHas n key) with
    | none => rfl
    | some kf' =>
      cases sf <;> cases sib <;> simp only
      cases nodeHas n _ <;> rfl
  | _ => rfl

/-- The code violates it: a consolidated parent that has a highest key never admits a merge of a
child that has a right sibling, although the fixed-length layout may admit it. -/
theorem C52_bounded_parent_never_merges {n : Node K V} (h : NodeWF cfg n)
    {hk : K} (hh : n.high = some hk) (key sib : K) :
    (mergeCheckB key true (some sib) (.base n)).1 ≠ .ok := by
  intro hok
  have hno : nodeHas n hk = some false := by
    obtain ⟨f, e1, e2⟩ := nodeHas_spec h hk
    cases f with
    | false => exact e1
    | true =>
      exfalso
      obtain ⟨p, hp⟩ := Option.ne_none_iff_exists'.1 (e2.1 rfl)
      have := (h.range _ (alook_mem hp)).2 hk hh
      simp at this
  have hs : dcSearchForMergeB key (some sib) false false (!true) (.base n) =
      (.abort, some sib) ∨
      dcSearchForMergeB key (some sib) false false (!true) (.base n) = (.sibling n.next, some hk) ∨
      dcSearchForMergeB key (some sib) false false (!true) (.base n) =
        (.base n false false, some hk) := by
    simp only [dcSearchForMergeB, hh, loadHigh, Bool.not_false, Bool.true_and, if_true,
      Bool.not_true]
    split
    · exact Or.inl rfl
    · split
      · exact Or.inr (Or.inl rfl)
      · exact Or.inr (Or.inr rfl)
  rcases hs with e | e | e
  · simp only [mergeCheckB, e] at hok; cases hok
  · simp only [mergeCheckB, e] at hok; cases hok
  · obtain ⟨f, e1, _⟩ := nodeHas_spec h key
    simp [mergeCheckB, e, e1, hno, -Bool.not_true] at hok

/-- A parent `[0, 100)` with children from 0, 10, 20, and the removal of the child `[10, 20)`. -/
def exBounded : Node Nat Nat :=
  { inner := true, low := none, high := some 100, next := 9,
    recs := [(0, .child 1), (10, .child 2), (20, .child 3)], size := 80 }

theorem exBounded_wf : NodeWF exCfg exBounded := by
  constructor
  · simp [Node.body, Node.leftInner, exBounded, SortedK]
  · intro x hx
    simp [Node.body, Node.leftInner, exBounded] at hx
    rcases hx with e | e <;> subst e <;> simp [InR, LowOK, HighOK, exBounded]
  · simp [NonEmptyR, exBounded]
  · intro x hx
    simp [exBounded] at hx
    rcases hx with e | e | e <;> subst e <;> simp [PayOK, exBounded]
  · intro _; exact ⟨_, _, rfl, by simp [exBounded]⟩
  · decide

example : NodeWF exCfg exBounded ∧ exBounded.inner = true ∧ exBounded.high = some 100 :=
  ⟨exBounded_wf, rfl, rfl⟩

/-- The two layouts decide differently. -/
theorem C52_false : ∃ (c : Chain Nat Nat) (key sib : Nat), ChainWF exCfg true none c ∧
    mergeCheck key (some sib) c = .ok ∧ (mergeCheckB key true (some sib) c).1 = .abort :=
  ⟨.base exBounded, 10, 20, ⟨rfl, rfl, exBounded_wf⟩, by decide, by decide⟩

example : ChainWF exCfg true none exParent ∧ exParent.high = none ∧
    (mergeCheckB 15 true (some 20) exParent).1 = .ok := ⟨exParent_wf, rfl, by decide⟩

/-- The right neighbour of `exBounded`: `[100, 200)`, with the entry for 110 still in a delta. -/
def exBounded2 : Chain Nat Nat :=
  .delta { inner := true, ty := .insert, key := 110, high := some 200, pay := .child 12, cnt := 1,
           size := 64 }
    (.base { inner := true, low := some 100, high := some 200, next := 0,
             recs := [(100, .child 11)], size := 48 })

theorem exBounded2_wf : ChainWF exCfg true (some 100) exBounded2 := by
  refine ⟨⟨rfl, rfl, ?_⟩, rfl, ⟨12, rfl⟩, rfl, by decide, by decide, by simp [InR, LowOK, HighOK,
    Chain.high], by decide⟩
  constructor
  · simp [Node.body, Node.leftInner, SortedK]
  · intro x hx
    simp [Node.body, Node.leftInner] at hx
    subst hx; simp [InR, LowOK, HighOK]
  · simp [NonEmptyR]
  · simp [PayOK]
  · intro _; exact ⟨_, _, rfl, by simp⟩
  · decide

/-- It errs in the other direction too: the walk over a first parent leaves its highest key in the
buffer, which the right neighbour contains, so the last child `[110, 200)` of that neighbour is
admitted for merging; the fixed-length layout rejects it. -/
theorem C52_false_last_child : ∃ (c1 c2 : Chain Nat Nat) (key sib : Nat) (p : PID) (b : Option Nat),
    ChainWF exCfg true none c1 ∧ ChainWF exCfg true (some 100) c2 ∧
    mergeCheckB key true (some sib) c1 = (.sibling p, b) ∧ (mergeCheckB key true b c2).1 = .ok ∧
    mergeCheck key (some sib) c2 = .abort :=
  ⟨.base exBounded, exBounded2, 110, 200, 9, some 100, ⟨rfl, rfl, exBounded_wf⟩, exBounded2_wf,
    by decide, by decide, by decide⟩

end BwTree.Props
