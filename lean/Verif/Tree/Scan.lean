import Verif.Tree.HeadOps
import Verif.Spec.Map

/-!
# What a scan takes from one node (model, and its exactness)
-/

namespace BwTree

variable {K V : Type} [LinearOrder K]

/-- `IsRightmostOf`, `fixlen/node.hpp` 678-686. -/
def Node.isRightmostOf (n : Node K V) (e : Spec.Bound K) : Bool :=
  match n.high, e with
  | none, _ => true
  | some _, none => false
  | some h, some (k, closed) => decide (k < h) || (!closed && !decide (h < k))

/-- `SearchEndPositionFor`, `fixlen/node.hpp` 394-409: (is this the last node?, end position). -/
def Node.endPos (n : Node K V) (e : Spec.Bound K) : Option (Bool × Nat) :=
  match n.isRightmostOf e, e with
  | true, some (k, closed) =>
    (n.searchRecord k).map fun x => (true, if x.1 && closed then x.2 + 1 else x.2)
  | b, _ => some (b, n.recs.length)

/-- The begin position of a scan: 0 without a begin key (`bw_tree.hpp` 235), otherwise
`ConsolidateForScan`, `bw_tree.hpp` 1109-1112. -/
def Node.beginPos (n : Node K V) (b : Spec.Bound K) : Option Nat :=
  match b with
  | none => some 0
  | some (k, closed) =>
    (n.searchRecord k).map fun x => if !x.1 || closed then x.2 else x.2 + 1

/-- The records as the iterator reads them (`record_iterator.hpp` 137-141); `none`: a payload is
not a user payload. -/
def payloads : List (K × Pay V) → Option (List (K × V))
  | [] => some []
  | (k, .val v) :: l => (payloads l).map ((k, v) :: ·)
  | (_, .child _) :: _ => none

/-- The node a scan builds from a head (`TryConsolidate` with `kIsScan`, `bw_tree.hpp` 1105, 232). -/
def scanNode (cfg : Cfg K) (c : Chain K V) : Option (Node K V) :=
  match tryConsolidate cfg true c with
  | some (.consolidate n) => some n
  | some (.merge n) => some n
  | _ => none

/-- What one node visit yields: the records at the positions `[begin_pos, end_pos)`, which
`HasRecord`/`operator++` (`record_iterator.hpp` 150-173) enumerate, and, unless `is_end`, the key and
page of the next visit (`record_iterator.hpp` 176-178). -/
def scanOut (cfg : Cfg K) (b e : Spec.Bound K) (c : Chain K V) :
    Option (List (K × V) × Option (K × PID)) :=
  match scanNode cfg c with
  | none => none
  | some n =>
    match n.beginPos b, n.endPos e with
    | some bp, some (isEnd, ep) =>
      match payloads ((n.recs.take ep).drop bp) with
      | none => none
      | some recs => some (recs, if isEnd then none else n.high.map fun h => (h, n.next))
    | _, _ => none

/-! ## Exactness -/

section
set_option linter.unusedSectionVars false

theorem payloads_spec {l : List (K × Pay V)} (h : ∀ x ∈ l, ∃ v, x.2 = .val v) :
    ∃ o, payloads l = some o ∧ l = o.map (fun x => (x.1, Pay.val x.2)) := by
  induction l with
  | nil => exact ⟨[], rfl, rfl⟩
  | cons x l ih =>
    obtain ⟨o, h1, h2⟩ := ih (fun y hy => h y (by simp [hy]))
    obtain ⟨k, p⟩ := x
    obtain ⟨v, hv⟩ := h (k, p) (by simp)
    simp only at hv
    subst hv
    refine ⟨(k, v) :: o, by simp [payloads, h1], ?_⟩
    simp [← h2]

/-- Positions found by the begin and end searches. -/
theorem searchRecord_pos {n : Node K V} (hi : n.inner = false) (hs : SortedK n.recs) (key : K)
    (cl : Bool) : ∃ f pos, n.searchRecord key = some (f, pos) ∧ pos ≤ n.recs.length ∧
      (∀ i (_ : i < n.recs.length), (if !f || cl then pos else pos + 1) ≤ i ↔
        key < n.recs[i].1 ∨ (cl = true ∧ key = n.recs[i].1)) ∧
      (∀ i (_ : i < n.recs.length), i < (if f && cl then pos + 1 else pos) ↔
        n.recs[i].1 < key ∨ (cl = true ∧ n.recs[i].1 = key)) := by
  have hb : n.body = n.recs := by simp [Node.body, Node.leftInner, hi]
  have hk : n.skip = 0 := by simp [Node.skip, Node.leftInner, hi]
  have mono : ∀ i j (hi : i < n.recs.length) (hj : j < n.recs.length), i < j →
      n.recs[i].1 < n.recs[j].1 := fun i j hi hj h => hs.getElem_lt hi hj h
  rcases n.searchRecord_spec (by rw [hb]; exact hs) key with
    ⟨pos, hp, h1, _, h3, _⟩ | ⟨pos, h1, _, h2, _, h3, h4⟩
  · refine ⟨true, pos, h1, Nat.le_of_lt hp, ?_, ?_⟩ <;> intro i hi
    · rcases Nat.lt_trichotomy i pos with h | h | h
      · have := mono i pos hi hp h
        rw [h3] at this
        cases cl <;> simp <;> constructor <;> intro h' <;> first | omega | skip
        · exact absurd h' (not_lt.2 (le_of_lt this))
        · rcases h' with h' | h'
          · exact absurd h' (not_lt.2 (le_of_lt this))
          · rw [← h'] at this; exact absurd this (lt_irrefl _)
      · subst h
        cases cl <;> simp [h3]
      · have := mono pos i hp hi h
        rw [h3] at this
        cases cl <;> simp [this] <;> omega
    · rcases Nat.lt_trichotomy i pos with h | h | h
      · have := mono i pos hi hp h
        rw [h3] at this
        cases cl <;> simp [this] <;> omega
      · subst h
        cases cl <;> simp [h3]
      · have := mono pos i hp hi h
        rw [h3] at this
        have h5 : ¬ n.recs[i].1 < key := not_lt.2 (le_of_lt this)
        have h6 : n.recs[i].1 ≠ key := ne_of_gt this
        cases cl <;> simp [h5, h6] <;> omega
  · rw [hk] at h2 h3 h4
    refine ⟨false, pos, h1, by omega, ?_, ?_⟩ <;> intro i hi
    · rcases Nat.lt_or_ge i pos with h | h
      · have := h3 i hi (by omega) h
        have h5 : ¬ key < n.recs[i].1 := not_lt.2 (le_of_lt this)
        have h6 : key ≠ n.recs[i].1 := ne_of_gt this
        simp [h5, h6]; omega
      · have := h4 i hi (by omega) h
        simp [this]; omega
    · rcases Nat.lt_or_ge i pos with h | h
      · have := h3 i hi (by omega) h
        simp [this]; omega
      · have := h4 i hi (by omega) h
        have h5 : ¬ n.recs[i].1 < key := not_lt.2 (le_of_lt this)
        have h6 : n.recs[i].1 ≠ key := ne_of_gt this
        simp [h5, h6]; omega

theorem beginPos_spec {n : Node K V} (hi : n.inner = false) (hs : SortedK n.recs)
    (b : Spec.Bound K) : ∃ p, n.beginPos b = some p ∧
      ∀ i (_ : i < n.recs.length), p ≤ i ↔ Spec.fromB b n.recs[i].1 := by
  cases b with
  | none => exact ⟨0, rfl, fun i _ => by simp [Spec.fromB]⟩
  | some x =>
    obtain ⟨k, cl⟩ := x
    obtain ⟨f, pos, h1, _, h2, _⟩ := searchRecord_pos hi hs k cl
    refine ⟨_, by simp [Node.beginPos, h1]; rfl, fun i hi => ?_⟩
    have := h2 i hi
    simp only [Bool.or_eq_true, Bool.not_eq_true'] at this
    rw [this]
    constructor
    · intro h y c e; cases e; exact h
    · intro h; exact h k cl rfl

theorem endPos_spec {n : Node K V} (hi : n.inner = false) (hs : SortedK n.recs)
    (hr : ∀ x ∈ n.recs, HighOK n.high x.1 true) (e : Spec.Bound K) :
    ∃ p, n.endPos e = some (n.isRightmostOf e, p) ∧
      ∀ i (_ : i < n.recs.length), i < p ↔ Spec.toB e n.recs[i].1 := by
  cases e with
  | none =>
    refine ⟨n.recs.length, ?_, fun i hi => by simp [Spec.toB, hi]⟩
    unfold Node.endPos; cases n.isRightmostOf none <;> rfl
  | some x =>
    obtain ⟨k, cl⟩ := x
    cases hR : n.isRightmostOf (some (k, cl)) with
    | true =>
      obtain ⟨f, pos, h1, _, _, h2⟩ := searchRecord_pos hi hs k cl
      refine ⟨_, by simp [Node.endPos, hR, h1]; rfl, fun i hi => ?_⟩
      have := h2 i hi
      simp only [Bool.and_eq_true] at this
      rw [this]
      constructor
      · intro h y c e; cases e; exact h
      · intro h; exact h k cl rfl
    | false =>
      refine ⟨n.recs.length, by simp [Node.endPos, hR], fun i hi => ?_⟩
      simp only [hi, true_iff]
      intro y c e; cases e
      have hk := hr _ (List.getElem_mem hi)
      unfold Node.isRightmostOf at hR
      cases hh : n.high with
      | none => rw [hh] at hR; cases hR
      | some h =>
        rw [hh] at hR
        simp only [Bool.or_eq_false_iff, decide_eq_false_iff_not] at hR
        have := hk h hh
        simp only [if_true] at this
        left; order

theorem isRightmostOf_false {n : Node K V} {e : Spec.Bound K} (h : n.isRightmostOf e = false) :
    ∃ x, n.high = some x ∧ Spec.toB e x := by
  unfold Node.isRightmostOf at h
  cases hh : n.high with
  | none => rw [hh] at h; cases h
  | some x =>
    rw [hh] at h
    refine ⟨x, rfl, ?_⟩
    intro k c he
    subst he
    simp only [Bool.or_eq_false_iff, decide_eq_false_iff_not, Bool.and_eq_false_iff,
      Bool.not_eq_false', decide_eq_true_eq] at h
    obtain ⟨h1, h2⟩ := h
    rcases h2 with h2 | h2
    · rcases lt_or_eq_of_le (not_lt.1 h1) with h3 | h3
      · exact Or.inl h3
      · exact Or.inr ⟨h2, h3⟩
    · exact Or.inl h2

theorem isRightmostOf_true {n : Node K V} {e : Spec.Bound K} (h : n.isRightmostOf e = true) {k : K}
    (hk : Spec.toB e k) : HighOK n.high k true := by
  intro x hx
  simp only [if_true]
  unfold Node.isRightmostOf at h
  rw [hx] at h
  cases e with
  | none => cases h
  | some y =>
    obtain ⟨y, c⟩ := y
    simp only [Bool.or_eq_true, decide_eq_true_eq, Bool.and_eq_true, Bool.not_eq_true',
      decide_eq_false_iff_not] at h
    rcases hk y c rfl with h1 | ⟨h1, h2⟩
    · rcases h with h | ⟨_, h⟩ <;> order
    · rcases h with h | ⟨h, _⟩
      · order
      · rw [h1] at h; cases h

/-- A visit of a leaf that contains the begin of the scan yields the right page. -/
theorem scanOut_spec {cfg : Cfg K} (hc : CfgOK cfg) {low : Option K} {c : Chain K V}
    (h : ChainWF cfg false low c) {m : K → Option V}
    (hm : ∀ k, InR low c.high k → alook c.flatBody k = (m k).map Pay.val) {b e : Spec.Bound K}
    (hb0 : b = none → low = none)
    (hb : ∀ x cl, b = some (x, cl) → LowOK low x cl ∧ HighOK c.high x cl) :
    ∃ recs nx, scanOut cfg b e c = some (recs, nx) ∧ Spec.PageOK m b e recs (nx.map Prod.fst) ∧
      ∀ k p, nx = some (k, p) → c.high = some k ∧ p = c.nextPid := by
  obtain ⟨hsort, hrange, hkind⟩ := h.flatBody_spec
  have hpre : c.pre = [] := h.pre_shape.2 (by simp)
  have hflat : c.flat = c.flatBody := by simp [Chain.flat, hpre]
  generalize hn : consNode false c (2 * cfg.page) = n
  have hrecs : n.recs = c.flatBody := by rw [← hn]; exact hflat
  have hhigh : n.high = c.high := by rw [← hn]; rfl
  have hinner : n.inner = false := by rw [← hn]; rfl
  have hnext : n.next = c.nextPid := by rw [← hn]; rfl
  have hnode : scanNode cfg c = some n := by
    unfold scanNode; rw [(tryConsolidate_spec hc h true).1 rfl, hn]
  rw [← hrecs] at hsort hrange hkind hm
  obtain ⟨bp, hb1, hb2⟩ := beginPos_spec hinner hsort b
  obtain ⟨ep, he1, he2⟩ := endPos_spec hinner hsort
    (by rw [hhigh]; exact fun x hx => (hrange x hx).2) e
  have hmem : ∀ x, x ∈ (n.recs.take ep).drop bp ↔
      x ∈ n.recs ∧ Spec.fromB b x.1 ∧ Spec.toB e x.1 := by
    intro x
    rw [mem_drop_iff]
    constructor
    · rintro ⟨i, hi, hbi, rfl⟩
      have hi' : i < n.recs.length := by simp at hi; omega
      have hie : i < ep := by simp at hi; omega
      rw [List.getElem_take]
      exact ⟨List.getElem_mem hi', (hb2 i hi').1 hbi, (he2 i hi').1 hie⟩
    · rintro ⟨h1, h2, h3⟩
      obtain ⟨i, hi, rfl⟩ := List.mem_iff_getElem.1 h1
      have := (he2 i hi).2 h3
      exact ⟨i, by simp; omega, (hb2 i hi).2 h2, by rw [List.getElem_take]⟩
  have hsub : ((n.recs.take ep).drop bp).Sublist n.recs :=
    (List.drop_sublist _ _).trans (List.take_sublist _ _)
  obtain ⟨o, ho1, ho2⟩ := payloads_spec (l := (n.recs.take ep).drop bp) (by
    intro x hx
    have := hkind x (hsub.mem hx)
    simpa [PayOK] using this)
  refine ⟨o, if n.isRightmostOf e then none else n.high.map fun h => (h, n.next),
    by simp only [scanOut, hnode, hb1, he1, ho1], ?_, ?_⟩
  · have hnx : ∀ y, (if n.isRightmostOf e then none else n.high.map fun h => (h, n.next)).map
        Prod.fst = some y ↔ n.isRightmostOf e = false ∧ n.high = some y := by
      intro y
      cases n.isRightmostOf e <;> cases n.high <;> simp
    have homem : ∀ k v, (k, v) ∈ o ↔ (k, Pay.val v) ∈ n.recs ∧ Spec.fromB b k ∧ Spec.toB e k := by
      intro k v
      rw [← hmem, ho2]
      simp
    refine ⟨?_, ?_, ?_, ?_⟩
    · have := hsort.sublist hsub
      rw [ho2, List.pairwise_map] at this
      exact this
    · intro k v
      rw [homem]
      constructor
      · rintro ⟨h1, h2, h3⟩
        have hr := hrange _ h1
        have hv := hm k hr
        rw [alook_of_mem hsort h1] at hv
        refine ⟨?_, h2, h3, ?_⟩
        · cases hmk : m k with
          | none => rw [hmk] at hv; cases hv
          | some w => rw [hmk] at hv; simp at hv; rw [hv]
        · intro y hy
          obtain ⟨_, hy⟩ := (hnx y).1 hy
          rw [hhigh] at hy
          have := hr.2 y hy
          simpa using this
      · rintro ⟨h1, h2, h3, h4⟩
        refine ⟨?_, h2, h3⟩
        have hlow : LowOK low k true := by
          cases b with
          | none => rw [hb0 rfl]; intro l hl; cases hl
          | some x =>
            obtain ⟨x, cl⟩ := x
            intro l hl
            have h5 := (hb x cl rfl).1 l hl
            have h6 := h2 x cl rfl
            simp only [if_true]
            cases cl
            · simp at h5 h6; order
            · simp at h5 h6
              rcases h6 with h6 | h6 <;> order
        have hhi : HighOK c.high k true := by
          cases hR : n.isRightmostOf e with
          | true => rw [← hhigh]; exact isRightmostOf_true hR h3
          | false =>
            intro y hy
            rw [← hhigh] at hy
            simpa using h4 y ((hnx y).2 ⟨hR, hy⟩)
        have hv := hm k ⟨hlow, hhi⟩
        rw [h1] at hv
        exact alook_mem hv
    · intro y x cl hy hbx
      obtain ⟨_, hy⟩ := (hnx y).1 hy
      rw [hhigh] at hy
      have := (hb x cl hbx).2 y hy
      cases cl
      · simp only [Bool.false_eq_true, if_false] at this
        rcases lt_or_eq_of_le this with h1 | h1
        · exact Or.inl h1
        · exact Or.inr ⟨rfl, h1⟩
      · exact Or.inl (by simpa using this)
    · intro y hy
      obtain ⟨hR, hy⟩ := (hnx y).1 hy
      obtain ⟨x, hx, hx'⟩ := isRightmostOf_false hR
      rw [hy] at hx; cases hx; exact hx'
  · intro k p hkp
    cases hR : n.isRightmostOf e with
    | true => rw [hR] at hkp; cases hkp
    | false =>
      rw [hR] at hkp
      cases hh : n.high with
      | none => rw [hh] at hkp; cases hkp
      | some y =>
        rw [hh] at hkp
        simp only [Bool.false_eq_true, if_false, Option.map_some, Option.some.injEq,
          Prod.mk.injEq] at hkp
        rw [← hhigh, hh, hkp.1, ← hkp.2, hnext]; exact ⟨rfl, rfl⟩

end

end BwTree
