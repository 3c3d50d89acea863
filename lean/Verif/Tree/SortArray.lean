import Verif.Tree.ChainLemmas

/-!
# The sort array of a consolidation (model and refinement)

`DeltaChain::Sort` fills a `std::array<Record, kMaxDeltaRecordNum>`.  `Tree/Model.lean` treats it as
a list of deltas; here it is the array with indices, `memmove` and, for variable-length keys, key
buffers: `CreateTempRecords` (`bw_tree.hpp` 1151-1168) gives each slot its own part of one page, and
`AddByInsertionSortTo` (`varlen/delta_record.hpp` 501-531) copies the key of a delta into the part of
the first free slot.  The slots, and with them the buffer addresses, move when a record is inserted.
-/

namespace BwTree

variable {K V : Type} [LinearOrder K]
set_option linter.unusedSectionVars false

/-- `Record`, `varlen/delta_record.hpp` 60-63.  `buf`: the number of the part of the key page `key`
points to; `key`: the key itself where it is stored by value. -/
structure Slot (K V : Type) where
  buf : Nat
  key : K
  ptr : Option (Delta K V)

/-- The array, the contents of the key page and `count`. -/
structure SortSt (K V : Type) where
  arr : Nat → Slot K V
  mem : Nat → K
  count : Nat

/-- `arr[j].key` as `Comp` sees it. -/
def SortSt.keyAt (var : Bool) (st : SortSt K V) (j : Nat) : K :=
  if var then st.mem (st.arr j).buf else (st.arr j).key

/-- `CreateTempRecords`, `bw_tree.hpp` 1151-1168.  `old` and `mem`: whatever the previous
consolidation of this thread left there. -/
def createTemp (old : Nat → Slot K V) (mem : Nat → K) : SortSt K V :=
  { arr := fun j => { old j with buf := j }, mem := mem, count := 0 }

/-- `for (; i < count && p(i); ++i)`; `n` is `count - i`. -/
def skipWhile (p : Nat → Bool) : Nat → Nat → Nat
  | 0, i => i
  | n + 1, i => if p i then skipWhile p n (i + 1) else i

/-- `AddByInsertionSortTo`: `varlen/delta_record.hpp` 501-531 and `fixlen/delta_record.hpp` 457-481.
`none`: access outside the array, which has `N` slots. -/
def addSlot (var : Bool) (N : Nat) (d : Delta K V) (st : SortSt K V) : Option (SortSt K V) :=
  if var && decide (N ≤ st.count) then none
  else
    let b := (st.arr st.count).buf
    let st1 : SortSt K V :=
      if var then { st with mem := fun a => if a = b then d.key else st.mem a } else st
    let cur : Slot K V := { buf := b, key := d.key, ptr := some d }
    let i := skipWhile (fun j => decide (st1.keyAt var j < d.key)) st1.count 0
    if st1.count ≤ i then
      if N ≤ i then none
      else some { st1 with arr := fun j => if j = i then cur else st1.arr j, count := st1.count + 1 }
    else if d.key < st1.keyAt var i then
      if N ≤ st1.count then none
      else
        let moved : Nat → Slot K V := fun j =>
          if i + 1 ≤ j ∧ j ≤ st1.count then st1.arr (j - 1) else st1.arr j
        some { st1 with arr := fun j => if j = i then cur else moved j, count := st1.count + 1 }
    else some st1

/-- `DeltaChain::Sort`, `delta_chain.hpp` 346-375. -/
def sortSlots (var : Bool) (N : Nat) : SortSt K V → List (Node K V) → Chain K V →
    Option (SortSt K V × List (Node K V))
  | st, nodes, .base n => some (st, nodes ++ [n])
  | _, _, .removed _ => none
  | st, nodes, .delta d nx =>
    match d.ty with
    | .merge =>
      match d.pay with
      | .node n => sortSlots var N st (nodes ++ [n]) nx
      | _ => none
    | _ => (addSlot var N d st).bind fun st' => sortSlots var N st' nodes nx

/-- The records `arr[j], ..., arr[j' - 1]` are copied. -/
def copySlots (st : SortSt K V) (j j' : Nat) : List (Copy K V) :=
  (List.range' j (j' - j)).filterMap fun x => (st.arr x).ptr.map .delta

/-- Inner loop of `Consolidate`, `bw_tree.hpp` 1300-1313: the copies, and `j`. -/
def mergeSlots (var : Bool) (st : SortSt K V) : List (K × Pay V) → Nat → List (Copy K V) × Nat
  | [], j => ([], j)
  | r :: rs, j =>
    let j' := skipWhile (fun x => decide (st.keyAt var x < r.1)) (st.count - j) j
    if j' < st.count ∧ !decide (r.1 < st.keyAt var j') then
      let out := mergeSlots var st rs (j' + 1)
      (copySlots st j j' ++ copySlots st j' (j' + 1) ++ out.1, out.2)
    else
      let out := mergeSlots var st rs j'
      (copySlots st j j' ++ .node r :: out.1, out.2)

/-- Outer loop of `Consolidate`, `bw_tree.hpp` 1291-1319. -/
def seqSlots (var : Bool) (st : SortSt K V) : List (Node K V) → Nat → Option (List (Copy K V))
  | [], j => some (copySlots st j st.count)
  | n :: ns, j =>
    if n.inner && n.low.isNone then
      match n.recs with
      | [] => none
      | r :: rs =>
        let out := mergeSlots var st rs j
        (seqSlots var st ns out.2).map (fun l => .first r :: (out.1 ++ l))
    else
      let out := mergeSlots var st n.recs j
      (seqSlots var st ns out.2).map (fun l => out.1 ++ l)

/-! ## Refinement -/

/-- The array holds the list `l`: the slots in use carry its deltas and their keys, and no two slots
share a buffer. -/
structure ArrHolds (var : Bool) (N : Nat) (st : SortSt K V) (l : List (Delta K V)) : Prop where
  count : st.count = l.length
  cap : l.length ≤ N
  ptr : ∀ j (h : j < l.length), (st.arr j).ptr = some l[j]
  key : ∀ j (h : j < l.length), st.keyAt var j = l[j].key
  inj : ∀ i j, i < N → j < N → (st.arr i).buf = (st.arr j).buf → i = j

theorem ArrHolds.create (var : Bool) (N : Nat) (old : Nat → Slot K V) (mem : Nat → K) :
    ArrHolds var N (createTemp old mem) [] :=
  ⟨rfl, Nat.zero_le _, fun _ h => absurd h (Nat.not_lt_zero _),
    fun _ h => absurd h (Nat.not_lt_zero _), fun _ _ _ _ e => e⟩

theorem skipWhile_spec (p : Nat → Bool) : ∀ n i, i ≤ skipWhile p n i ∧ skipWhile p n i ≤ i + n ∧
    (∀ j, i ≤ j → j < skipWhile p n i → p j = true) ∧
    (skipWhile p n i < i + n → p (skipWhile p n i) = false) := by
  intro n
  induction n with
  | zero =>
    intro i
    exact ⟨Nat.le_refl _, Nat.le_refl _, fun j h1 h2 => absurd h2 (Nat.not_lt.2 h1),
      fun h => absurd h (Nat.lt_irrefl _)⟩
  | succ n ih =>
    intro i
    simp only [skipWhile]
    split
    · rename_i hp
      obtain ⟨h1, h2, h3, h4⟩ := ih (i + 1)
      refine ⟨by omega, by omega, fun j a b => ?_, fun h => h4 (by omega)⟩
      rcases Nat.eq_or_lt_of_le a with e | e
      · exact e ▸ hp
      · exact h3 j e b
    · rename_i hp
      exact ⟨Nat.le_refl _, by omega, fun j a b => absurd b (Nat.not_lt.2 a), fun _ => by simpa using hp⟩

/-- Insertion sort by position. -/
theorem addByInsertionSort_at (d : Delta K V) : ∀ (l : List (Delta K V)) (i : Nat), i ≤ l.length →
    (∀ j (h : j < l.length), j < i → l[j].key < d.key) →
    (∀ h : i < l.length, ¬ l[i].key < d.key) →
    addByInsertionSort d l = if h : i < l.length then
      (if d.key < l[i].key then l.take i ++ d :: l.drop i else l) else l ++ [d] := by
  intro l
  induction l with
  | nil => intro i hi _ _; simp [addByInsertionSort]
  | cons r rs ih =>
    intro i hi h1 h2
    simp only [addByInsertionSort]
    cases i with
    | zero =>
      have := h2 (by simp)
      simp only [List.getElem_cons_zero] at this
      simp [this]
    | succ i =>
      have hr := h1 0 (by simp) (by omega)
      simp only [List.getElem_cons_zero] at hr
      rw [if_pos hr, ih i (by simpa using hi) (fun j h hj => by
        have := h1 (j + 1) (by simpa using h) (by omega); simpa using this) (fun h => by
        have := h2 (by simpa using h); simpa using this)]
      by_cases h : i < rs.length
      · simp only [h, dif_pos, List.length_cons, Nat.add_lt_add_iff_right, List.getElem_cons_succ,
          List.take_succ_cons, List.drop_succ_cons]
        split <;> rfl
      · simp [h]

theorem addSlot_spec {var : Bool} {N : Nat} {st : SortSt K V} {l : List (Delta K V)}
    (h : ArrHolds var N st l) (hl : l.length < N) (d : Delta K V) :
    ∃ st', addSlot var N d st = some st' ∧ ArrHolds var N st' (addByInsertionSort d l) := by
  have hc := h.count
  unfold addSlot
  rw [if_neg (by simp; intro _; omega)]
  simp only
  generalize hst1 : (if var = true then
    { arr := st.arr, mem := fun a => if a = (st.arr st.count).buf then d.key else st.mem a,
      count := st.count } else st : SortSt K V) = st1
  have ha : st1.arr = st.arr := by subst hst1; split <;> rfl
  have hn : st1.count = l.length := by subst hst1; split <;> exact hc
  have hfree : ∀ j, j < N → j ≠ st.count → (st.arr j).buf ≠ (st.arr st.count).buf :=
    fun j hj hne e => hne (h.inj j st.count hj (by omega) e)
  have hk : ∀ j (hj : j < l.length), st1.keyAt var j = l[j].key := by
    intro j hj
    rw [← h.key j hj]
    unfold SortSt.keyAt
    subst hst1
    cases var with
    | false => rfl
    | true =>
      simp only [if_true]
      rw [if_neg (hfree j (by omega) (by omega))]
  have hmem : ∀ x : Slot K V, x.buf = (st.arr st.count).buf → x.key = d.key →
      (if var then st1.mem x.buf else x.key) = d.key := by
    intro x e1 e2
    subst hst1
    cases var with
    | false => exact e2
    | true => simp [e1]
  obtain ⟨s1, s2, s3, s4⟩ := skipWhile_spec (fun j => decide (st1.keyAt var j < d.key)) st1.count 0
  generalize skipWhile (fun j => decide (st1.keyAt var j < d.key)) st1.count 0 = i at s1 s2 s3 s4
  rw [hn] at s2 s4
  simp only [Nat.zero_add] at s2 s4
  have hlt : ∀ j (hj : j < l.length), j < i → l[j].key < d.key := by
    intro j hj hji
    have := s3 j (Nat.zero_le _) hji
    rw [hk j hj] at this
    simpa using this
  have hge : ∀ hi : i < l.length, ¬ l[i].key < d.key := by
    intro hi
    have := s4 hi
    rw [hk i hi] at this
    simpa using this
  rw [addByInsertionSort_at d l i s2 hlt hge]
  by_cases hi : i < l.length
  · rw [if_neg (by omega), dif_pos hi, hk i hi]
    split
    · rw [if_neg (by omega)]
      refine ⟨_, rfl, ?_⟩
      have hlen : (l.take i ++ d :: l.drop i).length = l.length + 1 := by
        simp only [List.length_append, List.length_take, List.length_cons, List.length_drop]; omega
      have hget : ∀ j (hj : j < (l.take i ++ d :: l.drop i).length),
          (l.take i ++ d :: l.drop i)[j] =
            if hji : j < i then l[j] else if j = i then d else l[j - 1]'(by omega) := by
        intro j hj
        by_cases hji : j < i
        · rw [dif_pos hji, List.getElem_append_left (by simp; omega), List.getElem_take]
        · rw [dif_neg hji, List.getElem_append_right (by simp; omega)]
          simp only [List.length_take, Nat.min_eq_left (Nat.le_of_lt hi)]
          by_cases he : j = i
          · subst he; simp
          · rw [if_neg he]
            obtain ⟨m, rfl⟩ : ∃ m, j = i + m + 1 := ⟨j - i - 1, by omega⟩
            simp only [Nat.add_assoc, Nat.add_sub_cancel_left, List.getElem_cons_succ,
              List.getElem_drop]
            congr 1
      refine ⟨by simp only [hn]; exact hlen.symm, by omega, ?_, ?_, ?_⟩
      · intro j hj
        rw [hget j hj]
        simp only [ha]
        by_cases e1 : j = i
        · subst e1; simp
        · rw [if_neg e1]
          by_cases e2 : j < i
          · rw [if_neg (by omega), dif_pos e2]; exact h.ptr j (by omega)
          · rw [if_pos (by omega), dif_neg e2, if_neg e1]; exact h.ptr (j - 1) (by omega)
      · intro j hj
        rw [hget j hj]
        by_cases e1 : j = i
        · subst e1
          simp only [SortSt.keyAt, if_true, Nat.lt_irrefl, dite_false]
          exact hmem ⟨(st.arr st.count).buf, d.key, some d⟩ rfl rfl
        · by_cases e2 : j < i
          · rw [dif_pos e2, ← hk j (by omega)]
            simp only [SortSt.keyAt, if_neg e1]
            rw [if_neg (show ¬ (i + 1 ≤ j ∧ j ≤ st1.count) by omega)]
          · rw [dif_neg e2, if_neg e1, ← hk (j - 1) (by omega)]
            simp only [SortSt.keyAt, if_neg e1]
            rw [if_pos (show i + 1 ≤ j ∧ j ≤ st1.count by omega)]
      · intro x y hx hy e
        have hbuf : ∀ z, z < N → ∃ w, w < N ∧ (if z = i then (⟨(st.arr st.count).buf, d.key, some d⟩ : Slot K V)
            else if i + 1 ≤ z ∧ z ≤ st1.count then st1.arr (z - 1) else st1.arr z).buf =
              (st.arr w).buf ∧ (z = i → w = st.count) ∧ (i + 1 ≤ z ∧ z ≤ st.count → w = z - 1) ∧
              (z ≠ i → ¬ (i + 1 ≤ z ∧ z ≤ st.count) → w = z) := by
          intro z hz
          have hcc : st1.count = st.count := by rw [hn, hc]
          by_cases e1 : z = i
          · exact ⟨st.count, by omega, by simp [e1], fun _ => rfl, fun a => by omega, fun a => absurd e1 a⟩
          · rw [if_neg e1, hcc, ha]
            by_cases e2 : i + 1 ≤ z ∧ z ≤ st.count
            · rw [if_pos e2]
              exact ⟨z - 1, by omega, rfl, fun a => absurd a e1, fun _ => rfl, fun _ a => absurd e2 a⟩
            · rw [if_neg e2]
              exact ⟨z, hz, rfl, fun a => absurd a e1, fun a => absurd a e2, fun _ _ => rfl⟩
        obtain ⟨w1, a1, a2, a3, a4, a5⟩ := hbuf x hx
        obtain ⟨w2, b1, b2, b3, b4, b5⟩ := hbuf y hy
        have hw : w1 = w2 := h.inj w1 w2 a1 b1 (a2.symm.trans (e.trans b2))
        by_cases ex : x = i <;> by_cases ey : y = i
        · omega
        · have := a3 ex
          by_cases q : i + 1 ≤ y ∧ y ≤ st.count
          · have := b4 q; omega
          · have := b5 ey q; omega
        · have := b3 ey
          by_cases q : i + 1 ≤ x ∧ x ≤ st.count
          · have := a4 q; omega
          · have := a5 ex q; omega
        · by_cases q : i + 1 ≤ x ∧ x ≤ st.count <;> by_cases q' : i + 1 ≤ y ∧ y ≤ st.count
          · have := a4 q; have := b4 q'; omega
          · have := a4 q; have := b5 ey q'; omega
          · have := a5 ex q; have := b4 q'; omega
          · have := a5 ex q; have := b5 ey q'; omega
    · refine ⟨_, rfl, hn, h.cap, ?_, hk, ?_⟩
      · rw [ha]; exact h.ptr
      · rw [ha]; exact h.inj
  · have hil : i = l.length := by omega
    rw [if_pos (by omega), if_neg (by omega), dif_neg hi]
    refine ⟨_, rfl, by simp [hn], by simp; omega, ?_, ?_, ?_⟩
    · intro j hj
      simp only [ha]
      by_cases e : j = i
      · subst e; subst hil; simp
      · rw [if_neg e, List.getElem_append_left (by simp at hj; omega)]
        exact h.ptr j _
    · intro j hj
      by_cases e : j = i
      · subst e
        simp only [SortSt.keyAt, if_true]
        rw [hmem ⟨(st.arr st.count).buf, d.key, some d⟩ rfl rfl]
        subst hil; simp
      · rw [List.getElem_append_left (by simp at hj; omega), ← hk j (by simp at hj; omega)]
        simp only [SortSt.keyAt, if_neg e]
    · intro x y hx hy e
      simp only [ha] at e
      have hx' : (if x = i then (⟨(st.arr st.count).buf, d.key, some d⟩ : Slot K V) else st.arr x).buf =
          (st.arr x).buf := by
        split
        · rename_i q; rw [q, hil, hc]
        · rfl
      have hy' : (if y = i then (⟨(st.arr st.count).buf, d.key, some d⟩ : Slot K V) else st.arr y).buf =
          (st.arr y).buf := by
        split
        · rename_i q; rw [q, hil, hc]
        · rfl
      exact h.inj x y hx hy (hx'.symm.trans (e.trans hy'))

/-- `Sort` of a chain that has room in the array. -/
theorem sortSlots_spec {var : Bool} {N : Nat} (c : Chain K V) : ∀ {st : SortSt K V}
    {l : List (Delta K V)} (nodes : List (Node K V)), ArrHolds var N st l →
    l.length + deltaLen c ≤ N →
    match dcSort l nodes c with
    | none => sortSlots var N st nodes c = none
    | some (l', nodes') => ∃ st', sortSlots var N st nodes c = some (st', nodes') ∧
        ArrHolds var N st' l' := by
  induction c with
  | base n => intro st l nodes h _; exact ⟨st, rfl, h⟩
  | removed b => intro st l nodes h _; rfl
  | delta d nx ih =>
    intro st l nodes h hl
    simp only [deltaLen] at hl
    have hadd : match dcSort (addByInsertionSort d l) nodes nx with
        | none => (addSlot var N d st).bind (fun st' => sortSlots var N st' nodes nx) = none
        | some (l', nodes') => ∃ st', (addSlot var N d st).bind
            (fun st' => sortSlots var N st' nodes nx) = some (st', nodes') ∧ ArrHolds var N st' l' := by
      obtain ⟨st', e1, e2⟩ := addSlot_spec h (by omega) d
      have := length_addSort d l
      rw [e1]
      exact ih nodes e2 (by omega)
    simp only [dcSort, sortSlots]
    cases d.ty with
    | merge =>
      cases d.pay with
      | node n => exact ih _ h (by omega)
      | _ => rfl
    | insert => exact hadd
    | modify => exact hadd
    | delete => exact hadd

theorem ArrHolds.copySlots {var : Bool} {N : Nat} {st : SortSt K V} {l : List (Delta K V)}
    (h : ArrHolds var N st l) : ∀ (m j : Nat), j + m ≤ l.length →
    copySlots st j (j + m) = ((l.drop j).take m).map .delta := by
  intro m
  induction m with
  | zero => intro j _; simp [BwTree.copySlots]
  | succ m ih =>
    intro j hj
    have e := ih (j + 1) (by omega)
    have h1 : BwTree.copySlots st j (j + (m + 1)) =
        .delta l[j] :: BwTree.copySlots st (j + 1) (j + 1 + m) := by
      unfold BwTree.copySlots
      rw [show j + (m + 1) - j = (m + 1) by omega, show j + 1 + m - (j + 1) = m by omega,
        List.range'_succ, List.filterMap_cons, h.ptr j (by omega)]
      rfl
    rw [h1, e, List.drop_eq_getElem_cons (show j < l.length by omega)]
    rfl

theorem ArrHolds.mergeSlots {var : Bool} {N : Nat} {st : SortSt K V} {l : List (Delta K V)}
    (h : ArrHolds var N st l) : ∀ (rs : List (K × Pay V)) (j : Nat), j ≤ l.length →
    (mergeSlots var st rs j).1 = (mergeRecs rs (l.drop j)).1 ∧
    (mergeSlots var st rs j).2 ≤ l.length ∧
    l.drop (mergeSlots var st rs j).2 = (mergeRecs rs (l.drop j)).2 := by
  intro rs
  induction rs with
  | nil => intro j hj; exact ⟨rfl, hj, rfl⟩
  | cons r rs ih =>
    intro j hj
    simp only [BwTree.mergeSlots, mergeRecs]
    obtain ⟨s1, s2, s3, s4⟩ := skipWhile_spec (fun x => decide (st.keyAt var x < r.1)) (st.count - j) j
    generalize skipWhile (fun x => decide (st.keyAt var x < r.1)) (st.count - j) j = j' at s1 s2 s3 s4
    rw [h.count] at s2 s4
    rw [show j + (l.length - j) = l.length by omega] at s2 s4
    obtain ⟨m, rfl⟩ := Nat.exists_eq_add_of_le s1
    have hsplit : l.drop j = (l.drop j).take m ++ l.drop (j + m) := by
      rw [← List.drop_drop]; exact (List.take_append_drop _ _).symm
    have hall : ∀ x ∈ (l.drop j).take m, decide (x.key < r.1) = true := by
      intro x hx
      obtain ⟨k, hk, rfl⟩ := List.getElem_of_mem hx
      simp only [List.length_take, List.length_drop] at hk
      have := s3 (j + k) (by omega) (by omega)
      rw [h.key (j + k) (by omega)] at this
      simpa using this
    have hhead : ∀ x, (l.drop (j + m)).head? = some x → decide (x.key < r.1) = false := by
      intro x hx
      by_cases hlt : j + m < l.length
      · rw [List.drop_eq_getElem_cons hlt] at hx
        cases hx
        have := s4 hlt
        rwa [h.key (j + m) hlt] at this
      · rw [List.drop_eq_nil_of_le (by omega)] at hx; cases hx
    have htw : (l.drop j).takeWhile (fun d => decide (d.key < r.1)) = (l.drop j).take m := by
      conv_lhs => rw [hsplit]
      rw [List.takeWhile_append_of_pos hall]
      cases hd : l.drop (j + m) with
      | nil => simp
      | cons y ys => rw [List.takeWhile_cons_of_neg (by rw [hhead y (by rw [hd]; rfl)]; simp)]; simp
    have hdw : (l.drop j).dropWhile (fun d => decide (d.key < r.1)) = l.drop (j + m) := by
      conv_lhs => rw [hsplit]
      rw [List.dropWhile_append_of_pos hall]
      cases hd : l.drop (j + m) with
      | nil => rfl
      | cons y ys => rw [List.dropWhile_cons_of_neg (by rw [hhead y (by rw [hd]; rfl)]; simp)]
    rw [htw, hdw, h.copySlots m j s2]
    by_cases hlt : j + m < l.length
    · rw [List.drop_eq_getElem_cons hlt, h.key (j + m) hlt, h.count]
      by_cases hd : r.1 < l[j + m].key
      · simp only [hlt, hd, decide_true, Bool.not_true, Bool.false_eq_true, and_false, if_false]
        obtain ⟨i1, i2, i3⟩ := ih (j + m) s2
        rw [List.drop_eq_getElem_cons hlt] at i1 i3
        exact ⟨by rw [i1], i2, i3⟩
      · simp only [hlt, hd, decide_false, Bool.not_false, and_self, if_true]
        obtain ⟨i1, i2, i3⟩ := ih (j + m + 1) hlt
        refine ⟨?_, i2, i3⟩
        have := h.copySlots 1 (j + m) hlt
        rw [List.drop_eq_getElem_cons hlt] at this
        rw [this, i1, List.append_assoc]
        rfl
    · have he : j + m = l.length := by omega
      rw [List.drop_eq_nil_of_le (show l.length ≤ j + m by omega), h.count,
        if_neg (fun x => hlt x.1)]
      obtain ⟨i1, i2, i3⟩ := ih (j + m) s2
      rw [List.drop_eq_nil_of_le (show l.length ≤ j + m by omega)] at i1 i3
      exact ⟨by rw [i1], i2, i3⟩

theorem ArrHolds.seqSlots {var : Bool} {N : Nat} {st : SortSt K V} {l : List (Delta K V)}
    (h : ArrHolds var N st l) : ∀ (ns : List (Node K V)) (j : Nat), j ≤ l.length →
    seqSlots var st ns j = copySeq ns (l.drop j) := by
  intro ns
  induction ns with
  | nil =>
    intro j hj
    have := h.copySlots (l.length - j) j (by omega)
    rw [show j + (l.length - j) = l.length by omega] at this
    simp only [BwTree.seqSlots, copySeq, h.count, this]
    rw [List.take_of_length_le (by simp)]
  | cons n ns ih =>
    intro j hj
    simp only [BwTree.seqSlots, copySeq]
    split
    · cases n.recs with
      | nil => rfl
      | cons r rs =>
        obtain ⟨i1, i2, i3⟩ := h.mergeSlots rs j hj
        simp only
        rw [ih _ i2, i1, i3]
    · obtain ⟨i1, i2, i3⟩ := h.mergeSlots n.recs j hj
      rw [ih _ i2, i1, i3]

end BwTree
