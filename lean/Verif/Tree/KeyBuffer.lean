import Verif.Tree.HeadOps

/-!
# `GetHeadForMerge` in the general layout

`Key` is `char *` there.  `DeltaRecord::GetHighKey` (`varlen/delta_record.hpp` 347-367) copies the
key into one thread-local buffer and returns the buffer's address.  `TryDeleteIndexEntry`
(`bw_tree.hpp` 1529) keeps that address in `sib_key` while `SearchForMerge` calls `HighKeyIsGE`
(`varlen/delta_record.hpp` 250-258), which calls `GetHighKey` again and overwrites the buffer.

`buf` is the content of the buffer.  `GetKey` (412-429) and `Node::GetKey` (`varlen/node.hpp`
759-775) have buffers of their own, so nothing else writes to it here.
-/

namespace BwTree

variable {K V : Type} [LinearOrder K]

/-- `GetHighKey`: a missing key leaves the buffer alone, `varlen/delta_record.hpp` 351-352. -/
def loadHigh (high buf : Option K) : Option K :=
  match high with
  | none => buf
  | some h => some h

/-- `SearchForMerge`, `delta_chain.hpp` 215-288, with the buffer; `HighKeyIsGE` is evaluated at 263
and 277, after the tests to its left. -/
def dcSearchForMergeB (key : K) :
    Option K → Bool → Bool → Bool → Chain K V → MRes K V × Option K
  | buf, smo, kf, sf, .base n =>
    if !kf && lowIsKey n.low key then (.abort, buf)
    else if !kf && !smo then
      if !highKeyIsGE n.high key false then (.sibling n.next, loadHigh n.high buf)
      else (.base n kf sf, loadHigh n.high buf)
    else (.base n kf sf, buf)
  | buf, _, _, _, .removed _ => (.removed, buf)
  | buf, smo, kf, sf, .delta d nx =>
    match d.ty with
    | .insert =>
      let kf' := kf || sameKey d.key key
      if !kf && kf' && sf then (.found, buf)
      else
        let sf' := sf || sameKeyOpt d.key buf
        if !sf && sf' && kf' then (.found, buf)
        else dcSearchForMergeB key buf smo kf' sf' nx
    | .delete =>
      if !kf && sameKey d.key key then (.abort, buf)
      else if !sf && sameKeyOpt d.key buf then (.abort, buf)
      else dcSearchForMergeB key buf smo kf sf nx
    | .merge =>
      if lowKeyIsLE d.key key true then
        match d.pay with
        | .node n =>
          if !smo && !kf then
            if !highKeyIsGE d.high key false then (.sibling n.next, loadHigh d.high buf)
            else (.base n kf sf, loadHigh d.high buf)
          else (.base n kf sf, buf)
        | _ => (.ub, buf)
      else
        let sf' := sf || sameKeyOpt d.key buf
        if !sf && sf' && kf then (.found, buf)
        else dcSearchForMergeB key buf true kf sf' nx
    | .modify => (.ub, buf)

/-- `GetHeadForMerge`, `bw_tree.hpp` 1037-1075, on one loaded head.  `has`: the optional `sib_key`
holds a value; its characters are the buffer's. -/
def mergeCheckB (key : K) (has : Bool) (buf : Option K) (c : Chain K V) : McRes × Option K :=
  match dcSearchForMergeB key buf false false (!has) c with
  | (.found, b) => (.ok, b)
  | (.abort, b) => (.abort, b)
  | (.sibling p, b) => (.sibling p, b)
  | (.removed, b) => (.abort, b)
  | (.base n kf sf, b) =>
    match (if kf then some true else nodeHas n key) with
    | none => (.ub, b)
    | some kf' =>
      match sf, b with
      | true, _ => (if kf' then .ok else .abort, b)
      | false, some s =>
        match nodeHas n s with
        | none => (.ub, b)
        | some sf' => (if sf' && kf' then .ok else .abort, b)
      | false, none => (.ub, b)
  | (.ub, b) => (.ub, b)

/-- One head in `GetHeadForMerge`, in the layout of `cfg`: the verdict and the characters `sib_key`
points to afterwards.  Without a `sib_key` the buffer is never read, so it is not tracked. -/
def mergeStep (cfg : Cfg K) (key : K) (sib : Option K) (c : Chain K V) : McRes × Option K :=
  if cfg.buf then
    ((mergeCheckB key sib.isSome sib c).1, if sib.isSome then (mergeCheckB key sib.isSome sib c).2 else none)
  else (mergeCheck key sib c, sib)

/-- Until the walk returns, the buffer is not written. -/
theorem dcSearchForMergeB_fst (key : K) (buf : Option K) (c : Chain K V) : ∀ smo kf sf,
    (dcSearchForMergeB key buf smo kf sf c).1 = dcSearchForMerge key buf smo kf sf c := by
  induction c with
  | base n =>
    intro smo kf sf
    simp only [dcSearchForMergeB, dcSearchForMerge]
    cases kf <;> cases smo <;>
      simp only [Bool.not_false, Bool.not_true, Bool.true_and, Bool.false_and, Bool.and_false,
        if_true, if_false, Bool.false_eq_true]
    all_goals repeat' split
    all_goals rfl
  | removed b => intro smo kf sf; rfl
  | delta d nx ih =>
    intro smo kf sf
    simp only [dcSearchForMergeB, dcSearchForMerge]
    cases hd : d.ty with
    | insert => simp only; split <;> [rfl; (split <;> [rfl; exact ih _ _ _])]
    | modify => rfl
    | delete => simp only; split <;> [rfl; (split <;> [rfl; exact ih _ _ _])]
    | merge =>
      simp only
      split
      · cases d.pay with
        | node n =>
          cases smo <;> cases kf <;>
            simp only [Bool.not_false, Bool.not_true, Bool.true_and, Bool.false_and,
              Bool.and_false, if_true, if_false, Bool.false_eq_true]
          all_goals repeat' split
          all_goals rfl
        | _ => rfl
      · split <;> [rfl; exact ih _ _ _]

/-- A key in the buffer is only ever replaced by another key. -/
theorem dcSearchForMergeB_some (key b : K) (c : Chain K V) : ∀ smo kf sf,
    ∃ b', (dcSearchForMergeB key (some b) smo kf sf c).2 = some b' := by
  have hl : ∀ h : Option K, ∃ b', loadHigh h (some b) = some b' := by
    intro h; cases h <;> exact ⟨_, rfl⟩
  induction c with
  | base n =>
    intro smo kf sf
    simp only [dcSearchForMergeB]
    repeat' split
    all_goals first | exact ⟨_, rfl⟩ | exact hl _
  | removed b => intro smo kf sf; exact ⟨_, rfl⟩
  | delta d nx ih =>
    intro smo kf sf
    simp only [dcSearchForMergeB]
    cases hd : d.ty with
    | insert => simp only; split <;> [exact ⟨_, rfl⟩; (split <;> [exact ⟨_, rfl⟩; exact ih _ _ _])]
    | modify => exact ⟨_, rfl⟩
    | delete => simp only; split <;> [exact ⟨_, rfl⟩; (split <;> [exact ⟨_, rfl⟩; exact ih _ _ _])]
    | merge =>
      simp only
      split
      · cases d.pay with
        | node n =>
          simp only
          repeat' split
          all_goals first | exact ⟨_, rfl⟩ | exact hl _
        | _ => exact ⟨_, rfl⟩
      · split <;> [exact ⟨_, rfl⟩; exact ih _ _ _]

theorem mergeCheckB_spec {cfg : Cfg K} {low : Option K} {c : Chain K V} (h : ChainWF cfg true low c)
    (key : K) (sib : Option K) :
    ((mergeCheckB key sib.isSome sib c).1 = .ok ∧ KeyIn low c key) ∨
    (mergeCheckB key sib.isSome sib c).1 = .abort ∨
    ((mergeCheckB key sib.isSome sib c).1 = .sibling c.nextPid ∧ ¬ HighOK c.high key true) := by
  have hf := dcSearchForMergeB_fst key sib c false false (!sib.isSome)
  generalize hb : (dcSearchForMergeB key sib false false (!sib.isSome) c).2 = b
  rcases dcSearchForMerge_spec h key sib false false (!sib.isSome) (by simp) with
    e | ⟨e, e'⟩ | ⟨e, e'⟩ | ⟨n, kf, sf, e1, e2, e3, e4⟩
  · rw [e] at hf
    have hp := Prod.ext (x := dcSearchForMergeB key sib false false (!sib.isSome) c) (y := (_, b)) hf hb
    exact Or.inr (Or.inl (by simp only [mergeCheckB, hp]))
  · rw [e] at hf
    have hp := Prod.ext (x := dcSearchForMergeB key sib false false (!sib.isSome) c) (y := (_, b)) hf hb
    refine Or.inl ⟨by simp only [mergeCheckB, hp], ?_⟩
    rcases e' with e' | e'
    · cases e'
    · exact e'
  · rw [e] at hf
    have hp := Prod.ext (x := dcSearchForMergeB key sib false false (!sib.isSome) c) (y := (_, b)) hf hb
    exact Or.inr (Or.inr ⟨by simp only [mergeCheckB, hp], e'⟩)
  · rw [e1] at hf
    have hp := Prod.ext (x := dcSearchForMergeB key sib false false (!sib.isSome) c) (y := (_, b)) hf hb
    obtain ⟨f, hf1, hf2⟩ := nodeHas_spec e2 key
    have hk : ∃ kf', (if kf then some true else nodeHas n key) = some kf' ∧
        (kf' = true → KeyIn low c key) := by
      cases kf with
      | true =>
        refine ⟨true, rfl, fun _ => ?_⟩
        rcases e3 rfl with x | x
        · cases x
        · exact x
      | false => exact ⟨f, by simp [hf1], fun hh => e4 rfl (hf2.1 hh)⟩
    obtain ⟨kf', hk1, hk2⟩ := hk
    cases sf with
    | true =>
      have : (mergeCheckB key sib.isSome sib c).1 = if kf' then .ok else .abort := by
        simp only [mergeCheckB, hp, hk1]
      rw [this]
      cases kf' with
      | true => exact Or.inl ⟨rfl, hk2 rfl⟩
      | false => exact Or.inr (Or.inl rfl)
    | false =>
      have hs : ∃ s, b = some s := by
        cases sib with
        | none => cases dcSearchForMerge_sib key none c _ _ _ _ _ _ e1 rfl
        | some s => rw [← hb]; exact dcSearchForMergeB_some key s c _ _ _
      obtain ⟨s, rfl⟩ := hs
      obtain ⟨g, hg1, _⟩ := nodeHas_spec e2 s
      have : (mergeCheckB key sib.isSome sib c).1 = if g && kf' then .ok else .abort := by
        simp only [mergeCheckB, hp, hk1, hg1]
      rw [this]
      cases hgk : (g && kf') with
      | true => exact Or.inl ⟨rfl, hk2 (by simp at hgk; exact hgk.2)⟩
      | false => exact Or.inr (Or.inl rfl)

theorem mergeStep_spec {cfg : Cfg K} {low : Option K} {c : Chain K V} (h : ChainWF cfg true low c)
    (key : K) (sib : Option K) :
    ((mergeStep cfg key sib c).1 = .ok ∧ KeyIn low c key) ∨ (mergeStep cfg key sib c).1 = .abort ∨
    ((mergeStep cfg key sib c).1 = .sibling c.nextPid ∧ ¬ HighOK c.high key true) := by
  unfold mergeStep
  split
  · exact mergeCheckB_spec h key sib
  · exact mergeCheck_spec h key sib

theorem mergeStep_removed {cfg : Cfg K} (key : K) (sib : Option K) (b : Bool) :
    (mergeStep (V := V) cfg key sib (.removed b)).1 = .abort := by
  unfold mergeStep
  split <;> rfl

end BwTree
