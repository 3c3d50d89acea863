import Verif.Tree.SearchLemmas

/-!
# Consolidation computes the meaning of a chain (helper lemmas)
-/

namespace BwTree

set_option linter.unusedSectionVars false

variable {K V : Type} [LinearOrder K] {cfg : Cfg K} {inner : Bool} {low : Option K}

/-! ## Ranges -/

theorem InR.mono_high {low h₁ h₂ : Option K} {k : K} (h : InR low h₁ k)
    (hh : ∀ b, h₂ = some b → ∃ a, h₁ = some a ∧ a ≤ b) : InR low h₂ k := by
  refine ⟨h.1, ?_⟩
  intro b hb
  obtain ⟨a, ha, hab⟩ := hh b hb
  have := h.2 a ha
  simp at this ⊢; order

theorem ChainWF.merge_high {d : Delta K V} {nx : Chain K V} (h : ChainWF cfg inner low (.delta d nx))
    (hm : d.ty = .merge) : ∀ b, d.high = some b → d.key < b := by
  obtain ⟨_, _, _, _, _, _, h⟩ := h
  rw [hm] at h
  obtain ⟨_, n, _, _, h3, h4, h5⟩ := h
  intro b hb
  exact h5.ne _ _ h3 (by rw [h4]; exact hb)

theorem ChainWF.next {d : Delta K V} {nx : Chain K V} (h : ChainWF cfg inner low (.delta d nx)) :
    ChainWF cfg inner low nx := h.1

theorem ChainWF.high_mono {d : Delta K V} {nx : Chain K V}
    (h : ChainWF cfg inner low (.delta d nx)) :
    ∀ b, (Chain.delta d nx).high = some b → ∃ a, nx.high = some a ∧ a ≤ b := by
  intro b hb
  unfold Chain.high at hb
  split at hb
  · next hm =>
    have hlt := h.merge_high hm b hb
    obtain ⟨_, _, _, _, _, _, h⟩ := h
    rw [hm] at h
    exact ⟨d.key, h.1, le_of_lt hlt⟩
  · exact ⟨b, hb, le_refl _⟩

theorem Node.body_of_low {n : Node K V} {l : K} (h : n.low = some l) : n.body = n.recs := by
  simp [Node.body, Node.leftInner, h]

theorem Node.pre_of_low {n : Node K V} {l : K} (h : n.low = some l) : n.pre = [] := by
  simp [Node.pre, Node.leftInner, h]

theorem Node.pre_body (n : Node K V) : n.pre ++ n.body = n.recs := by
  unfold Node.pre Node.body; split
  · rw [List.take_append_drop]
  · simp

theorem ChainWF.isLeaf {c : Chain K V} (h : ChainWF cfg inner low c) : c.isLeaf = !inner := by
  cases c with
  | base n => simp [Chain.isLeaf, h.1]
  | removed l => exact h.elim
  | delta d nx => simp [Chain.isLeaf, h.2.1]

theorem ChainWF.low_eq {c : Chain K V} (h : ChainWF cfg inner low c) : c.low = low := by
  induction c with
  | base n => exact h.2.1
  | removed l => exact h.elim
  | delta d nx ih => exact ih h.next

theorem ChainWF.nonempty {c : Chain K V} (h : ChainWF cfg inner low c) : NonEmptyR low c.high := by
  induction c with
  | base n => rw [← h.2.1]; exact h.2.2.ne
  | removed l => exact h.elim
  | delta d nx ih =>
    intro a b ha hb
    obtain ⟨a', h1, h2⟩ := h.high_mono b hb
    have := ih h.next a a' ha h1
    order

/-- The non-merge deltas of a chain. -/
inductive DMem (d : Delta K V) : Chain K V → Prop
  | head (nx : Chain K V) (h : d.ty ≠ .merge) : DMem d (.delta d nx)
  | tail (d' : Delta K V) (nx : Chain K V) (h : DMem d nx) : DMem d (.delta d' nx)

theorem ChainWF.dmem {c : Chain K V} (h : ChainWF cfg inner low c) {d : Delta K V}
    (hd : DMem d c) : InR low c.high d.key ∧ d.ty ≠ .merge ∧ DPayOK inner d.ty d.pay ∧
      d.inner = inner := by
  induction hd with
  | head nx hm =>
    have h' := h
    obtain ⟨_, hi, h2, _, _, _, h3⟩ := h
    refine ⟨?_, hm, h2, hi⟩
    have : InR low nx.high d.key := by
      cases ht : d.ty <;> rw [ht] at h3
      · exact h3.1
      · exact h3.1
      · exact h3.1
      · exact absurd ht hm
    exact this.mono_high h'.high_mono
  | tail d' nx hm ih =>
    obtain ⟨h1, h2⟩ := ih h.next
    exact ⟨h1.mono_high h.high_mono, h2⟩

theorem toRec_key {d : Delta K V} {r : K × Pay V} (h : d.toRec = some r) : r.1 = d.key := by
  unfold Delta.toRec at h
  split at h <;> simp at h <;> subst h <;> rfl

theorem DPayOK.toRec {d : Delta K V} (h : DPayOK inner d.ty d.pay) (h1 : d.ty ≠ .merge)
    (h2 : d.ty ≠ .delete) : ∃ p, d.toRec = some (d.key, p) ∧ PayOK inner p := by
  unfold DPayOK at h
  unfold PayOK
  cases ht : d.ty <;> rw [ht] at h
  · cases inner <;> simp at h <;> obtain ⟨v, hv⟩ := h <;>
      exact ⟨_, by simp only [Delta.toRec, hv], ⟨v, rfl⟩⟩
  · obtain ⟨hi, v, hv⟩ := h
    exact ⟨.val v, by simp only [Delta.toRec, hv], by simp [hi]⟩
  · exact absurd ht h2
  · exact absurd ht h1

theorem flatBody_put {d : Delta K V} {nx : Chain K V} {p : Pay V} (h1 : d.ty ≠ .merge)
    (h2 : d.ty ≠ .delete) (hp : d.toRec = some (d.key, p)) :
    Chain.flatBody (.delta d nx) = ains d.key p nx.flatBody := by
  cases ht : d.ty <;> simp_all [Chain.flatBody]

theorem ChainWF.flatBody_spec {c : Chain K V} (h : ChainWF cfg inner low c) :
    SortedK c.flatBody ∧ (∀ x ∈ c.flatBody, InR low c.high x.1) ∧
      (∀ x ∈ c.flatBody, PayOK inner x.2) := by
  induction c with
  | base n =>
    refine ⟨h.2.2.sorted, ?_, ?_⟩
    · rw [← h.2.1]; exact h.2.2.range
    · intro x hx
      rw [← h.1]
      apply h.2.2.kind
      rw [← n.pre_body]
      exact List.mem_append_right _ hx
  | removed l => exact h.elim
  | delta d nx ih =>
    obtain ⟨h1, h2, h3⟩ := ih h.next
    have hm := h.high_mono
    have h' := h
    have hpay := h.2.2.1
    obtain ⟨_, _, _, _, _, _, h4⟩ := h
    by_cases hput : d.ty ≠ .merge ∧ d.ty ≠ .delete
    · have h5 : InR low nx.high d.key := by
        cases ht : d.ty <;> rw [ht] at h4
        · exact h4.1
        · exact h4.1
        · exact absurd ht hput.2
        · exact absurd ht hput.1
      obtain ⟨p, hr, hp⟩ := DPayOK.toRec hpay hput.1 hput.2
      rw [flatBody_put hput.1 hput.2 hr]
      refine ⟨sorted_ains h1, ?_, ?_⟩
      · intro x hx
        rcases mem_ains hx with e | hx
        · subst e; exact h5.mono_high hm
        · exact (h2 x hx).mono_high hm
      · intro x hx
        rcases mem_ains hx with e | hx
        · subst e; exact hp
        · exact h3 x hx
    cases ht : d.ty with
    | insert => simp [ht] at hput
    | modify => simp [ht] at hput
    | delete =>
      have hf : Chain.flatBody (.delta d nx) = adel d.key nx.flatBody := by
        simp [Chain.flatBody, ht]
      rw [hf]
      exact ⟨sorted_adel h1, fun x hx => (h2 x (mem_adel.1 hx).1).mono_high hm,
        fun x hx => h3 x (mem_adel.1 hx).1⟩
    | merge =>
      rw [ht] at h4
      obtain ⟨hh, n, hn, hin, hlow, hhigh, hwf⟩ := h4
      have hf : Chain.flatBody (.delta d nx) = nx.flatBody ++ n.recs := by
        simp [Chain.flatBody, ht, hn]
      have hb := Node.body_of_low hlow
      rw [hf]
      have hs := hwf.sorted
      have hr := hwf.range
      rw [hb] at hs hr
      refine ⟨sorted_append h1 hs ?_, ?_, ?_⟩
      · intro x hx y hy
        have e1 := (h2 x hx).2 _ hh
        have e2 := (hr y hy).1 _ hlow
        simp at e1 e2; order
      · intro x hx
        rcases List.mem_append.1 hx with hx | hx
        · exact (h2 x hx).mono_high hm
        · have e := hr x hx
          have hhe : (Chain.delta d nx).high = n.high := by simp [Chain.high, ht, hhigh]
          rw [hhe]
          refine ⟨?_, e.2⟩
          intro l hl
          have e1 := h'.next.nonempty l _ hl hh
          have e2 := e.1 _ hlow
          simp at e2 ⊢; order
      · intro x hx
        rcases List.mem_append.1 hx with hx | hx
        · exact h3 x hx
        · rw [← hin]; exact hwf.kind x hx

/-! ## Sorting of deltas -/

/-- Keys strictly increasing (delta records). -/
def SortedD (l : List (Delta K V)) : Prop := l.Pairwise (fun a b => a.key < b.key)

/-- Lookup by key among sorted deltas. -/
def dlook : List (Delta K V) → K → Option (Delta K V)
  | [], _ => none
  | d :: l, k => if d.key = k then some d else dlook l k

/-- Newest non-merge delta of a chain with a key. -/
def newest (k : K) : Chain K V → Option (Delta K V)
  | .base _ => none
  | .removed _ => none
  | .delta d nx => if d.ty = .merge then newest k nx else if d.key = k then some d else newest k nx

theorem mem_addSort {d : Delta K V} {l : List (Delta K V)} {x : Delta K V}
    (h : x ∈ addByInsertionSort d l) : x = d ∨ x ∈ l := by
  induction l with
  | nil => simp [addByInsertionSort] at h; exact Or.inl h
  | cons r rs ih =>
    unfold addByInsertionSort at h
    split at h
    · rcases List.mem_cons.1 h with e | h
      · right; simp [e]
      · rcases ih h with e | h
        · exact Or.inl e
        · right; simp [h]
    · split at h
      · rcases List.mem_cons.1 h with e | h
        · exact Or.inl e
        · exact Or.inr h
      · exact Or.inr h

theorem sorted_addSort {d : Delta K V} {l : List (Delta K V)} (hs : SortedD l) :
    SortedD (addByInsertionSort d l) := by
  induction l with
  | nil => simp [addByInsertionSort, SortedD]
  | cons r rs ih =>
    have ht : SortedD rs := (List.pairwise_cons.1 hs).2
    have hh := (List.pairwise_cons.1 hs).1
    unfold addByInsertionSort
    split
    · next h =>
      refine List.pairwise_cons.2 ⟨?_, ih ht⟩
      intro x hx
      rcases mem_addSort hx with e | hx
      · subst e; exact h
      · exact hh x hx
    · split
      · next h =>
        refine List.pairwise_cons.2 ⟨?_, hs⟩
        intro x hx
        rcases List.mem_cons.1 hx with e | hx
        · subst e; exact h
        · have := hh x hx; order
      · exact hs

theorem dlook_none_of_lt {l : List (Delta K V)} {k : K} (h : ∀ x ∈ l, k < x.key) :
    dlook l k = none := by
  induction l with
  | nil => rfl
  | cons r rs ih =>
    unfold dlook
    have := h r (by simp)
    rw [if_neg (by order)]
    exact ih (fun x hx => h x (by simp [hx]))

theorem dlook_addSort {d : Delta K V} {l : List (Delta K V)} (hs : SortedD l) (k : K) :
    dlook (addByInsertionSort d l) k =
      (dlook l k).orElse (fun _ => if d.key = k then some d else none) := by
  induction l with
  | nil => simp [addByInsertionSort, dlook]
  | cons r rs ih =>
    have ht : SortedD rs := (List.pairwise_cons.1 hs).2
    have hh := (List.pairwise_cons.1 hs).1
    unfold addByInsertionSort
    split
    · next h =>
      simp only [dlook]
      rw [ih ht]
      split <;> simp
    · split
      · next h1 h2 =>
        by_cases e : d.key = k
        · have e1 : dlook (r :: rs) k = none := by
            apply dlook_none_of_lt
            intro x hx
            rcases List.mem_cons.1 hx with e' | hx
            · subst e'; order
            · have := hh x hx; order
          rw [e1]
          simp [dlook, e]
        · have : dlook (d :: r :: rs) k = dlook (r :: rs) k := by
            rw [dlook, if_neg e]
          rw [this]; simp [e]
      · next h1 h2 =>
        have e : r.key = d.key := by order
        by_cases e2 : d.key = k
        · simp [dlook, e, e2]
        · cases hdl : dlook (r :: rs) k <;> simp [e2]

theorem length_addSort (d : Delta K V) (l : List (Delta K V)) :
    (addByInsertionSort d l).length ≤ l.length + 1 := by
  induction l with
  | nil => simp [addByInsertionSort]
  | cons r rs ih =>
    unfold addByInsertionSort
    split
    · simp; exact ih
    · split <;> simp

/-- Nodes of a chain, newest first. -/
def nodesOf : Chain K V → List (Node K V)
  | .base n => [n]
  | .removed _ => []
  | .delta d nx =>
    match d.ty, d.pay with
    | .merge, .node n => n :: nodesOf nx
    | _, _ => nodesOf nx

/-- Number of delta records of a chain. -/
def deltaLen : Chain K V → Nat
  | .base _ => 0
  | .removed _ => 1
  | .delta _ nx => deltaLen nx + 1

theorem ChainWF.deltaLen_eq {c : Chain K V} (h : ChainWF cfg inner low c) :
    deltaLen c = if c.isDelta then c.cnt else 0 := by
  induction c with
  | base n => rfl
  | removed l => exact h.elim
  | delta d nx ih =>
    have := ih h.next
    obtain ⟨_, _, _, h4, _⟩ := h
    simp only [deltaLen, Chain.isDelta, Chain.cnt, if_true]
    rw [this, h4]
    split <;> simp

theorem ChainWF.deltaLen_le {c : Chain K V} (h : ChainWF cfg inner low c) :
    deltaLen c ≤ cfg.maxDelta := by
  rw [h.deltaLen_eq]
  cases c with
  | base n => simp [Chain.isDelta]
  | removed l => exact h.elim
  | delta d nx => simpa [Chain.isDelta, Chain.cnt] using h.2.2.2.2.1

theorem dcSort_spec {c : Chain K V} (h : ChainWF cfg inner low c) :
    ∀ (arr : List (Delta K V)) (nodes : List (Node K V)), SortedD arr →
    ∃ arr', dcSort arr nodes c = some (arr', nodes ++ nodesOf c) ∧ SortedD arr' ∧
      (∀ k, dlook arr' k = (dlook arr k).orElse (fun _ => newest k c)) ∧
      (∀ x ∈ arr', x ∈ arr ∨ DMem x c) ∧ arr'.length ≤ arr.length + deltaLen c := by
  induction c with
  | base n =>
    intro arr nodes hs
    exact ⟨arr, rfl, hs, by simp [newest], fun x hx => Or.inl hx, by simp⟩
  | removed l => exact h.elim
  | delta d nx ih =>
    intro arr nodes hs
    have h' := h
    obtain ⟨_, _, _, _, _, _, h4⟩ := h
    by_cases hm : d.ty = .merge
    · rw [hm] at h4
      obtain ⟨hh, n, hn, _⟩ := h4
      obtain ⟨arr', e1, e2, e3, e4, e5⟩ := ih h'.next arr (nodes ++ [n]) hs
      refine ⟨arr', ?_, e2, ?_, ?_, ?_⟩
      · simp [dcSort, hm, hn, e1, nodesOf]
      · intro k; rw [e3]; simp [newest, hm]
      · intro x hx
        rcases e4 x hx with h | h
        · exact Or.inl h
        · exact Or.inr (.tail _ _ h)
      · simp [deltaLen]; omega
    · obtain ⟨arr', e1, e2, e3, e4, e5⟩ :=
        ih h'.next (addByInsertionSort d arr) nodes (sorted_addSort hs)
      refine ⟨arr', ?_, e2, ?_, ?_, ?_⟩
      · have hn : nodesOf (.delta d nx) = nodesOf nx := by
          cases ht : d.ty <;> simp_all [nodesOf]
        rw [hn, ← e1]
        cases ht : d.ty <;> simp_all [dcSort]
      · intro k; rw [e3, dlook_addSort hs]
        cases dlook arr k
        · simp only [newest, hm, if_false]
          simp
          split <;> simp
        · simp
      · intro x hx
        rcases e4 x hx with h | h
        · rcases mem_addSort h with e | h
          · subst e; exact Or.inr (.head _ hm)
          · exact Or.inl h
        · exact Or.inr (.tail _ _ h)
      · have := length_addSort d arr
        simp [deltaLen]; omega

/-! ## Records below the deltas -/

/-- Records of the base node and the merged nodes, without deltas. -/
def baseBody : Chain K V → List (K × Pay V)
  | .base n => n.body
  | .removed _ => []
  | .delta d nx =>
    match d.ty, d.pay with
    | .merge, .node n => baseBody nx ++ n.recs
    | _, _ => baseBody nx

theorem baseBody_of_ne {d : Delta K V} {nx : Chain K V} (hm : d.ty ≠ .merge) :
    baseBody (.delta d nx) = baseBody nx := by
  cases ht : d.ty <;> simp_all [baseBody]

theorem ChainWF.baseBody_spec {c : Chain K V} (h : ChainWF cfg inner low c) :
    SortedK (baseBody c) ∧ (∀ x ∈ baseBody c, InR low c.high x.1) ∧
      (∀ x ∈ baseBody c, PayOK inner x.2) := by
  induction c with
  | base n =>
    refine ⟨h.2.2.sorted, ?_, ?_⟩
    · rw [← h.2.1]; exact h.2.2.range
    · intro x hx
      rw [← h.1]
      apply h.2.2.kind
      rw [← n.pre_body]
      exact List.mem_append_right _ hx
  | removed l => exact h.elim
  | delta d nx ih =>
    obtain ⟨h1, h2, h3⟩ := ih h.next
    have hm := h.high_mono
    have h' := h
    obtain ⟨_, _, _, _, _, _, h4⟩ := h
    by_cases ht : d.ty = .merge
    · rw [ht] at h4
      obtain ⟨hh, n, hn, hin, hlow, hhigh, hwf⟩ := h4
      have hf : baseBody (.delta d nx) = baseBody nx ++ n.recs := by
        simp [baseBody, ht, hn]
      have hb := Node.body_of_low hlow
      rw [hf]
      have hs := hwf.sorted
      have hr := hwf.range
      rw [hb] at hs hr
      refine ⟨sorted_append h1 hs ?_, ?_, ?_⟩
      · intro x hx y hy
        have e1 := (h2 x hx).2 _ hh
        have e2 := (hr y hy).1 _ hlow
        simp at e1 e2; order
      · intro x hx
        rcases List.mem_append.1 hx with hx | hx
        · exact (h2 x hx).mono_high hm
        · have e := hr x hx
          have hhe : (Chain.delta d nx).high = n.high := by simp [Chain.high, ht, hhigh]
          rw [hhe]
          refine ⟨?_, e.2⟩
          intro l hl
          have e1 := h'.next.nonempty l _ hl hh
          have e2 := e.1 _ hlow
          simp at e2 ⊢; order
      · intro x hx
        rcases List.mem_append.1 hx with hx | hx
        · exact h3 x hx
        · rw [← hin]; exact hwf.kind x hx
    · rw [baseBody_of_ne ht]
      exact ⟨h1, fun x hx => (h2 x hx).mono_high hm, h3⟩

theorem newest_dmem {c : Chain K V} {k : K} {d : Delta K V} (h : newest k c = some d) :
    DMem d c ∧ d.key = k := by
  induction c with
  | base n => simp [newest] at h
  | removed l => simp [newest] at h
  | delta d' nx ih =>
    unfold newest at h
    split at h
    · obtain ⟨a, b⟩ := ih h; exact ⟨.tail _ _ a, b⟩
    · split at h
      · next h1 h2 => cases h; exact ⟨.head _ h1, h2⟩
      · obtain ⟨a, b⟩ := ih h; exact ⟨.tail _ _ a, b⟩

/-- What a delta says about its key. -/
def Delta.outcome (d : Delta K V) : Option (Pay V) :=
  if d.ty = .delete then none else d.toRec.map Prod.snd

/-- Lookup in the meaning of a chain: newest delta, else the nodes below. -/
theorem ChainWF.alook_flatBody {c : Chain K V} (h : ChainWF cfg inner low c) (k : K) :
    alook c.flatBody k =
      match newest k c with
      | some d => d.outcome
      | none => alook (baseBody c) k := by
  induction c with
  | base n => rfl
  | removed l => exact h.elim
  | delta d nx ih =>
    have hn := h.next
    obtain ⟨hs, hr, _⟩ := hn.flatBody_spec
    have ih := ih hn
    have h' := h
    obtain ⟨_, _, hpay, _, _, _, h4⟩ := h
    by_cases hm : d.ty = .merge
    · rw [hm] at h4
      obtain ⟨hh, n, hnn, hin, hlow, hhigh, hwf⟩ := h4
      have hf : Chain.flatBody (.delta d nx) = nx.flatBody ++ n.recs := by
        simp [Chain.flatBody, hm, hnn]
      have hb : baseBody (.delta d nx) = baseBody nx ++ n.recs := by simp [baseBody, hm, hnn]
      have hnew : newest k (.delta d nx) = newest k nx := by simp [newest, hm]
      rw [hf, hb, hnew, alook_append, alook_append, ih]
      cases e : newest k nx with
      | none => rfl
      | some d' =>
        obtain ⟨e1, e2⟩ := newest_dmem e
        have e3 := (hn.dmem e1).1.2 _ hh
        have : alook n.recs k = none := by
          rw [alook_none]
          intro x hx
          have e4 := hwf.range x (by rw [Node.body_of_low hlow]; exact hx)
          have := e4.1 _ hlow
          simp at this e3
          intro e; subst e; order
        rw [this]
        cases Delta.outcome d' <;> simp
    · rw [baseBody_of_ne hm]
      have hnew : newest k (.delta d nx) = if d.key = k then some d else newest k nx := by
        simp [newest, hm]
      rw [hnew]
      by_cases hdel : d.ty = .delete
      · have hf : Chain.flatBody (.delta d nx) = adel d.key nx.flatBody := by
          simp [Chain.flatBody, hdel]
        rw [hf, alook_adel]
        split
        · simp [Delta.outcome, hdel]
        · exact ih
      · obtain ⟨p, hp, _⟩ := DPayOK.toRec hpay hm hdel
        rw [flatBody_put hm hdel hp, alook_ains hs]
        split
        · simp [Delta.outcome, hdel, hp]
        · exact ih

/-! ## The merge of records and deltas -/

/-- Key of a copied record. -/
def Copy.key : Copy K V → K
  | .first r => r.1
  | .node r => r.1
  | .delta d => d.key

/-- Lookup among copies. -/
def clook : List (Copy K V) → K → Option (Copy K V)
  | [], _ => none
  | c :: l, k => if c.key = k then some c else clook l k

theorem clook_eq {c : Copy K V} {l : List (Copy K V)} {k : K} (h : c.key = k) :
    clook (c :: l) k = some c := by rw [clook, if_pos h]

theorem clook_ne {c : Copy K V} {l : List (Copy K V)} {k : K} (h : c.key ≠ k) :
    clook (c :: l) k = clook l k := by rw [clook, if_neg h]

/-- Merge of all the records with all the deltas. -/
def mergeFull (rs : List (K × Pay V)) (arr : List (Delta K V)) : List (Copy K V) :=
  (mergeRecs rs arr).1 ++ (mergeRecs rs arr).2.map .delta

theorem mergeRecs_append (rs₁ rs₂ : List (K × Pay V)) (arr : List (Delta K V)) :
    mergeRecs (rs₁ ++ rs₂) arr =
      ((mergeRecs rs₁ arr).1 ++ (mergeRecs rs₂ (mergeRecs rs₁ arr).2).1,
        (mergeRecs rs₂ (mergeRecs rs₁ arr).2).2) := by
  induction rs₁ generalizing arr with
  | nil => simp [mergeRecs]
  | cons r rs ih =>
    simp only [List.cons_append, mergeRecs]
    split
    · split <;> simp [ih]
    · simp [ih]

theorem takeWhile_lt_mem {arr : List (Delta K V)} {k : K} {x : Delta K V}
    (h : x ∈ arr.takeWhile (fun d => decide (d.key < k))) : x.key < k := by
  induction arr with
  | nil => simp at h
  | cons r rs ih =>
    rw [List.takeWhile_cons] at h
    split at h
    · next h1 =>
      rcases List.mem_cons.1 h with e | h
      · subst e; simpa using h1
      · exact ih h
    · simp at h

theorem dropWhile_ge {arr : List (Delta K V)} (hs : SortedD arr) {k : K} {x : Delta K V}
    (h : x ∈ arr.dropWhile (fun d => decide (d.key < k))) : k ≤ x.key := by
  induction arr with
  | nil => simp at h
  | cons r rs ih =>
    rw [List.dropWhile_cons] at h
    split at h
    · exact ih (List.pairwise_cons.1 hs).2 h
    · next h1 =>
      simp at h1
      rcases List.mem_cons.1 h with e | hx
      · subst e; exact h1
      · have := (List.pairwise_cons.1 hs).1 x hx; order

/-- One-step unfolding of `mergeFull`. -/
theorem mergeFull_cons (r : K × Pay V) (rs : List (K × Pay V)) (arr : List (Delta K V)) :
    mergeFull (r :: rs) arr =
      (arr.takeWhile (fun d => decide (d.key < r.1))).map .delta ++
      (match arr.dropWhile (fun d => decide (d.key < r.1)) with
       | d :: rest =>
         if !decide (r.1 < d.key) then .delta d :: mergeFull rs rest
         else .node r :: mergeFull rs (d :: rest)
       | [] => .node r :: mergeFull rs []) := by
  unfold mergeFull
  rw [mergeRecs]
  simp only
  cases List.dropWhile (fun d => decide (d.key < r.1)) arr with
  | nil => simp
  | cons d rest =>
    simp only
    by_cases h : r.1 < d.key <;> simp [h]

theorem mem_mergeFull {rs : List (K × Pay V)} {arr : List (Delta K V)} {c : Copy K V}
    (h : c ∈ mergeFull rs arr) : (∃ r ∈ rs, c = .node r) ∨ (∃ d ∈ arr, c = .delta d) := by
  induction rs generalizing arr with
  | nil => simp [mergeFull, mergeRecs] at h; right; obtain ⟨d, a, b⟩ := h; exact ⟨d, a, b.symm⟩
  | cons r rs ih =>
    rw [mergeFull_cons] at h
    have hd : ∀ d, d ∈ arr.dropWhile (fun d => decide (d.key < r.1)) → d ∈ arr :=
      fun d hd => (List.dropWhile_suffix _).subset hd
    rcases List.mem_append.1 h with h | h
    · obtain ⟨d, h1, h2⟩ := List.mem_map.1 h
      exact Or.inr ⟨d, (List.takeWhile_prefix _).subset h1, h2.symm⟩
    · split at h
      · next d rest e =>
        split at h
        · rcases List.mem_cons.1 h with e' | h
          · exact Or.inr ⟨d, hd d (by simp [e]), e'⟩
          · rcases ih h with ⟨r', h1, h2⟩ | ⟨d', h1, h2⟩
            · exact Or.inl ⟨r', by simp [h1], h2⟩
            · exact Or.inr ⟨d', hd d' (by simp [e, h1]), h2⟩
        · rcases List.mem_cons.1 h with e' | h
          · exact Or.inl ⟨r, by simp, e'⟩
          · rcases ih h with ⟨r', h1, h2⟩ | ⟨d', h1, h2⟩
            · exact Or.inl ⟨r', by simp [h1], h2⟩
            · exact Or.inr ⟨d', hd d' (by rw [e]; exact h1), h2⟩
      · rcases List.mem_cons.1 h with e' | h
        · exact Or.inl ⟨r, by simp, e'⟩
        · rcases ih h with ⟨r', h1, h2⟩ | ⟨d', h1, h2⟩
          · exact Or.inl ⟨r', by simp [h1], h2⟩
          · simp at h1

/-- Copies strictly increasing. -/
def SortedC (l : List (Copy K V)) : Prop := l.Pairwise (fun a b => a.key < b.key)

theorem SortedD.sublist {l₁ l₂ : List (Delta K V)} (h : SortedD l₂) (hs : l₁.Sublist l₂) :
    SortedD l₁ := List.Pairwise.sublist hs h

theorem sorted_mergeFull {rs : List (K × Pay V)} {arr : List (Delta K V)} (hr : SortedK rs)
    (ha : SortedD arr) : SortedC (mergeFull rs arr) := by
  induction rs generalizing arr with
  | nil =>
    simp only [mergeFull, mergeRecs, List.nil_append, SortedC]
    exact List.pairwise_map.2 ha
  | cons r rs ih =>
    rw [mergeFull_cons]
    have htw : SortedD (arr.takeWhile (fun d => decide (d.key < r.1))) :=
      ha.sublist (List.takeWhile_sublist _)
    have hdw : SortedD (arr.dropWhile (fun d => decide (d.key < r.1))) :=
      ha.sublist (List.dropWhile_sublist _)
    have hge : ∀ x ∈ arr.dropWhile (fun d => decide (d.key < r.1)), r.1 ≤ x.key :=
      fun x hx => dropWhile_ge ha hx
    have hgt : ∀ c ∈ mergeFull rs [], r.1 < c.key := by
      intro c hc
      rcases mem_mergeFull hc with ⟨r', h1, h2⟩ | ⟨d', h1, h2⟩
      · subst h2; exact hr.head_lt r' h1
      · simp at h1
    refine List.pairwise_append.2 ⟨List.pairwise_map.2 htw, ?_, ?_⟩
    · split
      · next d rest e =>
        rw [e] at hdw hge
        have hd1 := (List.pairwise_cons.1 hdw).1
        have hd2 : SortedD rest := (List.pairwise_cons.1 hdw).2
        split
        · next h =>
          simp at h
          refine List.pairwise_cons.2 ⟨?_, ih hr.tail hd2⟩
          intro c hc
          rcases mem_mergeFull hc with ⟨r', h1, h2⟩ | ⟨d', h1, h2⟩
          · subst h2
            have := hr.head_lt r' h1
            simp [Copy.key]; order
          · subst h2; exact hd1 d' h1
        · next h =>
          simp at h
          refine List.pairwise_cons.2 ⟨?_, ih hr.tail hdw⟩
          intro c hc
          rcases mem_mergeFull hc with ⟨r', h1, h2⟩ | ⟨d', h1, h2⟩
          · subst h2; exact hr.head_lt r' h1
          · subst h2
            rcases List.mem_cons.1 h1 with e' | h1
            · subst e'; exact h
            · have := hd1 d' h1; simp [Copy.key]; order
      · refine List.pairwise_cons.2 ⟨hgt, ih hr.tail List.Pairwise.nil⟩
    · intro a ha' b hb
      obtain ⟨d, h1, h2⟩ := List.mem_map.1 ha'
      subst h2
      have hlt := takeWhile_lt_mem h1
      simp only [Copy.key] at *
      split at hb
      · next d' rest e =>
        rw [e] at hge
        split at hb
        · next h =>
          rcases List.mem_cons.1 hb with e' | hb
          · subst e'; have := hge d' (by simp); simp; order
          · rcases mem_mergeFull hb with ⟨r', h1, h2⟩ | ⟨d'', h1, h2⟩
            · subst h2; have := hr.head_lt r' h1; simp; order
            · subst h2; have := hge d'' (by simp [h1]); simp; order
        · rcases List.mem_cons.1 hb with e' | hb
          · subst e'; exact hlt
          · rcases mem_mergeFull hb with ⟨r', h1, h2⟩ | ⟨d'', h1, h2⟩
            · subst h2; have := hr.head_lt r' h1; simp; order
            · subst h2; have := hge d'' h1; simp; order
      · rcases List.mem_cons.1 hb with e' | hb
        · subst e'; exact hlt
        · have := hgt b hb
          order

theorem clook_append (l₁ l₂ : List (Copy K V)) (k : K) :
    clook (l₁ ++ l₂) k = (clook l₁ k).orElse (fun _ => clook l₂ k) := by
  induction l₁ with
  | nil => simp [clook]
  | cons x l ih =>
    simp only [List.cons_append, clook]
    rw [ih]
    split <;> simp

theorem clook_map_delta (l : List (Delta K V)) (k : K) :
    clook (l.map .delta) k = (dlook l k).map .delta := by
  induction l with
  | nil => rfl
  | cons x l ih =>
    simp only [List.map_cons, clook, dlook, ih]
    by_cases e : x.key = k
    · rw [if_pos e]; simp [Copy.key, e]
    · rw [if_neg e]; simp [Copy.key, e]

theorem dlook_append (l₁ l₂ : List (Delta K V)) (k : K) :
    dlook (l₁ ++ l₂) k = (dlook l₁ k).orElse (fun _ => dlook l₂ k) := by
  induction l₁ with
  | nil => simp [dlook]
  | cons x l ih =>
    simp only [List.cons_append, dlook]
    rw [ih]
    split <;> simp

theorem clook_mergeFull {rs : List (K × Pay V)} {arr : List (Delta K V)} (hr : SortedK rs)
    (ha : SortedD arr) (k : K) :
    clook (mergeFull rs arr) k =
      ((dlook arr k).map Copy.delta).orElse (fun _ => (alook rs k).map (fun p => .node (k, p))) := by
  induction rs generalizing arr with
  | nil =>
    simp only [mergeFull, mergeRecs, List.nil_append]
    rw [clook_map_delta]; cases dlook arr k <;> simp
  | cons r rs ih =>
    have hdw : SortedD (arr.dropWhile (fun d => decide (d.key < r.1))) :=
      ha.sublist (List.dropWhile_sublist _)
    have hge : ∀ x ∈ arr.dropWhile (fun d => decide (d.key < r.1)), r.1 ≤ x.key :=
      fun x hx => dropWhile_ge ha hx
    have harr : dlook arr k = (dlook (arr.takeWhile (fun d => decide (d.key < r.1))) k).orElse
        (fun _ => dlook (arr.dropWhile (fun d => decide (d.key < r.1))) k) := by
      rw [← dlook_append, List.takeWhile_append_dropWhile]
    rw [mergeFull_cons, clook_append, clook_map_delta, harr]
    obtain ⟨rk, rp⟩ := r
    simp only at *
    cases hl : dlook (arr.takeWhile (fun d => decide (d.key < rk))) k with
    | some d => simp
    | none =>
      simp only [Option.map_none, Option.orElse_none]
      rw [alook_cons]
      split
      · next d rest e =>
        rw [e] at hdw hge
        have hd1 := (List.pairwise_cons.1 hdw).1
        have hd2 : SortedD rest := (List.pairwise_cons.1 hdw).2
        have hdge := hge d (by simp)
        split
        · next h =>
          simp at h
          have hk : d.key = rk := by order
          rw [e, dlook]
          by_cases e2 : d.key = k
          · rw [clook_eq (c := .delta d) e2, if_pos e2]; simp
          · rw [clook_ne (c := .delta d) e2, if_neg e2, ih hr.tail hd2,
              if_neg (by rw [← hk]; exact e2)]
        · next h =>
          simp at h
          rw [e]
          by_cases e2 : rk = k
          · have : dlook (d :: rest) k = none := by
              apply dlook_none_of_lt
              intro x hx
              rcases List.mem_cons.1 hx with e' | hx
              · subst e'; order
              · have := hd1 x hx; order
            rw [this, clook_eq (c := .node (rk, rp)) e2]; subst e2; simp
          · rw [clook_ne (c := .node (rk, rp)) e2, ih hr.tail hdw, if_neg e2]
      · next e =>
        rw [e]
        by_cases e2 : rk = k
        · rw [clook_eq (c := .node (rk, rp)) e2]; subst e2; simp [dlook]
        · rw [clook_ne (c := .node (rk, rp)) e2, ih hr.tail List.Pairwise.nil, if_neg e2]

/-! ## The emitted records -/

/-- The record a copy leaves in the new node. -/
def Copy.val : Copy K V → Option (K × Pay V)
  | .first r => some r
  | .node r => some r
  | .delta d => if d.ty = .delete then none else d.toRec

/-- All emitted records. -/
def outRecs (l : List (Copy K V)) : List (K × Pay V) := l.filterMap Copy.val

theorem Copy.val_key {c : Copy K V} {r : K × Pay V} (h : c.val = some r) : r.1 = c.key := by
  cases c with
  | first r' => simp [Copy.val] at h; subst h; rfl
  | node r' => simp [Copy.val] at h; subst h; rfl
  | delta d =>
    simp [Copy.val] at h
    exact toRec_key h.2

theorem sorted_outRecs {l : List (Copy K V)} (h : SortedC l) : SortedK (outRecs l) := by
  unfold outRecs SortedK
  rw [List.pairwise_filterMap]
  refine List.Pairwise.imp ?_ h
  intro a b hab x hx y hy
  rw [Copy.val_key hx, Copy.val_key hy]; exact hab

theorem alook_outRecs {l : List (Copy K V)} (h : SortedC l) (k : K) :
    alook (outRecs l) k = (clook l k).bind (fun c => c.val.map Prod.snd) := by
  induction l with
  | nil => simp [outRecs, clook]
  | cons c l ih =>
    have ht : SortedC l := (List.pairwise_cons.1 h).2
    have hh := (List.pairwise_cons.1 h).1
    have ih := ih ht
    unfold outRecs at *
    rw [List.filterMap_cons, clook]
    by_cases e : c.key = k
    · rw [if_pos e]
      have hn : alook (List.filterMap Copy.val l) k = none := by
        rw [alook_none]
        intro x hx
        obtain ⟨c', h1, h2⟩ := List.mem_filterMap.1 hx
        rw [Copy.val_key h2]
        have := hh c' h1
        order
      cases hv : c.val with
      | none => simp [hn, hv]
      | some r =>
        obtain ⟨rk, rp⟩ := r
        have := Copy.val_key hv
        simp only at this
        subst this
        rw [alook_cons, if_pos e]; simp [hv]
    · rw [if_neg e]
      cases hv : c.val with
      | none => simp only; exact ih
      | some r =>
        obtain ⟨rk, rp⟩ := r
        have := Copy.val_key hv
        simp only at this
        subst this
        simp only
        rw [alook_cons, if_neg e]; exact ih

end BwTree
