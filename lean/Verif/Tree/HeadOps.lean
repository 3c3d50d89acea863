import Verif.Tree.ChainOps

/-!
# What the public operations compute from one loaded head (model)

Each definition is the loop body of a function of `bw_tree.hpp` between two atomic accesses.
-/

namespace BwTree

variable {K V : Type} [LinearOrder K]

/-- Outcome of one iteration of `Read`. -/
inductive RdRes (V : Type) where
  | ret (o : Option V)
  | sibling (p : PID)
  | removed
  | ub
  deriving DecidableEq

/-- The record at a position found by `SearchRecord`; anything but a user payload is a type
confusion. -/
def payloadAt (n : Node K V) (pos : Nat) : RdRes V :=
  match n.recs[pos]? with
  | some (_, .val v) => .ret (some v)
  | _ => .ub

/-- `Read`, `bw_tree.hpp` 157-195: one loaded head. -/
def readChain (key : K) (c : Chain K V) : RdRes V :=
  match dcSearchRecord key false c with
  | .found (.val v) => .ret (some v)
  | .found _ => .ub
  | .notFound => .ret none
  | .sibling p => .sibling p
  | .removed => .removed
  | .base n =>
    match n.searchRecord key with
    | none => .ub
    | some (true, pos) => payloadAt n pos
    | some (false, _) => .ret none
  | .ub => .ub

/-- Outcome of one iteration of `GetHeadWithKeyCheck`. -/
inductive KcRes where
  | ret (found : Bool)
  | sibling (p : PID)
  | removed
  | ub
  deriving DecidableEq

/-- `GetHeadWithKeyCheck`, `bw_tree.hpp` 985-1015: one loaded head. -/
def keyCheck (key : K) (c : Chain K V) : KcRes :=
  match dcSearchRecord key false c with
  | .found _ => .ret true
  | .notFound => .ret false
  | .sibling p => .sibling p
  | .removed => .removed
  | .base n =>
    match n.searchRecord key with
    | none => .ub
    | some (f, _) => .ret f
  | .ub => .ub

/-- Outcome of one iteration of `SearchChildNode`. -/
inductive ChRes where
  | child (p : PID)
  | cell (w : Nat)
  | sibling (p : PID)
  | removed
  | ub
  deriving DecidableEq

/-- `SearchChildNode`, `bw_tree.hpp` 779-812: one loaded head. -/
def childStep (key : K) (closed : Bool) (c : Chain K V) : ChRes :=
  match dcSearchChild key closed false c with
  | .child p => .child p
  | .cell w => .cell w
  | .sibling p => .sibling p
  | .removed => .removed
  | .base n =>
    match n.searchChild key closed with
    | some p => .child p
    | none => .ub
  | .ub => .ub

/-- Outcome of one iteration of `GetHeadForMerge`. -/
inductive McRes where
  | ok
  | abort
  | sibling (p : PID)
  | ub
  deriving DecidableEq

/-- `SearchRecord(key).first == kRecordFound`. -/
def nodeHas (n : Node K V) (key : K) : Option Bool := (n.searchRecord key).map Prod.fst

/-- `GetHeadForMerge`, `bw_tree.hpp` 1037-1075: one loaded head. -/
def mergeCheck (key : K) (sib : Option K) (c : Chain K V) : McRes :=
  match dcSearchForMerge key sib false false sib.isNone c with
  | .found => .ok
  | .abort => .abort
  | .sibling p => .sibling p
  | .removed => .abort
  | .base n kf sf =>
    match (if kf then some true else nodeHas n key) with
    | none => .ub
    | some kf' =>
      match sf, sib with
      | true, _ => if kf' then .ok else .abort
      | false, some s =>
        match nodeHas n s with
        | none => .ub
        | some sf' => if sf' && kf' then .ok else .abort
      | false, none => .ub
  | .ub => .ub

/-- `GetLeftmostChild`, `fixlen/node.hpp` 300-311.  `none`: the null `next_` of a removal mark is
dereferenced, or the node has no record. -/
def Chain.leftmostChild : Chain K V → Option PID
  | .base n =>
    match n.recs with
    | (_, .child p) :: _ => some p
    | _ => none
  | .removed _ => none
  | .delta _ nx => nx.leftmostChild

/-! ## Specifications -/

section
variable {cfg : Cfg K} {inner : Bool} {low : Option K}
set_option linter.unusedSectionVars false

theorem ChainWF.leaf_val {c : Chain K V} (h : ChainWF cfg false low c) {key : K} {p : Pay V}
    (hp : alook c.flatBody key = some p) : ∃ v, p = .val v := by
  have := h.flatBody_spec.2.2 _ (alook_mem hp)
  simpa [PayOK] using this

theorem readChain_spec {c : Chain K V} (h : ChainWF cfg false low c) (key : K) :
    (¬ HighOK c.high key true → readChain key c = .sibling c.nextPid) ∧
    (HighOK c.high key true → ∃ o, readChain key c = .ret o ∧
      alook c.flatBody key = o.map Pay.val) := by
  refine ⟨?_, ?_⟩
  · intro hh
    unfold readChain
    rw [(dcSearchRecord_spec h key false (by simp)).1 hh]
  · intro hh
    rcases dcSearchRecord_flat h key hh with ⟨p, v, h1, h2, h3⟩ | ⟨h1, h2⟩ | ⟨n, h1, h2, h3, h4⟩
    · obtain ⟨w, hw⟩ := h.leaf_val h2
      rcases h3 with ⟨w', e1, e2⟩ | ⟨w', e1, e2⟩
      · refine ⟨some w', ?_, ?_⟩
        · unfold readChain; rw [h1, e1]
        · rw [h2, e2]; rfl
      · rw [hw] at e2; cases e2
    · refine ⟨none, ?_, by rw [h2]; rfl⟩
      unfold readChain; rw [h1]
    · obtain ⟨f, pos, hs1, hs2, hs3⟩ := n.searchRecord_found h2.sorted key
      cases f with
      | false =>
        refine ⟨none, by simp [readChain, h1, hs1], ?_⟩
        rw [← h4]
        cases e : alook n.body key with
        | none => rfl
        | some v => have := hs2.2 (by simp [e]); cases this
      | true =>
        obtain ⟨hp, e1, e2⟩ := hs3 rfl
        obtain ⟨v, hv⟩ := h.leaf_val (key := key) (by rw [← h4]; exact e1)
        have hpair : n.recs[pos]? = some (key, .val v) := by
          rw [List.getElem?_eq_getElem hp]
          congr 1
          exact Prod.ext e2 hv
        refine ⟨some v, ?_, ?_⟩
        · simp [readChain, h1, hs1, payloadAt, hpair]
        · rw [← h4, e1, hv]; rfl

theorem keyCheck_spec {c : Chain K V} (h : ChainWF cfg inner low c) (key : K) :
    (¬ HighOK c.high key true → keyCheck key c = .sibling c.nextPid) ∧
    (HighOK c.high key true → ∃ f, keyCheck key c = .ret f ∧
      (f = true ↔ alook c.flatBody key ≠ none)) := by
  refine ⟨?_, ?_⟩
  · intro hh
    unfold keyCheck
    rw [(dcSearchRecord_spec h key false (by simp)).1 hh]
  · intro hh
    rcases dcSearchRecord_flat h key hh with ⟨p, v, h1, h2, h3⟩ | ⟨h1, h2⟩ | ⟨n, h1, h2, h3, h4⟩
    · exact ⟨true, by simp [keyCheck, h1], by simp [h2]⟩
    · exact ⟨false, by simp [keyCheck, h1], by simp [h2]⟩
    · obtain ⟨f, pos, hs1, hs2, hs3⟩ := n.searchRecord_found h2.sorted key
      exact ⟨f, by simp [keyCheck, h1, hs1], by rw [hs2, h4]⟩

theorem childStep_spec {c : Chain K V} (h : ChainWF cfg true low c)
    {P : Option K → PID → Prop} {Q : K → Nat → Prop} (he : EntsOK P Q c) (key : K) (closed : Bool)
    (hlow : LowOK low key closed) :
    (∃ p sep, childStep key closed c = .child p ∧ P sep p ∧ LowOK sep key closed) ∨
    (∃ w sep, childStep key closed c = .cell w ∧ Q sep w ∧ LowOK (some sep) key closed) ∨
    (childStep key closed c = .sibling c.nextPid ∧ ¬ HighOK c.high key closed) := by
  rcases dcSearchChild_spec h he key closed hlow false (by simp) with
    ⟨p, sep, h1, h2, h3⟩ | ⟨w, sep, h1, h2, h3⟩ | ⟨h1, h2⟩ | ⟨n, p, sep, h1, h2, h3, h4⟩
  · exact Or.inl ⟨p, sep, by simp [childStep, h1], h2, h3⟩
  · exact Or.inr (Or.inl ⟨w, sep, by simp [childStep, h1], h2, h3⟩)
  · exact Or.inr (Or.inr ⟨by simp [childStep, h1], h2⟩)
  · exact Or.inl ⟨p, sep, by simp [childStep, h1, h2], h3, h4⟩

theorem nodeHas_spec {n : Node K V} (h : NodeWF cfg n) (key : K) :
    ∃ f, nodeHas n key = some f ∧ (f = true ↔ alook n.body key ≠ none) := by
  obtain ⟨f, pos, h1, h2, _⟩ := n.searchRecord_found h.sorted key
  exact ⟨f, by simp [nodeHas, h1], h2⟩

theorem dcSearchForMerge_sib (key : K) (sib : Option K) (c : Chain K V) :
    ∀ smo kf sf n kf' sf', dcSearchForMerge key sib smo kf sf c = .base n kf' sf' →
      sf = true → sf' = true := by
  induction c with
  | base n =>
    intro smo kf sf m a b e hs
    simp only [dcSearchForMerge] at e
    split at e
    · cases e
    · split at e
      · cases e
      · simp at e; rw [← e.2.2]; exact hs
  | removed l => intro smo kf sf m a b e; simp [dcSearchForMerge] at e
  | delta d nx ih =>
    intro smo kf sf m a b e hs
    subst hs
    unfold dcSearchForMerge at e
    cases ht : d.ty <;> simp only [ht] at e
    · split at e
      · cases e
      · split at e
        · cases e
        · exact ih _ _ _ _ _ _ e (by simp)
    · cases e
    · split at e
      · cases e
      · split at e
        · cases e
        · exact ih _ _ _ _ _ _ e rfl
    · split at e
      · split at e
        · split at e
          · cases e
          · simp at e; exact e.2.2
        · cases e
      · split at e
        · cases e
        · exact ih _ _ _ _ _ _ e (by simp)

theorem mergeCheck_spec {c : Chain K V} (h : ChainWF cfg true low c) (key : K) (sib : Option K) :
    (mergeCheck key sib c = .ok ∧ KeyIn low c key) ∨ mergeCheck key sib c = .abort ∨
    (mergeCheck key sib c = .sibling c.nextPid ∧ ¬ HighOK c.high key true) := by
  rcases dcSearchForMerge_spec h key sib false false sib.isNone (by simp) with
    e | ⟨e, e'⟩ | ⟨e, e'⟩ | ⟨n, kf, sf, e1, e2, e3, e4⟩
  · exact Or.inr (Or.inl (by simp [mergeCheck, e]))
  · left
    refine ⟨by simp [mergeCheck, e], ?_⟩
    rcases e' with e' | e'
    · cases e'
    · exact e'
  · exact Or.inr (Or.inr ⟨by simp [mergeCheck, e], e'⟩)
  · obtain ⟨f, hf1, hf2⟩ := nodeHas_spec e2 key
    have hk : ∃ kf', (if kf then some true else nodeHas n key) = some kf' ∧
        (kf' = true → KeyIn low c key) := by
      cases kf with
      | true =>
        refine ⟨true, rfl, fun _ => ?_⟩
        rcases e3 rfl with x | x
        · cases x
        · exact x
      | false => exact ⟨f, by simp [hf1], fun hh => e4 rfl (hf2.1 hh)⟩
    obtain ⟨kf', hk1, hk2⟩ := hk
    cases sf with
    | true =>
      have : mergeCheck key sib c = if kf' then .ok else .abort := by
        simp only [mergeCheck, e1, hk1]
      rw [this]
      cases kf' with
      | true => exact Or.inl ⟨rfl, hk2 rfl⟩
      | false => exact Or.inr (Or.inl rfl)
    | false =>
      cases sib with
      | none =>
        have := dcSearchForMerge_sib key none c _ _ _ _ _ _ e1 rfl
        cases this
      | some s =>
        obtain ⟨g, hg1, _⟩ := nodeHas_spec e2 s
        have : mergeCheck key (some s) c = if g && kf' then .ok else .abort := by
          simp only [mergeCheck, e1, hk1, hg1]
        rw [this]
        cases hgk : (g && kf') with
        | true => exact Or.inl ⟨rfl, hk2 (by simp at hgk; exact hgk.2)⟩
        | false => exact Or.inr (Or.inl rfl)

theorem ChainWF.leftmostChild {c : Chain K V} (h : ChainWF cfg true low c)
    {P : Option K → PID → Prop} {Q : K → Nat → Prop} (he : EntsOK P Q c) :
    ∃ p, c.leftmostChild = some p ∧ P low p := by
  induction c with
  | base n =>
    obtain ⟨r, rs, hr, hf⟩ := h.2.2.first h.1
    obtain ⟨p, hp⟩ : ∃ p, r.2 = .child p := by
      have := h.2.2.kind r (by simp [hr]); simpa [PayOK, h.1] using this
    refine ⟨p, ?_, ?_⟩
    · obtain ⟨rk, rp⟩ := r
      simp only at hp; subst hp
      simp [Chain.leftmostChild, hr]
    · cases hl : n.low with
      | none =>
        have := he.1 r (by simp [Node.pre, Node.leftInner, h.1, hl, hr]) p hp
        rw [← h.2.1, hl]; exact this
      | some l =>
        have := he.2 r (by rw [Node.body_of_low hl, hr]; simp) p hp
        rw [← h.2.1, hl, ← hf l hl]; exact this
  | removed l => exact h.elim
  | delta d nx ih => exact ih h.next he.1

end

end BwTree
