import Verif.Tree.Consolidate

/-!
# Searches in well-formed chains, and pushing deltas (helper lemmas)
-/

namespace BwTree

set_option linter.unusedSectionVars false

variable {K V : Type} [LinearOrder K] {cfg : Cfg K} {inner : Bool} {low : Option K}

theorem sameKey_iff {a k : K} : sameKey a k = true ↔ a = k := by
  unfold sameKey
  simp
  constructor
  · rintro ⟨h1, h2⟩; order
  · rintro rfl; simp

theorem lowKeyIsLE_iff {a k : K} {closed : Bool} :
    lowKeyIsLE a k closed = true ↔ (if closed then a ≤ k else a < k) := by
  unfold lowKeyIsLE
  cases closed
  · simp
  · simp only [Bool.or_eq_true, decide_eq_true_eq, Bool.true_and, Bool.not_eq_true',
      decide_eq_false_iff_not, if_true]
    constructor
    · rintro (h | h) <;> order
    · intro h; right; order

theorem highKeyIsGE_iff {h : Option K} {k : K} {closed : Bool} :
    highKeyIsGE h k (!closed) = true ↔ HighOK h k closed := by
  unfold highKeyIsGE HighOK
  cases h with
  | none => simp
  | some b =>
    cases closed
    · simp
      intro h; order
    · simp

theorem highKeyIsGE_false_iff {h : Option K} {k : K} :
    highKeyIsGE h k false = true ↔ HighOK h k true := highKeyIsGE_iff (closed := true)

theorem HighOK.weaken {h : Option K} {k : K} (hk : HighOK h k true) (closed : Bool) :
    HighOK h k closed := by
  intro b hb
  have := hk b hb
  cases closed <;> simp at this ⊢ <;> order

theorem LowOK.weaken {l : Option K} {k : K} (hk : LowOK l k false) (closed : Bool) :
    LowOK l k closed := by
  intro b hb
  have := hk b hb
  cases closed <;> simp at this ⊢ <;> order

theorem LowOK.weaken' {l : Option K} {k : K} {closed : Bool} (hk : LowOK l k closed) :
    LowOK l k true := by
  intro b hb
  have := hk b hb
  cases closed <;> simp at this ⊢ <;> order

theorem newest_inR {c : Chain K V} (h : ChainWF cfg inner low c) {k : K} {d : Delta K V}
    (hn : newest k c = some d) : InR low c.high k := by
  obtain ⟨h1, h2⟩ := newest_dmem hn
  rw [← h2]; exact (h.dmem h1).1

theorem newest_none_of_high {c : Chain K V} (h : ChainWF cfg inner low c) {k : K}
    (hk : ¬ HighOK c.high k true) : newest k c = none := by
  cases hn : newest k c with
  | none => rfl
  | some d => exact absurd (newest_inR h hn).2 hk

/-- Search of a record in a well-formed chain. -/
theorem dcSearchRecord_spec {c : Chain K V} (h : ChainWF cfg inner low c) (key : K) :
    ∀ smo : Bool, (smo = true → HighOK c.high key true) →
    (¬ HighOK c.high key true → dcSearchRecord key smo c = .sibling c.nextPid) ∧
    (HighOK c.high key true →
      (∃ d, newest key c = some d ∧
        dcSearchRecord key smo c = if d.ty = .delete then .notFound else .found d.pay) ∨
      (newest key c = none ∧ ∃ n, dcSearchRecord key smo c = .base n ∧ NodeWF cfg n ∧
        n.inner = inner ∧ alook n.body key = alook (baseBody c) key)) := by
  induction c with
  | base n =>
    intro smo hsmo
    refine ⟨?_, ?_⟩
    · intro hh
      have hs : smo = false := by
        cases smo
        · rfl
        · exact absurd (hsmo rfl) hh
      have : highKeyIsGE n.high key false = false := by
        cases e : highKeyIsGE n.high key false
        · rfl
        · exact absurd (highKeyIsGE_false_iff.1 e) hh
      simp [dcSearchRecord, hs, this, Chain.nextPid]
    · intro hh
      have : highKeyIsGE n.high key false = true := highKeyIsGE_false_iff.2 hh
      right
      exact ⟨rfl, n, by simp [dcSearchRecord, this], h.2.2, h.1, rfl⟩
  | removed l => exact h.elim
  | delta d nx ih =>
    intro smo hsmo
    have h' := h
    obtain ⟨_, _, _, _, _, _, h4⟩ := h
    by_cases hm : d.ty = .merge
    · rw [hm] at h4
      obtain ⟨hh, n, hn, hin, hlo, hhi, hwf⟩ := h4
      have hhigh : (Chain.delta d nx).high = d.high := by simp [Chain.high, hm]
      have hnext : (Chain.delta d nx).nextPid = n.next := by simp [Chain.nextPid, hm, hn]
      have hnew : newest key (.delta d nx) = newest key nx := by simp [newest, hm]
      have hbb : baseBody (.delta d nx) = baseBody nx ++ n.recs := by simp [baseBody, hm, hn]
      by_cases hle : d.key ≤ key
      · have hle' : lowKeyIsLE d.key key true = true := lowKeyIsLE_iff.2 (by simpa using hle)
        have hnh : ¬ HighOK nx.high key true := by
          intro e; have := e _ hh; simp at this; order
        have hnn := newest_none_of_high h'.next hnh
        refine ⟨?_, ?_⟩
        · intro hk
          have hs : smo = false := by
            cases smo
            · rfl
            · exact absurd (hsmo rfl) hk
          rw [hhigh] at hk
          have : highKeyIsGE d.high key false = false := by
            cases e : highKeyIsGE d.high key false
            · rfl
            · exact absurd (highKeyIsGE_false_iff.1 e) hk
          simp [dcSearchRecord, hm, hle', hn, hs, this, hnext]
        · intro hk
          rw [hhigh] at hk
          have : highKeyIsGE d.high key false = true := highKeyIsGE_false_iff.2 hk
          right
          refine ⟨by rw [hnew]; exact hnn, n, ?_, hwf, hin, ?_⟩
          · simp [dcSearchRecord, hm, hle', hn, this]
          · rw [hbb, alook_append, Node.body_of_low hlo]
            have : alook (baseBody nx) key = none := by
              rw [alook_none]; intro x hx e
              have := (h'.next.baseBody_spec.2.1 x hx).2
              rw [e] at this; exact hnh this
            rw [this]; simp
      · have hle' : lowKeyIsLE d.key key true = false := by
          cases e : lowKeyIsLE d.key key true
          · rfl
          · exact absurd (by simpa using lowKeyIsLE_iff.1 e) hle
        have hkn : HighOK nx.high key true := by
          intro b hb; rw [hh] at hb; cases hb; simp; order
        have hko : HighOK (Chain.delta d nx).high key true := by
          intro b hb
          rw [hhigh] at hb
          have := h'.merge_high hm b hb
          simp; order
        have hi := (ih h'.next true (fun _ => hkn)).2 hkn
        have hrec : dcSearchRecord key smo (.delta d nx) = dcSearchRecord key true nx := by
          simp [dcSearchRecord, hm, hle']
        refine ⟨fun e => absurd hko e, fun _ => ?_⟩
        rw [hnew, hrec]
        rcases hi with hi | ⟨e1, m, e2, e3, e4, e5⟩
        · exact Or.inl hi
        · right
          refine ⟨e1, m, e2, e3, e4, ?_⟩
          rw [e5, hbb, alook_append]
          have : alook n.recs key = none := by
            rw [alook_none]; intro x hx e
            have := (hwf.range x (by rw [Node.body_of_low hlo]; exact hx)).1 _ hlo
            simp at this; order
          rw [this]; cases alook (baseBody nx) key <;> simp
    · have hhigh : (Chain.delta d nx).high = nx.high := by simp [Chain.high, hm]
      have hnext : (Chain.delta d nx).nextPid = nx.nextPid := by
        cases ht : d.ty <;> simp_all [Chain.nextPid]
      have hnew : newest key (.delta d nx) = if d.key = key then some d else newest key nx := by
        simp [newest, hm]
      rw [hhigh] at hsmo
      rw [hhigh, hnext, hnew, baseBody_of_ne hm]
      by_cases he : d.key = key
      · have hs : sameKey d.key key = true := sameKey_iff.2 he
        have hres : dcSearchRecord key smo (.delta d nx) =
            if d.ty = .delete then .notFound else .found d.pay := by
          cases ht : d.ty <;> simp_all [dcSearchRecord]
        have hin : InR low (Chain.delta d nx).high d.key := (h'.dmem (.head nx hm)).1
        rw [he, hhigh] at hin
        refine ⟨fun e => absurd hin.2 e, fun _ => ?_⟩
        left; exact ⟨d, by simp [he], hres⟩
      · have hs : sameKey d.key key = false := by
          cases e : sameKey d.key key
          · rfl
          · exact absurd (sameKey_iff.1 e) he
        have hres : dcSearchRecord key smo (.delta d nx) = dcSearchRecord key smo nx := by
          cases ht : d.ty <;> simp_all [dcSearchRecord]
        rw [hres, if_neg he]
        exact ih h'.next smo hsmo

/-- The lookup in the chain's meaning that a record search reports. -/
theorem dcSearchRecord_flat {c : Chain K V} (h : ChainWF cfg inner low c) (key : K)
    (hhigh : HighOK c.high key true) :
    (∃ p v, dcSearchRecord key false c = .found p ∧ alook c.flatBody key = some v ∧
        ((∃ w, p = .val w ∧ v = .val w) ∨ (∃ w, p = .child w ∧ v = .child w))) ∨
    (dcSearchRecord key false c = .notFound ∧ alook c.flatBody key = none) ∨
    (∃ n, dcSearchRecord key false c = .base n ∧ NodeWF cfg n ∧ n.inner = inner ∧
      alook n.body key = alook c.flatBody key) := by
  rcases (dcSearchRecord_spec h key false (by simp)).2 hhigh with ⟨d, h1, h2⟩ | ⟨h1, n, h2, h3, h4, h5⟩
  · obtain ⟨hm1, hm2⟩ := newest_dmem h1
    obtain ⟨_, ht, hp, _⟩ := h.dmem hm1
    have hl := h.alook_flatBody key
    rw [h1] at hl
    simp only at hl
    by_cases hd : d.ty = .delete
    · right; left
      rw [if_pos hd] at h2
      exact ⟨h2, by rw [hl]; simp [Delta.outcome, hd]⟩
    · left
      rw [if_neg hd] at h2
      obtain ⟨p, hp1, hp2⟩ := DPayOK.toRec hp ht hd
      refine ⟨d.pay, p, h2, by rw [hl]; simp [Delta.outcome, hd, hp1], ?_⟩
      unfold Delta.toRec at hp1
      split at hp1
      · next v e => left; simp at hp1; exact ⟨v, e, hp1.symm⟩
      · next v e => right; simp at hp1; exact ⟨v, e, hp1.symm⟩
      · simp at hp1
  · right; right
    refine ⟨n, h2, h3, h4, ?_⟩
    rw [h5, h.alook_flatBody, h1]

/-- `Validate` on a well-formed chain. -/
theorem dcValidate_spec {c : Chain K V} (h : ChainWF cfg inner low c) (key : K) (closed : Bool) :
    (HighOK c.high key closed → dcValidate key closed c = .ok) ∧
    (¬ HighOK c.high key closed → dcValidate key closed c = .sibling c.nextPid) := by
  induction c with
  | base n =>
    refine ⟨?_, ?_⟩
    · intro hh
      have : highKeyIsGE n.high key (!closed) = true := highKeyIsGE_iff.2 hh
      simp [dcValidate, this]
    · intro hh
      have : highKeyIsGE n.high key (!closed) = false := by
        cases e : highKeyIsGE n.high key (!closed)
        · rfl
        · exact absurd (highKeyIsGE_iff.1 e) hh
      simp [dcValidate, this, Chain.nextPid]
  | removed l => exact h.elim
  | delta d nx ih =>
    have h' := h
    obtain ⟨_, _, _, _, _, _, h4⟩ := h
    by_cases hm : d.ty = .merge
    · rw [hm] at h4
      obtain ⟨hh, n, hn, hin, hlo, hhi, hwf⟩ := h4
      have hhigh : (Chain.delta d nx).high = d.high := by simp [Chain.high, hm]
      have hnext : (Chain.delta d nx).nextPid = n.next := by simp [Chain.nextPid, hm, hn]
      rw [hhigh, hnext]
      refine ⟨?_, ?_⟩
      · intro hh
        have : highKeyIsGE d.high key (!closed) = true := highKeyIsGE_iff.2 hh
        simp [dcValidate, hm, this]
      · intro hh
        have : highKeyIsGE d.high key (!closed) = false := by
          cases e : highKeyIsGE d.high key (!closed)
          · rfl
          · exact absurd (highKeyIsGE_iff.1 e) hh
        simp [dcValidate, hm, this, hn]
    · have hhigh : (Chain.delta d nx).high = nx.high := by simp [Chain.high, hm]
      have hnext : (Chain.delta d nx).nextPid = nx.nextPid := by
        cases ht : d.ty <;> simp_all [Chain.nextPid]
      have : dcValidate key closed (.delta d nx) = dcValidate key closed nx := by
        cases ht : d.ty <;> simp_all [dcValidate]
      rw [hhigh, hnext, this]
      exact ih h'.next

/-! ## Index entries -/

/-- All child pointers of a node satisfy `P` (with their separator; `none` for the key-less
record). -/
def NodeEnts (P : Option K → PID → Prop) (n : Node K V) : Prop :=
  (∀ x ∈ n.pre, ∀ p, x.2 = .child p → P none p) ∧
  (∀ x ∈ n.body, ∀ p, x.2 = .child p → P (some x.1) p)

/-- All child pointers of a chain satisfy `P` and all index-delete words satisfy `Q`. -/
def EntsOK (P : Option K → PID → Prop) (Q : K → Nat → Prop) : Chain K V → Prop
  | .base n => NodeEnts P n
  | .removed _ => True
  | .delta d nx => EntsOK P Q nx ∧ (∀ p, d.ty ≠ .merge → d.pay = .child p → P (some d.key) p) ∧
      (∀ c, d.pay = .cell c → Q d.key c) ∧ (∀ n, d.pay = .node n → NodeEnts P n)

/-- Child search in a node. -/
theorem Node.searchChild_ents {n : Node K V} (hwf : NodeWF cfg n) (hi : n.inner = true)
    {P : Option K → PID → Prop} (he : NodeEnts P n) (key : K) (closed : Bool)
    (hlow : LowOK n.low key closed) :
    ∃ p sep, n.searchChild key closed = some p ∧ P sep p ∧ LowOK sep key closed := by
  obtain ⟨r, rs, hr, hfirst⟩ := hwf.first hi
  have hkind : ∀ x ∈ n.recs, ∃ c, x.2 = Pay.child c := by
    intro x hx; have := hwf.kind x hx; simpa [PayOK, hi] using this
  have hs : SortedK (n.recs.drop 1) := by
    have := hwf.sorted
    unfold Node.body at this
    split at this
    · exact this
    · rw [hr] at this ⊢; exact this.tail
  obtain ⟨pos, hp, c, h1, h2, h3, h4⟩ := n.searchChild_spec hs (by rw [hr]; simp) key closed hkind
  by_cases h0 : pos = 0
  · subst h0
    have e0 : n.recs[0] = r := by simp [hr]
    rw [e0] at h2
    cases hl : n.low with
    | none =>
      refine ⟨c, none, h1, ?_, by intro l e; cases e⟩
      apply he.1 r _ c h2
      simp [Node.pre, Node.leftInner, hi, hl, hr]
    | some l =>
      refine ⟨c, some r.1, h1, ?_, ?_⟩
      · apply he.2 r _ c h2
        rw [Node.body_of_low hl, hr]; simp
      · intro l' e; cases e
        rw [hfirst l hl]; exact hlow l hl
  · have hle := h3 pos hp (by omega) (Nat.le_refl _)
    refine ⟨c, some n.recs[pos].1, h1, ?_, ?_⟩
    · apply he.2 n.recs[pos] _ c h2
      rw [n.body_eq, mem_drop_iff]
      refine ⟨pos, hp, ?_, rfl⟩
      unfold Node.skip; split <;> omega
    · intro l' e; cases e; exact hle

/-- Child search in a well-formed inner chain. -/
theorem dcSearchChild_spec {c : Chain K V} (h : ChainWF cfg true low c)
    {P : Option K → PID → Prop} {Q : K → Nat → Prop} (he : EntsOK P Q c) (key : K) (closed : Bool)
    (hlow : LowOK low key closed) :
    ∀ smo : Bool, (smo = true → HighOK c.high key closed) →
    (∃ p sep, dcSearchChild key closed smo c = .child p ∧ P sep p ∧ LowOK sep key closed) ∨
    (∃ w sep, dcSearchChild key closed smo c = .cell w ∧ Q sep w ∧ LowOK (some sep) key closed) ∨
    (dcSearchChild key closed smo c = .sibling c.nextPid ∧ ¬ HighOK c.high key closed) ∨
    (∃ n p sep, dcSearchChild key closed smo c = .base n ∧ n.searchChild key closed = some p ∧
      P sep p ∧ LowOK sep key closed) := by
  induction c with
  | base n =>
    intro smo hsmo
    by_cases hh : HighOK n.high key closed
    · have : highKeyIsGE n.high key (!closed) = true := highKeyIsGE_iff.2 hh
      right; right; right
      obtain ⟨p, sep, h1, h2, h3⟩ := n.searchChild_ents h.2.2 h.1 he key closed
        (by rw [h.2.1]; exact hlow)
      exact ⟨n, p, sep, by simp [dcSearchChild, this], h1, h2, h3⟩
    · right; right; left
      have hs : smo = false := by
        cases smo
        · rfl
        · exact absurd (hsmo rfl) hh
      have : highKeyIsGE n.high key (!closed) = false := by
        cases e : highKeyIsGE n.high key (!closed)
        · rfl
        · exact absurd (highKeyIsGE_iff.1 e) hh
      exact ⟨by simp [dcSearchChild, hs, this, Chain.nextPid], hh⟩
  | removed l => exact h.elim
  | delta d nx ih =>
    intro smo hsmo
    have h' := h
    obtain ⟨he1, he2, he3, he4⟩ := he
    obtain ⟨_, _, hpay, _, _, _, h4⟩ := h
    by_cases hm : d.ty = .merge
    · rw [hm] at h4
      obtain ⟨hh, n, hn, hin, hlo, hhi, hwf⟩ := h4
      have hhigh : (Chain.delta d nx).high = d.high := by simp [Chain.high, hm]
      have hnext : (Chain.delta d nx).nextPid = n.next := by simp [Chain.nextPid, hm, hn]
      rw [hhigh] at hsmo
      rw [hhigh, hnext]
      cases hle : lowKeyIsLE d.key key closed
      · -- continue below the merge
        have hkn : HighOK nx.high key closed := by
          intro b hb; rw [hh] at hb; cases hb
          have : ¬ (if closed then d.key ≤ key else d.key < key) := by
            rw [← lowKeyIsLE_iff]; simp [hle]
          cases closed <;> simp at this ⊢ <;> order
        have hres : dcSearchChild key closed smo (.delta d nx) = dcSearchChild key closed true nx := by
          simp [dcSearchChild, hm, hle]
        rw [hres]
        rcases ih h'.next he1 true (fun _ => hkn) with h | h | h | h
        · exact Or.inl h
        · exact Or.inr (Or.inl h)
        · exact absurd hkn h.2
        · exact Or.inr (Or.inr (Or.inr h))
      · by_cases hk : HighOK d.high key closed
        · have : highKeyIsGE d.high key (!closed) = true := highKeyIsGE_iff.2 hk
          right; right; right
          obtain ⟨p, sep, h1, h2, h3⟩ := n.searchChild_ents hwf hin (he4 n hn) key closed
            (by rw [hlo]; intro l e; cases e; exact lowKeyIsLE_iff.1 hle)
          exact ⟨n, p, sep, by simp [dcSearchChild, hm, hle, hn, this], h1, h2, h3⟩
        · right; right; left
          have hs : smo = false := by
            cases smo
            · rfl
            · exact absurd (hsmo rfl) hk
          have : highKeyIsGE d.high key (!closed) = false := by
            cases e : highKeyIsGE d.high key (!closed)
            · rfl
            · exact absurd (highKeyIsGE_iff.1 e) hk
          exact ⟨by simp [dcSearchChild, hm, hle, hn, hs, this], hk⟩
    · have hhigh : (Chain.delta d nx).high = nx.high := by simp [Chain.high, hm]
      have hnext : (Chain.delta d nx).nextPid = nx.nextPid := by
        cases ht : d.ty <;> simp_all [Chain.nextPid]
      rw [hhigh] at hsmo
      rw [hhigh, hnext]
      have ih := ih h'.next he1 smo hsmo
      cases hcond : (lowKeyIsLE d.key key closed && highKeyIsGE d.high key (!closed))
      · have hres : dcSearchChild key closed smo (.delta d nx) = dcSearchChild key closed smo nx := by
          cases ht : d.ty
          · simp [dcSearchChild, ht, hcond]
          · rw [ht] at hpay; simp [DPayOK] at hpay
          · simp [dcSearchChild, ht, hcond]
          · exact absurd ht hm
        rw [hres]; exact ih
      · have hl : LowOK (some d.key) key closed := by
          intro l e; cases e
          have : lowKeyIsLE d.key key closed = true := by
            rw [Bool.and_eq_true] at hcond; exact hcond.1
          exact lowKeyIsLE_iff.1 this
        cases ht : d.ty
        · rw [ht] at hpay
          simp only [DPayOK, if_true] at hpay
          obtain ⟨p, hp⟩ := hpay
          left
          exact ⟨p, some d.key, by simp [dcSearchChild, ht, hcond, hp], he2 p hm hp, hl⟩
        · rw [ht] at hpay; simp [DPayOK] at hpay
        · rw [ht] at hpay
          simp only [DPayOK, if_true] at hpay
          obtain ⟨w, hw⟩ := hpay
          right; left
          exact ⟨w, d.key, by simp [dcSearchChild, ht, hcond, hw], he3 w hw, hl⟩
        · exact absurd ht hm

theorem EntsOK.mono {P P' : Option K → PID → Prop} {Q Q' : K → Nat → Prop}
    (hP : ∀ s p, P s p → P' s p) (hQ : ∀ s p, Q s p → Q' s p) {c : Chain K V}
    (h : EntsOK P Q c) : EntsOK P' Q' c := by
  have hn : ∀ n : Node K V, NodeEnts P n → NodeEnts P' n := fun n h =>
    ⟨fun x hx p e => hP _ _ (h.1 x hx p e), fun x hx p e => hP _ _ (h.2 x hx p e)⟩
  induction c with
  | base n => exact hn n h
  | removed l => trivial
  | delta d nx ih =>
    exact ⟨ih h.1, fun p a b => hP _ _ (h.2.1 p a b), fun c e => hQ _ _ (h.2.2.1 c e),
      fun n e => hn n (h.2.2.2 n e)⟩

theorem EntsOK.flat {P : Option K → PID → Prop} {Q : K → Nat → Prop} {c : Chain K V}
    (hw : ChainWF cfg inner low c) (h : EntsOK P Q c) :
    (∀ x ∈ c.pre, ∀ p, x.2 = .child p → P none p) ∧
    (∀ x ∈ c.flatBody, ∀ p, x.2 = .child p → P (some x.1) p) := by
  induction c with
  | base n => exact h
  | removed l => exact hw.elim
  | delta d nx ih =>
    obtain ⟨h1, h2⟩ := ih hw.next h.1
    refine ⟨h1, ?_⟩
    have h' := hw
    obtain ⟨_, _, hpay, _, _, _, h4⟩ := hw
    obtain ⟨_, e2, _, e4⟩ := h
    by_cases hm : d.ty = .merge
    · rw [hm] at h4
      obtain ⟨hh, n, hn, hin, hlo, hhi, hwf⟩ := h4
      have hf : Chain.flatBody (.delta d nx) = nx.flatBody ++ n.recs := by
        simp [Chain.flatBody, hm, hn]
      rw [hf]
      intro x hx p hp
      rcases List.mem_append.1 hx with hx | hx
      · exact h2 x hx p hp
      · exact (e4 n hn).2 x (by rw [Node.body_of_low hlo]; exact hx) p hp
    · by_cases hd : d.ty = .delete
      · have hf : Chain.flatBody (.delta d nx) = adel d.key nx.flatBody := by
          simp [Chain.flatBody, hd]
        rw [hf]
        intro x hx p hp
        exact h2 x (mem_adel.1 hx).1 p hp
      · obtain ⟨q, hq, _⟩ := DPayOK.toRec hpay hm hd
        rw [flatBody_put hm hd hq]
        intro x hx p hp
        rcases mem_ains hx with e | hx
        · subst e
          simp only at hp
          subst hp
          apply e2 p hm
          unfold Delta.toRec at hq
          split at hq <;> simp_all
        · exact h2 x hx p hp

/-! ## The search before a merge -/

/-- The first separator of a non-leftmost inner page is its low key and is never removed. -/
theorem ChainWF.low_mem {c : Chain K V} (h : ChainWF cfg true low c) {l : K} (hl : low = some l) :
    alook c.flatBody l ≠ none := by
  induction c with
  | base n =>
    obtain ⟨r, rs, hr, hf⟩ := h.2.2.first h.1
    have hlow : n.low = some l := by rw [h.2.1]; exact hl
    have : n.body = r :: rs := by rw [Node.body_of_low hlow, hr]
    simp only [Chain.flatBody, this]
    obtain ⟨rk, rp⟩ := r
    have := hf l hlow
    simp only at this
    simp [alook_cons, this]
  | removed l => exact h.elim
  | delta d nx ih =>
    have ih := ih h.next
    have hs := h.next.flatBody_spec.1
    obtain ⟨_, _, hpay, _, _, _, h4⟩ := h
    by_cases hm : d.ty = .merge
    · rw [hm] at h4
      obtain ⟨hh, n, hn, hin, hlo, hhi, hwf⟩ := h4
      have hf : Chain.flatBody (.delta d nx) = nx.flatBody ++ n.recs := by
        simp [Chain.flatBody, hm, hn]
      rw [hf, alook_append]
      cases e : alook nx.flatBody l
      · exact absurd e ih
      · simp
    · by_cases hd : d.ty = .delete
      · have hf : Chain.flatBody (.delta d nx) = adel d.key nx.flatBody := by
          simp [Chain.flatBody, hd]
        rw [hf, alook_adel]
        rw [hd] at h4
        have := h4.2.2 rfl l hl
        simp at this
        rw [if_neg (by order)]; exact ih
      · obtain ⟨q, hq, _⟩ := DPayOK.toRec hpay hm hd
        rw [flatBody_put hm hd hq, alook_ains hs]
        split
        · simp
        · exact ih

theorem LowOK.strict {k : K} (h : LowOK low k true) (hne : low ≠ some k) : LowOK low k false := by
  intro l hl
  have := h l hl
  simp at this ⊢
  rcases lt_or_eq_of_le this with e | e
  · exact e
  · subst e; exact absurd hl hne

/-- `key` is a separator of the chain that may be deleted. -/
def KeyIn (low : Option K) (c : Chain K V) (key : K) : Prop :=
  alook c.flatBody key ≠ none ∧ LowOK low key false

/-- The search of a separator (and its right neighbour) before a merge. -/
theorem dcSearchForMerge_spec {c : Chain K V} (h : ChainWF cfg true low c) (key : K)
    (sib : Option K) :
    ∀ smo kf sf : Bool, (smo = true → kf = false → HighOK c.high key true) →
    (dcSearchForMerge key sib smo kf sf c = .abort) ∨
    (dcSearchForMerge key sib smo kf sf c = .found ∧ (kf = true ∨ KeyIn low c key)) ∨
    (dcSearchForMerge key sib smo kf sf c = .sibling c.nextPid ∧ ¬ HighOK c.high key true) ∨
    (∃ n kf' sf', dcSearchForMerge key sib smo kf sf c = .base n kf' sf' ∧ NodeWF cfg n ∧
      (kf' = true → kf = true ∨ KeyIn low c key) ∧
      (kf' = false → alook n.body key ≠ none → KeyIn low c key)) := by
  induction c with
  | base n =>
    intro smo kf sf hsmo
    have hlk : lowIsKey n.low key = false → n.low ≠ some key := by
      intro hb e
      rw [e] at hb
      simp only [lowIsKey] at hb
      rw [sameKey_iff.2 rfl] at hb
      cases hb
    unfold dcSearchForMerge
    by_cases hab : (!kf && lowIsKey n.low key) = true
    · rw [if_pos hab]; exact Or.inl rfl
    · rw [if_neg hab]
      split
      · next hsb =>
        simp only [Bool.and_eq_true, Bool.not_eq_true'] at hsb
        obtain ⟨⟨hkf, hs⟩, hh⟩ := hsb
        right; right; left
        refine ⟨rfl, ?_⟩
        intro e
        have := highKeyIsGE_false_iff.2 (show HighOK n.high key true from e)
        rw [this] at hh; cases hh
      · next hsb =>
        right; right; right
        refine ⟨n, kf, sf, rfl, h.2.2, fun e => Or.inl e, ?_⟩
        intro hkf hin
        have hlow : LowOK low key true := by
          obtain ⟨v, hv⟩ := Option.ne_none_iff_exists'.1 hin
          have := (h.2.2.range _ (alook_mem hv)).1
          rw [h.2.1] at this; exact this
        refine ⟨hin, hlow.strict ?_⟩
        intro e
        have hnl : n.low = some key := by rw [h.2.1]; exact e
        apply hlk _ hnl
        simpa [hkf] using hab
  | removed l => exact h.elim
  | delta d nx ih =>
    intro smo kf sf hsmo
    have h' := h
    have hs := h.next.flatBody_spec.1
    obtain ⟨_, _, hpay, _, _, _, h4⟩ := h
    cases ht : d.ty
    · -- insert
      have hm : d.ty ≠ .merge := by simp [ht]
      have hd : d.ty ≠ .delete := by simp [ht]
      have hhigh : (Chain.delta d nx).high = nx.high := by simp [Chain.high, ht]
      have hnext : (Chain.delta d nx).nextPid = nx.nextPid := by simp [Chain.nextPid, ht]
      rw [hhigh] at hsmo
      rw [hhigh, hnext]
      rw [ht] at h4
      obtain ⟨q, hq, _⟩ := DPayOK.toRec hpay hm hd
      have hfl := flatBody_put hm hd hq (nx := nx)
      have hkin : d.key = key → KeyIn low (.delta d nx) key := by
        intro e
        refine ⟨by rw [hfl, alook_ains hs]; simp [e], (e ▸ h4.1.1 : LowOK low key true).strict ?_⟩
        intro el
        apply h'.next.low_mem el
        rw [← e]; exact h4.2
      have hkin' : KeyIn low nx key → KeyIn low (.delta d nx) key := by
        rintro ⟨e1, e2⟩
        refine ⟨?_, e2⟩
        rw [hfl, alook_ains hs]
        split
        · simp
        · exact e1
      have hsame : sameKey d.key key = true → KeyIn low (.delta d nx) key :=
        fun e => hkin (sameKey_iff.1 e)
      unfold dcSearchForMerge
      simp only [ht]
      split
      · next hc =>
        simp only [Bool.and_eq_true, Bool.not_eq_true', Bool.or_eq_true] at hc
        obtain ⟨⟨hkf, hk'⟩, _⟩ := hc
        right; left
        refine ⟨rfl, Or.inr (hsame ?_)⟩
        rcases hk' with e | e
        · rw [hkf] at e; cases e
        · exact e
      · split
        · next hc =>
          simp only [Bool.and_eq_true, Bool.not_eq_true', Bool.or_eq_true] at hc
          right; left
          refine ⟨rfl, ?_⟩
          rcases hc.2 with e | e
          · exact Or.inl e
          · exact Or.inr (hsame e)
        · have ih := ih h'.next smo (kf || sameKey d.key key) (sf || sameKeyOpt d.key sib)
            (by
              intro e1 e2
              apply hsmo e1
              rw [Bool.or_eq_false_iff] at e2; exact e2.1)
          have conv : (kf || sameKey d.key key) = true → kf = true ∨ KeyIn low (.delta d nx) key := by
            intro e
            rcases Bool.or_eq_true _ _ ▸ e with e | e
            · exact Or.inl e
            · exact Or.inr (hsame e)
          rcases ih with e | ⟨e, e'⟩ | ⟨e, e'⟩ | ⟨n, a, b, e1, e2, e3, e4⟩
          · exact Or.inl e
          · right; left
            refine ⟨e, ?_⟩
            rcases e' with e' | e'
            · exact conv e'
            · exact Or.inr (hkin' e')
          · exact Or.inr (Or.inr (Or.inl ⟨e, e'⟩))
          · right; right; right
            refine ⟨n, a, b, e1, e2, ?_, fun x y => hkin' (e4 x y)⟩
            intro ha
            rcases e3 ha with e' | e'
            · exact conv e'
            · exact Or.inr (hkin' e')
    · rw [ht] at hpay; simp [DPayOK] at hpay
    · -- delete
      have hhigh : (Chain.delta d nx).high = nx.high := by simp [Chain.high, ht]
      have hnext : (Chain.delta d nx).nextPid = nx.nextPid := by simp [Chain.nextPid, ht]
      rw [hhigh] at hsmo
      rw [hhigh, hnext]
      have hf : Chain.flatBody (.delta d nx) = adel d.key nx.flatBody := by
        simp [Chain.flatBody, ht]
      unfold dcSearchForMerge
      simp only [ht]
      split
      · exact Or.inl rfl
      · next hk =>
        split
        · exact Or.inl rfl
        · have hkin' : kf = false → KeyIn low nx key → KeyIn low (.delta d nx) key := by
            rintro hkf ⟨e1, e2⟩
            refine ⟨?_, e2⟩
            rw [hf, alook_adel]
            have : d.key ≠ key := by
              intro e
              apply hk
              simp [hkf, sameKey_iff.2 e]
            rw [if_neg this]; exact e1
          rcases ih h'.next smo kf sf hsmo with e | ⟨e, e'⟩ | ⟨e, e'⟩ | ⟨n, a, b, e1, e2, e3, e4⟩
          · exact Or.inl e
          · right; left
            refine ⟨e, ?_⟩
            rcases e' with e' | e'
            · exact Or.inl e'
            · cases hkf : kf
              · exact Or.inr (hkin' hkf e')
              · exact Or.inl rfl
          · exact Or.inr (Or.inr (Or.inl ⟨e, e'⟩))
          · right; right; right
            cases hkf : kf
            · refine ⟨n, a, b, by rw [← hkf]; exact e1, e2, ?_, fun x y => hkin' hkf (e4 x y)⟩
              intro ha
              rcases e3 ha with e' | e'
              · rw [hkf] at e'; cases e'
              · exact Or.inr (hkin' hkf e')
            · -- the flag never goes back
              refine ⟨n, a, b, by rw [← hkf]; exact e1, e2, fun _ => Or.inl rfl, ?_⟩
              intro ha
              exfalso
              have hmono : ∀ (c : Chain K V) (smo sf : Bool) (n : Node K V) (a b : Bool),
                  dcSearchForMerge key sib smo true sf c = .base n a b → a = true := by
                intro c
                induction c with
                | base n =>
                  intro smo sf m a b e
                  simp [dcSearchForMerge] at e
                  exact e.2.1
                | removed l => intro smo sf m a b e; simp [dcSearchForMerge] at e
                | delta d nx ih =>
                  intro smo sf m a b e
                  unfold dcSearchForMerge at e
                  cases ht : d.ty <;> simp only [ht] at e
                  · simp at e
                    split at e
                    · cases e
                    · exact ih _ _ _ _ _ e
                  · cases e
                  · simp at e
                    split at e
                    · cases e
                    · exact ih _ _ _ _ _ e
                  · split at e
                    · split at e
                      · simp at e; exact e.2.1
                      · cases e
                    · split at e
                      · cases e
                      · exact ih _ _ _ _ _ e
              rw [hkf] at e1
              have := hmono nx smo sf n a b e1
              rw [this] at ha; cases ha
    · -- merge
      have hm := ht
      rw [ht] at h4
      obtain ⟨hh, n, hn, hin, hlo, hhi, hwf⟩ := h4
      have hhigh : (Chain.delta d nx).high = d.high := by simp [Chain.high, hm]
      have hnext : (Chain.delta d nx).nextPid = n.next := by simp [Chain.nextPid, hm, hn]
      have hf : Chain.flatBody (.delta d nx) = nx.flatBody ++ n.recs := by
        simp [Chain.flatBody, hm, hn]
      have hkin' : KeyIn low nx key → KeyIn low (.delta d nx) key := by
        rintro ⟨e1, e2⟩
        refine ⟨?_, e2⟩
        rw [hf, alook_append]
        cases e : alook nx.flatBody key
        · exact absurd e e1
        · simp
      rw [hhigh] at hsmo
      rw [hhigh, hnext]
      unfold dcSearchForMerge
      simp only [ht]
      split
      · next hle =>
        have hle : d.key ≤ key := by simpa using lowKeyIsLE_iff.1 hle
        simp only [hn]
        split
        · next hc =>
          simp only [Bool.and_eq_true, Bool.not_eq_true'] at hc
          right; right; left
          refine ⟨rfl, ?_⟩
          intro e
          have := highKeyIsGE_false_iff.2 e
          rw [this] at hc; cases hc.2
        · right; right; right
          refine ⟨n, kf, sf, rfl, hwf, fun e => Or.inl e, ?_⟩
          intro hkf hal
          refine ⟨?_, ?_⟩
          · rw [hf, alook_append]
            rw [Node.body_of_low hlo] at hal
            cases alook nx.flatBody key
            · simpa using hal
            · simp
          · intro l hl
            have := h'.next.nonempty l _ hl hh
            simp; order
      · next hle =>
        have hlt : key < d.key := by
          rcases lt_or_ge key d.key with e | e
          · exact e
          · exact absurd (lowKeyIsLE_iff.2 (by simpa using e)) hle
        have hkn : HighOK nx.high key true := by
          intro b hb; rw [hh] at hb; cases hb; simpa using hlt
        split
        · next hc =>
          simp only [Bool.and_eq_true] at hc
          right; left
          exact ⟨rfl, Or.inl hc.2⟩
        · rcases ih h'.next true kf (sf || sameKeyOpt d.key sib) (fun _ _ => hkn) with
            e | ⟨e, e'⟩ | ⟨e, e'⟩ | ⟨n, a, b, e1, e2, e3, e4⟩
          · exact Or.inl e
          · right; left
            refine ⟨e, ?_⟩
            rcases e' with e' | e'
            · exact Or.inl e'
            · exact Or.inr (hkin' e')
          · exact absurd hkn e'
          · right; right; right
            refine ⟨n, a, b, e1, e2, ?_, fun x y => hkin' (e4 x y)⟩
            intro ha
            rcases e3 ha with e' | e'
            · exact Or.inl e'
            · exact Or.inr (hkin' e')

end BwTree
