import Verif.Bytes.SoloSim

/-!
# The abstract map on strings (proof side)
-/

namespace BwTree.Bytes

open Layout (Mem BBound Enc)

set_option linter.unusedSectionVars false

variable {K V : Type} [LinearOrder K] {e : Enc K V} {lt : Str → Str → Bool}

/-- `M` is the map `m` on bytes. -/
structure MapI (e : Enc K V) (m : K → Option V) (M : Str → Option Str) : Prop where
  get : ∀ k, M (e.key k) = (m k).map e.val
  out : ∀ s, (∀ k, s ≠ e.key k) → M s = none

theorem MapI.set {m : K → Option V} {M : Str → Option Str} (h : MapI e m M)
    (hk : Function.Injective e.key) (k : K) (o : Option V) :
    MapI e (Spec.set m k o) (Spec.set M (e.key k) (o.map e.val)) := by
  refine ⟨fun x => ?_, fun s hs => ?_⟩
  · simp only [Spec.set]
    by_cases hx : x = k
    · rw [if_pos hx, if_pos (congrArg _ hx)]
    · rw [if_neg hx, if_neg (fun h => hx (hk h))]; exact h.get x
  · simp only [Spec.set]
    rw [if_neg (hs k)]; exact h.out s hs

theorem MapI.apply {m : K → Option V} {M : Str → Option Str} (h : MapI e m M)
    (hk : Function.Injective e.key) (o : Spec.Op K V) :
    MapI e (Spec.apply m o).1 (Spec.apply M (op e o)).1 ∧
      (Spec.apply M (op e o)).2 = res e (Spec.apply m o).2 := by
  cases o with
  | read k => exact ⟨h, by simp only [op, Spec.apply, res, h.get]⟩
  | write k v => exact ⟨h.set hk k (some v), rfl⟩
  | insert k v =>
    simp only [op, Spec.apply, h.get]
    cases m k with
    | none => exact ⟨h.set hk k (some v), rfl⟩
    | some w => exact ⟨h, rfl⟩
  | update k v =>
    simp only [op, Spec.apply, h.get]
    cases m k with
    | none => exact ⟨h, rfl⟩
    | some w => exact ⟨h.set hk k (some v), rfl⟩
  | delete k =>
    simp only [op, Spec.apply, h.get]
    cases m k with
    | none => exact ⟨h, rfl⟩
    | some w => exact ⟨h.set hk k none, rfl⟩

theorem MapI.after {m : K → Option V} {M : Str → Option Str} (h : MapI e m M)
    (hk : Function.Injective e.key) (c : Spec.Call K V) :
    MapI e (Spec.mapAfter m c) (Spec.mapAfter M (call e c)) := by
  cases c with
  | op o => exact (h.apply hk o).1
  | visit b x => exact h

theorem MapI.afterAll {m : K → Option V} {M : Str → Option Str} (h : MapI e m M)
    (hk : Function.Injective e.key) (l : List (Spec.Call K V × Spec.Ret K V)) :
    MapI e (Spec.mapAfterAll m (l.map Prod.fst))
      (Spec.mapAfterAll M ((l.map (callRet e)).map Prod.fst)) := by
  induction l generalizing m M with
  | nil => exact h
  | cons x l ih => exact ih (h.after hk x.1)

/-- Strings in the order of `Comp`. -/
abbrev strLT (lt : Str → Str → Bool) : LT Str := ⟨fun a b => lt a b = true⟩

theorem fromB_enc (hlt : ∀ a b, lt (e.key a) (e.key b) = decide (a < b))
    (hk : Function.Injective e.key) (b : Spec.Bound K) (k : K) :
    @Spec.fromB Str (strLT lt) (e.bound b) (e.key k) ↔ Spec.fromB b k := by
  cases b with
  | none => exact ⟨fun _ _ _ h => (by cases h), fun _ _ _ h => (by cases h)⟩
  | some x =>
    obtain ⟨x, c⟩ := x
    constructor
    · intro h y d hy
      cases hy
      rcases h (e.key x) c rfl with h | ⟨h1, h2⟩
      · have h : lt (e.key x) (e.key k) = true := h
        rw [hlt] at h; exact Or.inl (of_decide_eq_true h)
      · exact Or.inr ⟨h1, hk h2⟩
    · intro h y d hy
      cases hy
      rcases h x c rfl with h | ⟨h1, h2⟩
      · left; show lt (e.key x) (e.key k) = true
        rw [hlt]; exact decide_eq_true h
      · exact Or.inr ⟨h1, congrArg _ h2⟩

theorem toB_enc (hlt : ∀ a b, lt (e.key a) (e.key b) = decide (a < b))
    (hk : Function.Injective e.key) (b : Spec.Bound K) (k : K) :
    @Spec.toB Str (strLT lt) (e.bound b) (e.key k) ↔ Spec.toB b k := by
  cases b with
  | none => exact ⟨fun _ _ _ h => (by cases h), fun _ _ _ h => (by cases h)⟩
  | some x =>
    obtain ⟨x, c⟩ := x
    constructor
    · intro h y d hy
      cases hy
      rcases h (e.key x) c rfl with h | ⟨h1, h2⟩
      · have h : lt (e.key k) (e.key x) = true := h
        rw [hlt] at h; exact Or.inl (of_decide_eq_true h)
      · exact Or.inr ⟨h1, hk h2⟩
    · intro h y d hy
      cases hy
      rcases h x c rfl with h | ⟨h1, h2⟩
      · left; show lt (e.key k) (e.key x) = true
        rw [hlt]; exact decide_eq_true h
      · exact Or.inr ⟨h1, congrArg _ h2⟩

theorem pageOK_enc (hlt : ∀ a b, lt (e.key a) (e.key b) = decide (a < b))
    (hk : Function.Injective e.key) {m : K → Option V}
    {M : Str → Option Str} (hM : MapI e m M)
    {b x : Spec.Bound K} {recs : List (K × V)} {next : Option K} (h : Spec.PageOK m b x recs next) :
    @Spec.PageOK Str Str (strLT lt) M (e.bound b) (e.bound x)
      (recs.map fun y => (e.key y.1, e.val y.2)) (next.map e.key) := by
  have hn : ∀ k, (∀ s, next.map e.key = some s → lt (e.key k) s = true) ↔
      ∀ s, next = some s → k < s := by
    intro k
    cases next with
    | none => exact ⟨fun _ _ h => (by cases h), fun _ _ h => (by cases h)⟩
    | some s =>
      constructor
      · intro h t ht
        cases ht
        have h := h _ rfl
        rw [hlt] at h; exact of_decide_eq_true h
      · intro h t ht
        cases ht
        rw [hlt]; exact decide_eq_true (h s rfl)
  refine @Spec.PageOK.mk Str Str (strLT lt) M _ _ _ _ ?_ ?_ ?_ ?_
  · rw [List.pairwise_map]
    exact h.incr.imp fun h => by
      show lt _ _ = true
      rw [hlt]; exact decide_eq_true h
  · intro k v
    constructor
    · intro hm
      obtain ⟨y, h1, h2⟩ := List.mem_map.mp hm
      obtain ⟨k', v'⟩ := y
      cases h2
      obtain ⟨g1, g2, g3, g4⟩ := (h.mem k' v').mp h1
      exact ⟨by rw [hM.get, g1]; rfl, (fromB_enc hlt hk b k').mpr g2, (toB_enc hlt hk x k').mpr g3,
        (hn k').mpr g4⟩
    · rintro ⟨g1, g2, g3, g4⟩
      by_cases hx : ∃ k', k = e.key k'
      · obtain ⟨k', rfl⟩ := hx
        rw [hM.get] at g1
        obtain ⟨v', g5, rfl⟩ := Option.map_eq_some_iff.mp g1
        exact List.mem_map.mpr ⟨(k', v'), (h.mem k' v').mpr ⟨g5, (fromB_enc hlt hk b k').mp g2,
          (toB_enc hlt hk x k').mp g3, (hn k').mp g4⟩, rfl⟩
      · rw [hM.out k fun k' he => hx ⟨k', he⟩] at g1; cases g1
  · intro s y c hs hy
    cases hnx : next with
    | none => rw [hnx] at hs; cases hs
    | some s' =>
      rw [hnx] at hs
      cases hs
      cases hb : b with
      | none => rw [hb] at hy; cases hy
      | some z =>
        rw [hb] at hy
        cases hy
        rcases h.next_from s' z.1 z.2 hnx hb with g | ⟨g1, g2⟩
        · left; show lt _ _ = true
          rw [hlt]; exact decide_eq_true g
        · exact Or.inr ⟨g1, congrArg _ g2⟩
  · intro s hs
    cases hnx : next with
    | none => rw [hnx] at hs; cases hs
    | some s' =>
      rw [hnx] at hs
      cases hs
      exact (toB_enc hlt hk x s').mpr (h.next_to s' hnx)

theorem step_enc (hlt : ∀ a b, lt (e.key a) (e.key b) = decide (a < b))
    (hk : Function.Injective e.key) {m m' : K → Option V}
    {M : Str → Option Str} (hM : MapI e m M) {c : Spec.Call K V} {r : Spec.Ret K V}
    (h : Spec.Step m c m' r) :
    @Spec.Step Str Str _ (strLT lt) M (call e c) (Spec.mapAfter M (call e c)) (rtn e r) := by
  cases h with
  | op o =>
    have := (hM.apply hk o).2
    show @Spec.Step Str Str _ (strLT lt) M (.op (op e o)) _ (.res (res e _))
    rw [← this]
    exact @Spec.Step.op Str Str _ (strLT lt) M (op e o)
  | visit b x recs next ok =>
    exact @Spec.Step.visit Str Str _ (strLT lt) M _ _ _ _ (pageOK_enc hlt hk hM ok)

theorem meets_enc (hlt : ∀ a b, lt (e.key a) (e.key b) = decide (a < b))
    (hk : Function.Injective e.key) {m : K → Option V}
    {M : Str → Option Str} (hM : MapI e m M) {l : List (Spec.Call K V × Spec.Ret K V)}
    (h : Spec.Meets m l) : @Spec.Meets Str Str _ (strLT lt) M (l.map (callRet e)) := by
  induction l generalizing m M with
  | nil => trivial
  | cons x l ih => exact ⟨step_enc hlt hk hM h.1, ih (hM.after hk x.1) h.2⟩

end BwTree.Bytes
