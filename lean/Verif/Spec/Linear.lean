import Verif.Spec.Map

/-!
# Linearizability with explicit instants (specification)

A history is linearizable if its completed calls can be assigned effects, listed in the order in
which they happen, such that every effect lies between the invocation and the response of its call
and the effects executed one after the other on the map yield the observed results.
-/

namespace BwTree.Spec

set_option linter.unusedSectionVars false

variable {K V : Type} [DecidableEq K]

/-- The thread of an event. -/
def Event.thread : Event K V → Nat
  | .inv t _ => t
  | .ret t _ _ => t

/-- An effect: the call, its result, the number of visible events before it, and the map before and
after it. -/
structure Eff (K V : Type) where
  t : Nat
  call : Call K V
  ret : Ret K V
  pos : Nat
  pre : K → Option V
  post : K → Option V

/-- The effects are executed one after the other. -/
def Chained [LT K] (m : K → Option V) : List (Eff K V) → Prop
  | [] => True
  | e :: es => e.pre = m ∧ Step m e.call e.post e.ret ∧ Chained e.post es

/-- Thread `t` has no event strictly between the positions `i` and `j`. -/
def Quiet (h : List (Event K V)) (t i j : Nat) : Prop :=
  ∀ x e, i < x → x < j → h[x]? = some e → e.thread ≠ t

/-- `log` linearizes the history `h` of calls on a map that is initially `m`. -/
structure Linearizes [LT K] (m : K → Option V) (h : List (Event K V)) (log : List (Eff K V)) :
    Prop where
  chain : Chained m log
  order : log.Pairwise (fun a b => a.pos ≤ b.pos)
  /-- every effect belongs to a call in progress -/
  call : ∀ e ∈ log, ∃ i, i < e.pos ∧ e.pos ≤ h.length ∧ h[i]? = some (.inv e.t e.call) ∧
    Quiet h e.t i e.pos
  /-- a call has at most one effect -/
  once : log.Pairwise (fun a b => a.t = b.t →
    ∃ j, a.pos ≤ j ∧ j < b.pos ∧ h[j]? = some (.ret a.t a.call a.ret))
  /-- every call that returned had its effect, with the result it returned -/
  ret : ∀ j t c r, h[j]? = some (.ret t c r) → ∃ e ∈ log, e.t = t ∧ e.call = c ∧ e.ret = r ∧
    ∃ i, i < e.pos ∧ e.pos ≤ j ∧ h[i]? = some (.inv t c) ∧ Quiet h t i j

/-! ## The atomic map admits only linearizable histories -/

section
variable [LT K] {m : K → Option V} {h : List (Event K V)} {log : List (Eff K V)} {t : Nat}

theorem get_append {h : List (Event K V)} {e : Event K V} {x : Nat} {y : Event K V}
    (hx : h[x]? = some y) : (h ++ [e])[x]? = some y := by
  have hl : x < h.length := (List.getElem?_eq_some_iff.mp hx).1
  rw [List.getElem?_append_left hl]; exact hx

theorem get_append_inv {h : List (Event K V)} {e : Event K V} {x : Nat} {y : Event K V}
    (hx : (h ++ [e])[x]? = some y) : h[x]? = some y ∨ (x = h.length ∧ y = e) := by
  by_cases hl : x < h.length
  · rw [List.getElem?_append_left hl] at hx; exact Or.inl hx
  · have : x < (h ++ [e]).length := (List.getElem?_eq_some_iff.mp hx).1
    rw [List.length_append, List.length_singleton] at this
    have hx' : x = h.length := by omega
    subst hx'
    rw [List.getElem?_append_right (Nat.le_refl _)] at hx
    simp at hx
    exact Or.inr ⟨rfl, hx.symm⟩

theorem Quiet.append {i j : Nat} {e : Event K V} (hq : Quiet h t i j) (hj : j ≤ h.length) :
    Quiet (h ++ [e]) t i j := by
  intro x y h1 h2 h3
  rcases get_append_inv h3 with h3 | ⟨h3, _⟩
  · exact hq x y h1 h2 h3
  · omega

theorem Quiet.append' {i : Nat} {e : Event K V} (hq : Quiet h t i h.length) (he : e.thread ≠ t) :
    Quiet (h ++ [e]) t i (h ++ [e]).length := by
  intro x y h1 _ h3
  rcases get_append_inv h3 with h3 | ⟨_, h4⟩
  · exact hq x y h1 (List.getElem?_eq_some_iff.mp h3).1 h3
  · rw [h4]; exact he

/-- The effect of a call that already returned. -/
def Settled (h : List (Event K V)) (a : Eff K V) : Prop :=
  ∃ j, a.pos ≤ j ∧ h[j]? = some (.ret a.t a.call a.ret)

/-- What the state of a thread says about history and effects. -/
def ThInv (h : List (Event K V)) (log : List (Eff K V)) (t : Nat) : OpSt K V → Prop
  | .idle => ∀ a ∈ log, a.t = t → Settled h a
  | .pending c => (∀ a ∈ log, a.t = t → Settled h a) ∧
      ∃ i, h[i]? = some (.inv t c) ∧ Quiet h t i h.length
  | .done c r => (∀ a ∈ log, a.t = t → Settled h a ∨ (a.call = c ∧ a.ret = r)) ∧
      ∃ e ∈ log, e.t = t ∧ e.call = c ∧ e.ret = r ∧
        ∃ i, i < e.pos ∧ h[i]? = some (.inv t c) ∧ Quiet h t i h.length

theorem Settled.append {a : Eff K V} (ha : Settled h a) (e : Event K V) : Settled (h ++ [e]) a := by
  obtain ⟨j, h1, h2⟩ := ha
  exact ⟨j, h1, get_append h2⟩

theorem ThInv.append {x : OpSt K V} {e : Event K V} (hi : ThInv h log t x) (he : e.thread ≠ t) :
    ThInv (h ++ [e]) log t x := by
  cases x with
  | idle => exact fun a ha hat => (hi a ha hat).append e
  | pending c =>
    obtain ⟨h1, i, h2, h3⟩ := hi
    exact ⟨fun a ha hat => (h1 a ha hat).append e, i, get_append h2, h3.append' he⟩
  | done c r =>
    obtain ⟨h1, y, hy, h2, h3, h4, i, h5, h6, h7⟩ := hi
    exact ⟨fun a ha hat => (h1 a ha hat).imp (·.append e) id, y, hy, h2, h3, h4, i, h5,
      get_append h6, h7.append' he⟩

theorem Linearizes.append (hl : Linearizes m h log) {e : Event K V}
    (hr : ∀ t c r, e = .ret t c r → ThInv h log t (.done c r)) : Linearizes m (h ++ [e]) log := by
  refine ⟨hl.chain, hl.order, ?_, ?_, ?_⟩
  · intro a ha
    obtain ⟨i, h1, h2, h3, h4⟩ := hl.call a ha
    refine ⟨i, h1, ?_, get_append h3, h4.append h2⟩
    rw [List.length_append]; omega
  · refine hl.once.imp ?_
    intro a b hab hat
    obtain ⟨j, h1, h2, h3⟩ := hab hat
    exact ⟨j, h1, h2, get_append h3⟩
  · intro j t c r hj
    rcases get_append_inv hj with hj | ⟨hj, he⟩
    · obtain ⟨x, hx, h1, h2, h3, i, h4, h5, h6, h7⟩ := hl.ret j t c r hj
      refine ⟨x, hx, h1, h2, h3, i, h4, h5, get_append h6, h7.append ?_⟩
      have := (List.getElem?_eq_some_iff.mp hj).1
      omega
    · obtain ⟨_, x, hx, h1, h2, h3, i, h4, h5, h6⟩ := hr t c r he.symm
      obtain ⟨_, _, h7, _⟩ := hl.call x hx
      subst hj
      exact ⟨x, hx, h1, h2, h3, i, h4, h7, get_append h5, h6.append (Nat.le_refl _)⟩

theorem Chained.snoc {e : Eff K V} : ∀ {m : K → Option V} {log : List (Eff K V)},
    Chained m log → (∀ m', m' = (log.getLast?.map Eff.post).getD m → e.pre = m' ∧ Step m' e.call e.post e.ret) →
    Chained m (log ++ [e])
  | m, [], _, he => ⟨(he m rfl).1, (he m rfl).2, trivial⟩
  | m, a :: log, hc, he => by
    refine ⟨hc.1, hc.2.1, Chained.snoc hc.2.2 ?_⟩
    intro m' hm'
    apply he
    rw [hm']
    cases log with
    | nil => rfl
    | cons b l => rw [List.getLast?_cons_cons]; cases hg : (b :: l).getLast? with
      | none => rw [List.getLast?_eq_none_iff] at hg; cases hg
      | some z => rfl

/-- Invariant along a run of the atomic map. -/
structure Good (m : K → Option V) (h : List (Event K V)) (log : List (Eff K V)) (b : AMap K V) :
    Prop where
  lin : Linearizes m h log
  last : b.m = (log.getLast?.map Eff.post).getD m
  th : ∀ t, ThInv h log t (b.ops t)

theorem Accepts.linearizable {a b : AMap K V} {h : List (Event K V)} (ha : Accepts a h b)
    (hidle : ∀ t, a.ops t = .idle) : ∃ log, Good a.m h log b := by
  induction ha with
  | nil =>
    refine ⟨[], ⟨trivial, .nil, fun _ h => by simp at h, .nil, fun j t c r h => by simp at h⟩,
      rfl, fun t => ?_⟩
    rw [hidle t]; exact fun _ h => by simp at h
  | @inv b h t c _ hb ih =>
    obtain ⟨log, g⟩ := ih
    refine ⟨log, g.lin.append (by intro _ _ _ e; cases e), g.last, fun u => ?_⟩
    have hu := g.th u
    by_cases e : u = t
    · subst e
      simp only [setOp, if_true]
      rw [hb] at hu
      refine ⟨fun a ha hat => (hu a ha hat).append _, h.length, by simp, ?_⟩
      intro x y h1 h2 h3
      rw [List.length_append, List.length_singleton] at h2
      omega
    · simp only [setOp, e, if_false]
      exact hu.append (fun h => e h.symm)
  | @lin b h t c m' r _ hb hs ih =>
    obtain ⟨log, g⟩ := ih
    have ht := g.th t
    rw [hb] at ht
    obtain ⟨hset, i, hi1, hi2⟩ := ht
    have hil : i < h.length := (List.getElem?_eq_some_iff.mp hi1).1
    refine ⟨log ++ [⟨t, c, r, h.length, b.m, m'⟩], ⟨?_, ?_, ?_, ?_, ?_⟩, ?_, fun u => ?_⟩
    · refine g.lin.chain.snoc ?_
      intro m0 hm0
      rw [← g.last] at hm0
      subst hm0
      exact ⟨rfl, hs⟩
    · rw [List.pairwise_append]
      refine ⟨g.lin.order, List.pairwise_singleton _ _, ?_⟩
      intro x hx y hy
      rw [List.mem_singleton] at hy; subst hy
      obtain ⟨_, _, h7, _⟩ := g.lin.call x hx
      exact h7
    · intro e he
      rcases List.mem_append.mp he with he | he
      · exact g.lin.call e he
      · rw [List.mem_singleton] at he; subst he
        exact ⟨i, hil, Nat.le_refl _, hi1, hi2⟩
    · rw [List.pairwise_append]
      refine ⟨g.lin.once, List.pairwise_singleton _ _, ?_⟩
      intro x hx y hy hxy
      rw [List.mem_singleton] at hy; subst hy
      obtain ⟨j, h1, h2⟩ := hset x hx hxy
      exact ⟨j, h1, (List.getElem?_eq_some_iff.mp h2).1, h2⟩
    · intro j u d q hj
      obtain ⟨x, hx, h1⟩ := g.lin.ret j u d q hj
      exact ⟨x, List.mem_append_left _ hx, h1⟩
    · simp
    · have hu := g.th u
      by_cases e : u = t
      · subst e
        simp only [setOp, if_true]
        refine ⟨?_, _, List.mem_append_right _ (List.mem_singleton.mpr rfl), rfl, rfl, rfl, i, hil,
          hi1, hi2⟩
        intro x hx hxt
        rcases List.mem_append.mp hx with hx | hx
        · exact Or.inl (hset x hx hxt)
        · rw [List.mem_singleton] at hx; subst hx
          exact Or.inr ⟨rfl, rfl⟩
      · simp only [setOp, e, if_false]
        have hne : ∀ x ∈ log ++ [(⟨t, c, r, h.length, b.m, m'⟩ : Eff K V)], x.t = u → x ∈ log := by
          intro x hx hxt
          rcases List.mem_append.mp hx with hx | hx
          · exact hx
          · rw [List.mem_singleton] at hx; subst hx
            exact absurd hxt.symm e
        cases hx : b.ops u with
        | idle => rw [hx] at hu; exact fun a ha hat => hu a (hne a ha hat) hat
        | pending d => rw [hx] at hu; exact ⟨fun a ha hat => hu.1 a (hne a ha hat) hat, hu.2⟩
        | done d q =>
          rw [hx] at hu
          obtain ⟨h1, y, hy, h2⟩ := hu
          exact ⟨fun a ha hat => h1 a (hne a ha hat) hat, y, List.mem_append_left _ hy, h2⟩
  | @ret b h t c r _ hb ih =>
    obtain ⟨log, g⟩ := ih
    have ht := g.th t
    rw [hb] at ht
    refine ⟨log, g.lin.append (by intro _ _ _ e; cases e; exact ht), g.last, fun u => ?_⟩
    have hu := g.th u
    by_cases e : u = t
    · subst e
      simp only [setOp, if_true]
      intro x hx hxt
      rcases ht.1 x hx hxt with h1 | ⟨h1, h2⟩
      · exact h1.append _
      · obtain ⟨_, _, h7, _⟩ := g.lin.call x hx
        refine ⟨h.length, h7, ?_⟩
        rw [hxt, h1, h2]; simp
    · simp only [setOp, e, if_false]
      exact hu.append (fun h => e h.symm)

end

end BwTree.Spec
