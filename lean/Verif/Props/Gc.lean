import Verif.Gc.Inv

/-!
# Memory reclamation (C36-C39, C53)

The theorems speak about the protocol of `Verif/Gc/Model.lean`: every place of the code at which
pointers enter or leave the mapping table or reach the garbage collector, in any order.
-/

namespace BwTree.Props

open BwTree.Gc

/-! ## C36: memory reachable by a guarded call -/

/-- As long as a thread holds its guard, nothing it can reach from a pointer it has loaded since (`h`
and the objects `l` reached from `h` at that time) is freed or allocated again. -/
theorem C36_guarded_memory_partial {s : St} (hr : Reachable s) {t g : Nat}
    (hg : s.guard t = some g) {h : Obj} {l : List Obj} (hh : (h, l) ∈ s.held t) :
    ∀ o ∈ h :: l, s.loc o ≠ .free ∧ ∀ u, s.loc o ≠ .priv u := by
  intro o ho
  obtain ⟨h1, h2⟩ := hr.inv.held t g hg (h, l) hh
  simp only at h1 h2
  have := h2 o (by rw [St.chain, h1]; exact ho)
  rcases this with ⟨_, e⟩ | ⟨_, e⟩ | ⟨_, e, _⟩ <;> rw [e] <;> simp

/-! ## C53: comparing addresses is enough -/

/-- When a CAS of a guarded thread succeeds on a page, i.e. the slot holds the address `h` that the
thread has loaded earlier, everything reached from `h` is what it was then. -/
theorem C53_no_aba_partial {s : St} (hr : Reachable s) {t g : Nat} (hg : s.guard t = some g)
    {h : Obj} {l : List Obj} (hh : (h, l) ∈ s.held t) {p : Nat} (_hs : s.slot p = some h) :
    s.below h = l := (hr.inv.held t g hg (h, l) hh).1

/-! ## C38: retired at most once, and not in the table -/

/-- What is passed to the garbage collector has not been passed to it before (since it was
allocated), and is not reachable from the mapping table. -/
theorem C38_retired_once_partial {s : St} (hr : Reachable s) {t : Nat} {o : Obj}
    (hp : Pre s (.retire t o)) :
    s.cnt o = 0 ∧ ∀ p h, s.slot p = some h → o ∉ s.chain h := by
  have ho : s.loc o = .pend t := (hr.inv.todo t o).1 hp
  refine ⟨hr.inv.cnt0 o (by simp [ho]) (by simp [ho]), fun p h hs hm => ?_⟩
  have := hr.inv.pub p h hs o hm
  rw [ho] at this
  cases this

/-- Nothing that has been handed to the garbage collector, and nothing that is free, is reachable
from the mapping table; and no object is in the chains of two pages or twice in one. -/
theorem C38_table_partial {s : St} (hr : Reachable s) {p : Nat} {h : Obj} (hs : s.slot p = some h) :
    (s.chain h).Nodup ∧ ∀ o ∈ s.chain h, s.cnt o = 0 ∧ s.loc o ≠ .free ∧
      (∀ r, s.loc o ≠ .retired r) ∧ ∀ q h', s.slot q = some h' → o ∈ s.chain h' → q = p := by
  refine ⟨hr.inv.nodup p h hs, fun o ho => ?_⟩
  have := hr.inv.pub p h hs o ho
  refine ⟨hr.inv.cnt0 o (by simp [this]) (by simp [this]), by simp [this], by simp [this], ?_⟩
  intro q h' hs' ho'
  have h2 := hr.inv.pub q h' hs' o ho'
  rw [this] at h2
  cases h2
  rfl

/-- Nothing is lost: what has been taken out of the table is handed to the garbage collector before
the call ends.  (An object that is allocated and not yet retired is private, in the table, waiting
in a call that has not ended, or the node of a removal of such a call.) -/
theorem C38_no_leak_partial {s : St} (hr : Reachable s) (o : Obj) :
    s.loc o = .free ∨ (∃ r, s.loc o = .retired r) ∨ (∃ t, s.loc o = .priv t) ∨
    (∃ p h, s.slot p = some h ∧ o ∈ s.chain h) ∨ (∃ t, o ∈ s.todo t) ∨
    ∃ p r, s.rem p = some r ∧ r.node = o ∧ s.guard r.t ≠ none := by
  cases h : s.loc o with
  | free => exact Or.inl rfl
  | priv t => exact Or.inr (Or.inr (Or.inl ⟨t, rfl⟩))
  | pub p =>
    obtain ⟨x, h1, h2⟩ := hr.inv.pubIn o p h
    exact Or.inr (Or.inr (Or.inr (Or.inl ⟨p, x, h1, h2⟩)))
  | pend t => exact Or.inr (Or.inr (Or.inr (Or.inr (Or.inl ⟨t, (hr.inv.todo t o).2 h⟩))))
  | rem p =>
    obtain ⟨r, h1, h2⟩ := hr.inv.remIn o p h
    exact Or.inr (Or.inr (Or.inr (Or.inr (Or.inr ⟨p, r, h1, h2, hr.inv.remGuard p r h1⟩))))
  | retired r => exact Or.inr (Or.inl ⟨r, rfl⟩)

/-! ## C39: unpublished objects -/

/-- An object a thread may put back into its cache or release is not in the table, not reachable for
any guarded thread, and not waiting for the collector; and it was private in every earlier state since
its allocation. -/
theorem C39_unpublished_partial {s : St} (hr : Reachable s) {t : Nat} {o : Obj}
    (ho : s.loc o = .priv t) :
    (∀ p h, s.slot p = some h → o ∉ s.chain h) ∧
    (∀ u g h l, s.guard u = some g → (h, l) ∈ s.held u → o ∉ h :: l) ∧ ∀ u, o ∉ s.todo u := by
  refine ⟨fun p h hs hm => ?_, fun u g h l hg hh hm => ?_, fun u hm => ?_⟩
  · have := hr.inv.pub p h hs o hm
    rw [ho] at this
    cases this
  · exact (C36_guarded_memory_partial hr hg hh o hm).2 t ho
  · have := (hr.inv.todo u o).1 hm
    rw [ho] at this
    cases this

theorem C39_stays_private_partial {s : St} {a : Act} (ha : Pre s a) {t : Nat}
    {o : Obj} (ho : (eff s a).loc o = .priv t) :
    s.loc o = .priv t ∨ (s.loc o = .free ∧ a = .alloc t o) := by
  have aux : ∀ (f : Obj → Loc) (i : Obj) (x : Loc), (∀ u, x ≠ .priv u) → Gc.set f i x o = .priv t →
      f o = .priv t := by
    intro f i x hx h
    by_cases e : o = i
    · subst e
      rw [set_same] at h
      exact absurd h (hx t)
    · rwa [set_other _ _ e] at h
  have aux2 : ∀ (f : Obj → Loc) (l : List Obj) (x : Loc), (∀ u, x ≠ .priv u) →
      move f l x o = .priv t → f o = .priv t := by
    intro f l x hx h
    by_cases e : o ∈ l
    · rw [move_in e] at h
      exact absurd h (hx t)
    · rwa [move_out e] at h
  cases a with
  | enter u => exact Or.inl ho
  | leave u => exact Or.inl ho
  | alloc u x =>
    by_cases e : o = x
    · subst e
      have : Loc.priv u = .priv t := (set_same s.loc o _).symm.trans ho
      cases this
      exact Or.inr ⟨ha, rfl⟩
    · exact Or.inl ((set_other s.loc _ e).symm.trans ho)
  | release u x => exact Or.inl (aux _ _ _ (by simp) ho)
  | load u p =>
    refine Or.inl ?_
    simp only [eff] at ho
    split at ho <;> exact ho
  | push u p x h => exact Or.inl (aux _ _ _ (by simp) ho)
  | replace u p n h => exact Or.inl (aux2 _ _ _ (by simp) (aux _ _ _ (by simp) ho))
  | publish u p n => exact Or.inl (aux _ _ _ (by simp) ho)
  | mark u p m n h =>
    exact Or.inl (aux2 _ _ _ (by simp) (aux _ _ _ (by simp) (aux _ _ _ (by simp) ho)))
  | restore u p m n => exact Or.inl (aux _ _ _ (by simp) (aux _ _ _ (by simp) ho))
  | merge u p m n q d h => exact Or.inl (aux _ _ _ (by simp) (aux _ _ _ (by simp) ho))
  | dropRoot u p m n => exact Or.inl (aux _ _ _ (by simp) ho)
  | retire u x => exact Or.inl (aux _ _ _ (by simp) ho)
  | free x => exact Or.inl (aux _ _ _ (by simp) ho)

/-! ## Examples, and C37 -/

/-- A run; thread numbers 0, 1, 2. -/
def gcRun : List Act → St
  | [] => Gc.init
  | a :: l => eff (gcRun l) a

/-- The root page 1 is created with node 10.  Thread 1 has returned from `Scan` and calls
`HasRecord`: it loads page 1 without a guard.  Thread 0 puts the delta 11 on the page, replaces the
chain by node 12 and retires 11 and 10, and ends its call. -/
def exUnguarded : List Act :=
  [.retire 0 10, .retire 0 11, .replace 0 1 12 11, .alloc 0 12, .push 0 1 11 10, .alloc 0 11,
   .load 0 1, .enter 0, .load 1 1, .publish 2 1 10, .alloc 2 10]

theorem exUnguarded_reachable : Reachable (gcRun exUnguarded) := by
  refine .step (.step (.step (.step (.step (.step (.step (.step (.step (.step (.step .init
    ?_) ?_) ?_) ?_) ?_) ?_) ?_) ?_) ?_) ?_) ?_
  all_goals simp [Pre, gcRun, eff, Gc.init, Gc.set, move, St.chain]

/-- C37 does not hold: there is a reachable state in which a thread without guard holds a pointer
that it has loaded from the mapping table (`SiblingScan` and `CollectStatisticalData` take no
guard: `bw_tree.hpp` 1124-1141, 561-572, 718-758), and the object it points to has been freed. -/
theorem C37_false : ∃ s : St, Reachable s ∧ ∃ (t : Nat) (h : Obj) (l : List Obj),
    s.guard t = none ∧ (h, l) ∈ s.held t ∧ s.loc h = .free := by
  refine ⟨eff (eff (gcRun exUnguarded) (.leave 0)) (.free 10),
    .step (.step exUnguarded_reachable ?_) ?_, 1, 10, [], ?_⟩
  · simp [Pre, exUnguarded, gcRun, eff, Gc.init, Gc.set, move, St.chain]
  · refine ⟨1, ?_, ?_⟩
    · simp [exUnguarded, gcRun, eff, Gc.init, Gc.set, move, St.chain]
    · intro t g
      simp only [exUnguarded, gcRun, eff, Gc.init, Gc.set]
      by_cases e : t = 0 <;> simp [e, Gc.set]
  · simp [exUnguarded, gcRun, eff, Gc.init, Gc.set, move, St.chain]

/-- A guarded thread in the same situation: the object is retired and cannot be freed. -/
example : ∃ s : St, Reachable s ∧ s.guard 0 = some 0 ∧ ((10 : Obj), []) ∈ s.held 0 ∧
    s.loc 10 = .retired 1 ∧ ¬ Pre s (.free 10) := by
  refine ⟨gcRun exUnguarded, exUnguarded_reachable, ?_, ?_, ?_, ?_⟩
  · simp [exUnguarded, gcRun, eff, Gc.init, Gc.set]
  · simp [exUnguarded, gcRun, eff, Gc.init, Gc.set]
  · simp [exUnguarded, gcRun, eff, Gc.init, Gc.set, move, St.chain]
  · rintro ⟨r, _, h2⟩
    have := h2 0 0 (by simp [exUnguarded, gcRun, eff, Gc.init, Gc.set])
    exact absurd this (Nat.not_lt_zero r)

/-- A merge: page 2 (node 20) is marked with 21, its node 22 is merged into page 1 (node 10) by the
delta 23. -/
def exGcMerge : List Act :=
  [.merge 0 2 21 22 1 23 10, .alloc 0 23, .load 0 1, .mark 0 2 21 22 20, .alloc 0 22, .alloc 0 21,
   .load 0 2, .enter 0, .publish 2 2 20, .alloc 2 20, .publish 2 1 10, .alloc 2 10]

example : Reachable (gcRun exGcMerge) ∧ (gcRun exGcMerge).slot 1 = some 23 ∧
    (gcRun exGcMerge).chain 23 = [23, 22, 10] ∧ (gcRun exGcMerge).slot 2 = some 21 ∧
    (gcRun exGcMerge).todo 0 = [20] := by
  refine ⟨?_, ?_, ?_, ?_, ?_⟩
  · refine .step (.step (.step (.step (.step (.step (.step (.step (.step (.step (.step (.step .init
      ?_) ?_) ?_) ?_) ?_) ?_) ?_) ?_) ?_) ?_) ?_) ?_
    all_goals simp [Pre, gcRun, eff, Gc.init, Gc.set, move, St.chain]
  all_goals simp [exGcMerge, gcRun, eff, Gc.init, Gc.set, St.chain]

end BwTree.Props
