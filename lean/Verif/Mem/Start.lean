import Verif.Mem.Couple

/-!
# Initial states with addresses (proof side)
-/

namespace BwTree.Mem

open BwTree.Gc (Obj Act Loose)

set_option linter.unusedSectionVars false

variable {K V : Type} [LinearOrder K] {cfg : Cfg K}

/-- An initial state stands for the initial state with chains. -/
theorem PStart.cpl (hc : CfgOK2 cfg) {m : K → Option V} {sh : Sh K V} {P : PSt K V}
    (hi : Init cfg m sh) (h : PStart sh P) :
    ∃ s, Cpl cfg P (Sys.start sh) s ∧ s.m = m ∧ s.ops = fun _ => .idle := by
  obtain ⟨s, h1, h2, h3⟩ := hi.sound hc
  have hsh : s.toSh = sh := h1.sh
  refine ⟨s, ⟨?_, h1, h.root.symm, h.cells.symm, h.npid.symm, h.ncell.symm, ?_, ?_, ?_, ?_⟩, h2, h3⟩
  · refine ⟨h.gc, ?_, ?_, ?_, ?_, ?_, ?_, ?_, ?_, ?_, ?_, ?_, ?_, ?_, ?_, ?_, ?_, ?_⟩
    · intro p x hx
      cases hp : sh.mt p with
      | none => rw [h.none p hp] at hx; cases hx
      | some c =>
        obtain ⟨y, n, a1, a2, a3, a4, a5⟩ := h.slot p c hp
        rw [a1] at hx
        obtain rfl := Option.some.inj hx
        subst a2
        refine ⟨_, hp, ?_, a5⟩
        rw [a4]
        exact .node a3
    · intro p hx
      cases hp : sh.mt p with
      | none => exact hp
      | some c =>
        obtain ⟨y, n, a1, _⟩ := h.slot p c hp
        rw [a1] at hx; cases hx
    · intro t p c x hx; rw [h.fr t] at hx; cases hx
    · intro t ht; exact absurd (h.th t) ht
    · intro t _; exact ⟨h.guard t, h.fr t⟩
    · intro t; rw [h.fr t]; exact List.nodup_nil
    · intro t p m hx; rw [h.fr t] at hx; cases hx
    · intro p r hr; rw [h.rem p] at hr; cases hr
    · intro t p hx; rw [h.fr t] at hx; cases hx
    · intro t; rw [h.fr t]; exact List.nodup_nil
    · intro t u p hx; rw [h.fr t] at hx; cases hx
    · intro p hp
      refine h.none p ?_
      have hp' : s.npid ≤ p := by
        rw [show s.npid = sh.npid from congrArg Sh.npid hsh, ← h.npid]
        exact hp
      have := (h1.inv.p.fresh p (Or.inl hp')).1
      rw [show s.mt = sh.mt from congrArg Sh.mt hsh] at this
      exact this
    · intro w _; exact h.cellAt w
    · intro t p hx; rw [h.fr t] at hx; cases hx
    · intro t; rw [h.fr t]; exact List.nodup_nil
    · intro t u p hx; rw [h.fr t] at hx; cases hx
    · intro o d x w ho hm hw
      exfalso
      cases hl : P.gc.loc o with
      | free => exact ho (Or.inl hl)
      | priv u => exact ho (Or.inr (Or.inl ⟨u, hl⟩))
      | rem u => exact ho (Or.inr (Or.inr ⟨u, hl⟩))
      | pend u => exact (h.calm o).1 u hl
      | retired u => exact (h.calm o).2 u hl
      | pub p =>
        obtain ⟨y, hy, hin⟩ := h.gc.inv.pubIn o p hl
        cases hp : sh.mt p with
        | none => rw [h.none p hp] at hy; cases hy
        | some c =>
          obtain ⟨y', n, a1, a2, a3, a4, a5⟩ := h.slot p c hp
          rw [a1] at hy
          obtain rfl := Option.some.inj hy
          rw [Gc.St.chain, a4, List.mem_singleton] at hin
          rw [hin, a3] at hm
          cases hm
  · funext t; exact (h.th t).symm
  · funext t; exact (h.it t).symm
  · intro t p o x hx; rw [h.fr t] at hx; cases hx
  · intro t c prog ht; rw [h.th t] at ht; cases ht

/-! ## They exist -/

/-- Page `p` is filled with the object `p`. -/
def fill (f : Nat → Bool) : Nat → Gc.St
  | 0 => Gc.init
  | n + 1 => if f n then Gc.eff (Gc.eff (fill f n) (.alloc 0 n)) (.publish 0 n n) else fill f n

theorem fill_spec (f : Nat → Bool) (n : Nat) : Gc.Reachable (fill f n) ∧
    (∀ p, (fill f n).slot p = if p < n ∧ f p then some p else none) ∧
    (∀ p, (fill f n).loc p = if p < n ∧ f p then .pub p else .free) ∧
    (∀ p, (fill f n).below p = [] ∧ (fill f n).isMark p = false) ∧
    (fill f n).rem = (fun _ => none) ∧ (fill f n).guard = fun _ => none := by
  induction n with
  | zero =>
    refine ⟨.init, fun p => ?_, fun p => ?_, fun p => ⟨rfl, rfl⟩, rfl, rfl⟩ <;> simp [fill, Gc.init]
  | succ n ih =>
    obtain ⟨h1, h2, h3, h4, h5, h6⟩ := ih
    rw [fill]
    by_cases hf : f n
    · rw [if_pos hf]
      have hl : (fill f n).loc n = .free := by rw [h3 n]; simp
      have hs : (fill f n).slot n = none := by rw [h2 n]; simp
      have r1 : Gc.Reachable (Gc.eff (fill f n) (.alloc 0 n)) := .step h1 hl
      refine ⟨.step r1 ⟨hs, Gc.set_same _ _ _⟩, fun p => ?_, fun p => ?_, fun p => ?_, h5, h6⟩
      · show Gc.set (fill f n).slot n (some n) p = _
        by_cases e : p = n
        · subst e; rw [Gc.set_same, if_pos ⟨Nat.lt_succ_self _, hf⟩]
        · rw [Gc.set_other _ _ e, h2]
          have : p < n + 1 ↔ p < n :=
            ⟨fun h => (Nat.lt_succ_iff_lt_or_eq.1 h).resolve_right e, Nat.lt_succ_of_lt⟩
          simp only [this]
      · show Gc.set (Gc.set (fill f n).loc n (.priv 0)) n (.pub n) p = _
        by_cases e : p = n
        · subst e; rw [Gc.set_same, if_pos ⟨Nat.lt_succ_self _, hf⟩]
        · rw [Gc.set_other _ _ e, Gc.set_other _ _ e, h3]
          have : p < n + 1 ↔ p < n :=
            ⟨fun h => (Nat.lt_succ_iff_lt_or_eq.1 h).resolve_right e, Nat.lt_succ_of_lt⟩
          simp only [this]
      · show Gc.set (fill f n).below n [] p = _ ∧ Gc.set (fill f n).isMark n false p = _
        by_cases e : p = n
        · subst e; rw [Gc.set_same, Gc.set_same]; exact ⟨rfl, rfl⟩
        · rw [Gc.set_other _ _ e, Gc.set_other _ _ e]; exact h4 p
    · rw [if_neg hf]
      have key : ∀ p, (p < n + 1 ∧ f p = true) ↔ (p < n ∧ f p = true) := by
        intro p
        by_cases e : p = n
        · subst e; simp [hf]
        · have : p < n + 1 ↔ p < n :=
            ⟨fun h => (Nat.lt_succ_iff_lt_or_eq.1 h).resolve_right e, Nat.lt_succ_of_lt⟩
          rw [this]
      refine ⟨h1, fun p => ?_, fun p => ?_, h4, h5, h6⟩
      · rw [h2]; simp only [key]
      · rw [h3]; simp only [key]

/-- The state with the same contents, page `p` at address `p`. -/
def startAt (sh : Sh K V) : PSt K V where
  root := sh.root
  cells := sh.cells
  cellAt := fun _ => none
  npid := sh.npid
  ncell := sh.ncell
  gc := fill (fun p => (sh.mt p).isSome) sh.npid
  mem := fun o => match sh.mt o with
    | some (.base n) => .node n
    | _ => .mark true
  th := fun _ => .idle
  it := fun _ => none
  fr := fun _ => .empty

theorem Init.base {m : K → Option V} {sh : Sh K V} (h : Init cfg m sh) {p : PID} {c : Chain K V}
    (hp : sh.mt p = some c) : (∃ n, c = .base n) ∧ (p : Nat) < sh.npid := by
  cases h with
  | empty =>
    by_cases e : p = 1
    · subst e
      exact ⟨⟨_, (Option.some.inj hp).symm⟩, Nat.lt_succ_self _⟩
    · have h2 : upd (fun _ => none) 1 (some (Chain.base (emptyLeaf cfg))) p = some c := hp
      rw [upd_ne _ _ e] at h2; cases h2
  | @bulk ids threads es T root npid fix inj fresh ne sorted run bound =>
    have hp' : (T p).map Chain.base = some c := hp
    cases hT : T p with
    | none => rw [hT] at hp'; cases hp'
    | some n =>
      rw [hT] at hp'
      exact ⟨⟨n, (Option.some.inj hp').symm⟩, bound p n hT⟩

/-- Every initial state with chains has one with addresses. -/
theorem Init.start {m : K → Option V} {sh : Sh K V} (h : Init cfg m sh) :
    PStart sh (startAt sh) := by
  obtain ⟨f1, f2, f3, f4, f5, f6⟩ := fill_spec (fun p => (sh.mt p).isSome) sh.npid
  refine ⟨rfl, rfl, fun _ => rfl, rfl, rfl, fun _ => rfl, fun _ => rfl, fun _ => rfl, f1, ?_, ?_, ?_,
    ?_, ?_⟩
  · intro t; exact congrFun f6 t
  · intro p; exact congrFun f5 p
  · intro o
    constructor <;> intro t ht <;> rw [startAt, f3] at ht <;> split at ht <;> cases ht
  · intro p hp
    rw [startAt, f2, hp]
    simp
  · intro p c hp
    obtain ⟨⟨n, rfl⟩, hlt⟩ := Init.base h hp
    refine ⟨p, n, ?_, rfl, ?_, (f4 p).1, (f4 p).2⟩
    · rw [startAt, f2, if_pos]
      rw [hp]
      exact ⟨hlt, rfl⟩
    · show (match sh.mt p with | some (.base n) => Rec.node n | _ => .mark true) = _
      rw [hp]

end BwTree.Mem
