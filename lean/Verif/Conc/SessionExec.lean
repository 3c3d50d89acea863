import Verif.Conc.Exec
import Verif.Conc.Session

/-!
# Concrete sessions (used by examples)

An interpreter for the calls of one thread, proved to produce sessions.
-/

namespace BwTree
set_option linter.unusedSectionVars false

variable {K V : Type} [LinearOrder K] [DecidableEq V] {cfg : Cfg K}

theorem aexec_firm {α : Type} {s s' : Sh K V} {p p' : Prog K V α}
    (h : aexec true s p = some (s', p')) : Firm s p s' p' := by
  refine .mk (aexec_sound h) ?_
  rintro q o n k rfl hm
  simp only [aexec, Bool.true_and, hm, decide_true, if_true, Option.some.injEq,
    Prod.mk.injEq] at h
  exact ⟨h.1.symm, h.2.symm⟩

/-- Runs a program to its end, in at most `n` steps. -/
def firmExec {α : Type} : Nat → Sh K V → Prog K V α → Option (Sh K V × α)
  | _, s, .ret a => some (s, a)
  | 0, _, _ => none
  | n + 1, s, p => match aexec true s p with
    | none => none
    | some (s', p') => firmExec n s' p'

theorem firmExec_sound {α : Type} {s' : Sh K V} {a : α} : ∀ {n : Nat} {s : Sh K V}
    {p : Prog K V α}, firmExec n s p = some (s', a) → ∃ n', FirmRun n' s p s' (.ret a) := by
  intro n
  induction n with
  | zero =>
    intro s p h
    cases p with
    | ret b => simp only [firmExec, Option.some.injEq, Prod.mk.injEq] at h
               obtain ⟨rfl, rfl⟩ := h
               exact ⟨0, .refl _ _⟩
    | _ => simp [firmExec] at h
  | succ n ih =>
    intro s p h
    by_cases hp : ∃ b, p = .ret b
    · obtain ⟨b, rfl⟩ := hp
      simp only [firmExec, Option.some.injEq, Prod.mk.injEq] at h
      obtain ⟨rfl, rfl⟩ := h
      exact ⟨0, .refl _ _⟩
    · rw [firmExec] at h
      · split at h
        · cases h
        · rename_i s1 p1 h1
          obtain ⟨n', h2⟩ := ih h
          exact ⟨n' + 1, .step (aexec_firm h1) h2⟩
      · exact fun b e => hp ⟨b, e⟩

/-- The calls one after the other. -/
def sessionExec (cfg : Cfg K) (f n : Nat) :
    List (Spec.Op K V) → Sh K V → Option (List (Spec.Op K V × Spec.Res V) × Sh K V)
  | [], s => some ([], s)
  | o :: os, s => match firmExec n s (runOp cfg f o) with
    | none => none
    | some (s', r) => (sessionExec cfg f n os s').map fun x => ((o, r) :: x.1, x.2)

theorem sessionExec_sound {f n : Nat} {sh0 : Sh K V} : ∀ {os : List (Spec.Op K V)}
    {pre : List (Spec.Call K V × Spec.Ret K V)} {s s' : Sh K V}
    {it : Option (PID × K × Spec.Bound K)} {l : List (Spec.Op K V × Spec.Res V)},
    sessionExec cfg f n os s = some (l, s') → Session cfg sh0 pre s it →
    Session cfg sh0 (pre ++ l.map fun x => (.op x.1, .res x.2)) s' it := by
  intro os
  induction os with
  | nil =>
    intro pre s s' it l h hs
    simp only [sessionExec, Option.some.injEq, Prod.mk.injEq] at h
    obtain ⟨rfl, rfl⟩ := h
    simpa using hs
  | cons o os ih =>
    intro pre s s' it l h hs
    simp only [sessionExec] at h
    split at h
    · cases h
    · rename_i s1 r h1
      rw [Option.map_eq_some_iff] at h
      obtain ⟨⟨l', s2⟩, h2, h3⟩ := h
      simp only [Prod.mk.injEq] at h3
      obtain ⟨rfl, rfl⟩ := h3
      obtain ⟨n', h4⟩ := firmExec_sound h1
      have h5 := ih h2 (hs.op h4.loose)
      rw [List.map_cons, List.append_cons]
      exact h5

/-! ## With spurious failures -/

/-- The compare-and-swap is a weak one. -/
def isWeak (o : Chain K V) : Chain K V → Bool
  | .delta _ c => decide (c = o)
  | _ => false

theorem isWeak_sound {o n : Chain K V} (h : isWeak o n = true) : Weak o n := by
  cases n with
  | delta d c => exact ⟨d, by rw [of_decide_eq_true h]⟩
  | _ => cases h

/-- Runs a program to its end, in at most `n` steps; each weak compare-and-swap that could succeed
fails `j` times before it does (`c` times for the next one).  Yields the number of failures as well. -/
def looseExec {α : Type} (j : Nat) : Nat → Nat → Sh K V → Prog K V α → Option (Sh K V × α × Nat)
  | _, _, s, .ret a => some (s, a, 0)
  | 0, _, _, _ => none
  | n + 1, c, s, .cas q o d k =>
    if decide (s.mt q = some o) && isWeak o d && decide (c ≠ 0) then
      (looseExec j n (c - 1) s (k false)).map fun x => (x.1, x.2.1, x.2.2 + 1)
    else match aexec true s (.cas q o d k) with
    | none => none
    | some (s', p') => looseExec j n j s' p'
  | n + 1, c, s, p => match aexec true s p with
    | none => none
    | some (s', p') => looseExec j n c s' p'

theorem looseExec_sound {α : Type} {j : Nat} {s' : Sh K V} {a : α} : ∀ {n c i : Nat} {s : Sh K V}
    {p : Prog K V α}, looseExec j n c s p = some (s', a, i) → ∃ n', Loose n' i s p s' (.ret a) := by
  intro n
  induction n with
  | zero =>
    intro c i s p h
    cases p with
    | ret b => simp only [looseExec, Option.some.injEq, Prod.mk.injEq] at h
               obtain ⟨rfl, rfl, rfl⟩ := h
               exact ⟨0, .refl _ _⟩
    | _ => simp [looseExec] at h
  | succ n ih =>
    intro c i s p h
    rw [looseExec.eq_def] at h
    split at h
    · simp only [Option.some.injEq, Prod.mk.injEq] at h
      obtain ⟨rfl, rfl, rfl⟩ := h
      exact ⟨0, .refl _ _⟩
    · cases ‹_ + 1 = 0›
    · rename_i e
      cases e
      split at h
      · rename_i hc
        rw [Bool.and_eq_true, Bool.and_eq_true] at hc
        rw [Option.map_eq_some_iff] at h
        obtain ⟨⟨x1, x2, x3⟩, h1, h2⟩ := h
        simp only [Prod.mk.injEq] at h2
        obtain ⟨rfl, rfl, rfl⟩ := h2
        obtain ⟨n', h3⟩ := ih h1
        exact ⟨n' + 1, .fail (of_decide_eq_true hc.1.1) (isWeak_sound hc.1.2) h3⟩
      · split at h
        · cases h
        · rename_i h1
          obtain ⟨n', h2⟩ := ih h
          exact ⟨n' + 1, .step (aexec_firm h1) h2⟩
    · rename_i n0 e _ _
      cases e
      split at h
      · cases h
      · rename_i h1
        obtain ⟨n', h2⟩ := ih h
        exact ⟨n' + 1, .step (aexec_firm h1) h2⟩

/-- The calls one after the other, with the number of failures of each. -/
def looseSession (cfg : Cfg K) (f n j : Nat) :
    List (Spec.Op K V) → Sh K V → Option (List (Spec.Op K V × Spec.Res V × Nat) × Sh K V)
  | [], s => some ([], s)
  | o :: os, s => match looseExec j n j s (runOp cfg f o) with
    | none => none
    | some (s', r, i) => (looseSession cfg f n j os s').map fun x => ((o, r, i) :: x.1, x.2)

theorem looseSession_sound {f n j : Nat} {sh0 : Sh K V} : ∀ {os : List (Spec.Op K V)}
    {pre : List (Spec.Call K V × Spec.Ret K V)} {s s' : Sh K V}
    {it : Option (PID × K × Spec.Bound K)} {l : List (Spec.Op K V × Spec.Res V × Nat)},
    looseSession cfg f n j os s = some (l, s') → Session cfg sh0 pre s it →
    Session cfg sh0 (pre ++ l.map fun x => (.op x.1, .res x.2.1)) s' it := by
  intro os
  induction os with
  | nil =>
    intro pre s s' it l h hs
    simp only [looseSession, Option.some.injEq, Prod.mk.injEq] at h
    obtain ⟨rfl, rfl⟩ := h
    simpa using hs
  | cons o os ih =>
    intro pre s s' it l h hs
    simp only [looseSession] at h
    split at h
    · cases h
    · rename_i s1 r i h1
      rw [Option.map_eq_some_iff] at h
      obtain ⟨⟨l', s2⟩, h2, h3⟩ := h
      simp only [Prod.mk.injEq] at h3
      obtain ⟨rfl, rfl⟩ := h3
      obtain ⟨n', h4⟩ := looseExec_sound h1
      have h5 := ih h2 (hs.op h4)
      rw [List.map_cons, List.append_cons]
      exact h5

theorem session_witness {β : Type} {cfg : Cfg K} {f n : Nat} {os : List (Spec.Op K V)} {sh0 : Sh K V}
    {g : List (Spec.Op K V × Spec.Res V) → Sh K V → β} {x : β}
    (h : (sessionExec cfg f n os sh0).map (fun y => g y.1 y.2) = some x) :
    ∃ l sh, Session cfg sh0 (l.map fun x => (.op x.1, .res x.2)) sh none ∧ g l sh = x := by
  rw [Option.map_eq_some_iff] at h
  obtain ⟨⟨l, sh⟩, h1, h2⟩ := h
  have h3 := sessionExec_sound h1 (Session.start (cfg := cfg) (sh0 := sh0))
  exact ⟨l, sh, h3, h2⟩

end BwTree
