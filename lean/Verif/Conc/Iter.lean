import Verif.Conc.System

/-!
# What an iterator holds (proof side)
-/

namespace BwTree

set_option linter.unusedSectionVars false

variable {K V : Type} [LinearOrder K] {cfg : Cfg K}

theorem AStep.bindInv {α β : Type} {s s' : Sh K V} {p : Prog K V α} {g : α → Prog K V β}
    {q : Prog K V β} (h : AStep s (p.bind g) s' q) :
    (∃ x, p = .ret x) ∨ ∃ p', AStep s p s' p' ∧ q = p'.bind g := by
  cases p with
  | ret x => exact Or.inl ⟨x, rfl⟩
  | ub => cases h
  | stuck => cases h
  | flag _ => cases h
  | loadRoot k => cases h; exact Or.inr ⟨_, .loadRoot _ _, rfl⟩
  | storeRoot p k => cases h; exact Or.inr ⟨_, .storeRoot _ _ _, rfl⟩
  | casRoot o n k =>
    cases h with
    | casRootOk _ _ _ h => exact Or.inr ⟨_, .casRootOk _ _ _ _ h, rfl⟩
    | casRootFail _ _ _ h => exact Or.inr ⟨_, .casRootFail _ _ _ _ h, rfl⟩
  | load p k =>
    cases h with
    | load _ _ c h => exact Or.inr ⟨_, .load _ _ _ c h, rfl⟩
    | loadNull _ _ h => exact Or.inr ⟨_, .loadNull _ _ _ h, rfl⟩
  | store p c k => cases h; exact Or.inr ⟨_, .store _ _ _ _, rfl⟩
  | cas p o n k =>
    cases h with
    | casOk _ _ _ _ h => exact Or.inr ⟨_, .casOk _ _ _ _ _ h, rfl⟩
    | casFail => exact Or.inr ⟨_, .casFail _ _ _ _ _, rfl⟩
  | newPid k => cases h; exact Or.inr ⟨_, .newPid _ _, rfl⟩
  | newCell k => cases h; exact Or.inr ⟨_, .newCell _ _, rfl⟩
  | loadCell w k => cases h; exact Or.inr ⟨_, .loadCell _ _ _, rfl⟩
  | storeCell w p k => cases h; exact Or.inr ⟨_, .storeCell _ _ _ _, rfl⟩

/-- A thread in a node visit will return the outcome of a visit. -/
def VisForm : TSt K V → Prop
  | .run (.visit _ e) p => ∃ P : Prog K V (List (K × V) × Option (K × PID)),
      p = P.bind fun x => .ret (visitOut e x)
  | _ => True

/-- The last visit of thread `t` in the history returned what its iterator holds. -/
def LastVisit (h : List (Spec.Event K V)) (t : Nat) (k : K) (e : Spec.Bound K) : Prop :=
  ∃ h1 h2 b recs, h = h1 ++ .ret t (.visit b e) (.page recs (some k)) :: h2 ∧
    ∀ b' e' r, Spec.Event.ret t (.visit b' e') r ∉ h2

theorem LastVisit.append {h : List (Spec.Event K V)} {t : Nat} {k : K} {e : Spec.Bound K}
    (hl : LastVisit h t k e) {x : Spec.Event K V}
    (hx : ∀ b' e' r, x ≠ Spec.Event.ret t (.visit b' e') r) : LastVisit (h ++ [x]) t k e := by
  obtain ⟨h1, h2, b, recs, e1, e2⟩ := hl
  refine ⟨h1, h2 ++ [x], b, recs, by simp [e1], ?_⟩
  intro b' e' r hm
  rcases List.mem_append.mp hm with hm | hm
  · exact e2 b' e' r hm
  · exact hx b' e' r (List.mem_singleton.mp hm).symm

theorem Run.visForm {sh : Sh K V} {h : List (Spec.Event K V)} {S : Sys K V}
    (hr : Run cfg (Sys.start sh) h S) (t : Nat) : VisForm (S.th t) := by
  have key : ∀ {S S' : Sys K V} {l}, (∀ t, VisForm (S.th t)) → SysStep cfg S l S' →
      ∀ t, VisForm (S'.th t) := by
    intro S S' l ih hs u
    have upd' : ∀ {t : Nat} {x : TSt K V}, VisForm x → VisForm (upd S.th t x u) := by
      intro t x hx
      by_cases hu : u = t
      · subst hu; rw [upd_same]; exact hx
      · rw [upd_ne _ _ hu]; exact ih u
    cases hs with
    | op t f o hi => exact upd' trivial
    | scan t f b e hi => exact upd' ⟨_, rfl⟩
    | next t f p k e hi hit => exact upd' ⟨_, rfl⟩
    | step t c p p' sh' ht hst =>
      refine upd' ?_
      have := ih t
      rw [ht] at this
      cases c with
      | op o => trivial
      | visit b e =>
        obtain ⟨P, hP⟩ := this
        subst hP
        rcases hst.bindInv with ⟨x, rfl⟩ | ⟨P', _, h2⟩
        · cases hst
        · exact ⟨P', h2⟩
    | retOp t o r ht => exact upd' trivial
    | retVisit t b e r ht => exact upd' trivial
  have : ∀ t, VisForm (S.th t) := by
    induction hr with
    | nil => intro t; trivial
    | tau _ hs ih => exact key ih hs
    | event _ hs ih => exact key ih hs
  exact this t

/-- An iterator continues the last visit of its thread. -/
theorem Run.iterator {sh : Sh K V} {h : List (Spec.Event K V)} {S : Sys K V}
    (hr : Run cfg (Sys.start sh) h S) {t : Nat} {p : PID} {k : K} {e : Spec.Bound K}
    (hit : S.it t = some (p, k, e)) : LastVisit h t k e := by
  induction hr generalizing p k e with
  | nil => cases hit
  | tau hr hs ih => cases hs; exact ih hit
  | @event h S S' ev hr hs ih =>
    cases hs with
    | op t' f o hi => exact (ih hit).append (by intro _ _ _ h; cases h)
    | scan t' f b e hi => exact (ih hit).append (by intro _ _ _ h; cases h)
    | next t' f p k e hi hit' => exact (ih hit).append (by intro _ _ _ h; cases h)
    | retOp t' o r ht => exact (ih hit).append (by intro _ _ _ h; cases h)
    | retVisit t' b e' r ht =>
      by_cases hu : t = t'
      · subst hu
        simp only [upd_same] at hit
        have hf := hr.visForm t
        rw [ht] at hf
        obtain ⟨P, hP⟩ := hf
        cases P with
        | ret x =>
          simp only [Prog.bind, Prog.ret.injEq] at hP
          subst hP
          simp only [visitOut, Option.map_eq_some_iff] at hit
          obtain ⟨⟨k', p'⟩, h1, h2⟩ := hit
          cases h2
          refine ⟨h, [], b, x.1, ?_, fun _ _ _ h => by cases h⟩
          simp [visitOut, h1]
        | _ => cases hP
      · simp only [upd_ne _ _ hu] at hit
        refine (ih hit).append ?_
        intro b' e'' r' h
        cases h
        exact hu rfl

end BwTree
