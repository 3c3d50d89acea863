import Verif.Spec.Map
import Mathlib.Data.List.Induction

/-!
# Sequential histories (specification)

Calls issued one after the other by one thread, and what the map answers.
-/

namespace BwTree.Spec

set_option linter.unusedSectionVars false

variable {K V : Type} [DecidableEq K]

/-- The answers of the map to a sequence of operations. -/
def answers (m : K → Option V) : List (Op K V) → List (Res V)
  | [] => []
  | o :: os => (apply m o).2 :: answers (apply m o).1 os

/-- The map after a sequence of operations. -/
def final (m : K → Option V) : List (Op K V) → (K → Option V)
  | [] => m
  | o :: os => final (apply m o).1 os

/-- The history of thread `t` calling the operations one after the other, with their results. -/
def seqHist (t : Nat) : List (Op K V × Res V) → List (Event K V)
  | [] => []
  | x :: xs => .inv t (.op x.1) :: .ret t (.op x.1) (.res x.2) :: seqHist t xs

theorem answers_append (m : K → Option V) (l l' : List (Op K V)) :
    answers m (l ++ l') = answers m l ++ answers (final m l) l' := by
  induction l generalizing m with
  | nil => rfl
  | cons o l ih => simp [answers, final, ih]

theorem final_append (m : K → Option V) (l l' : List (Op K V)) :
    final m (l ++ l') = final (final m l) l' := by
  induction l generalizing m with
  | nil => rfl
  | cons o l ih => simp [final, ih]

theorem seqHist_append (t : Nat) (l l' : List (Op K V × Res V)) :
    seqHist t (l ++ l') = seqHist t l ++ seqHist t l' := by
  induction l with
  | nil => rfl
  | cons o l ih => simp [seqHist, ih]

/-! ## Inversion of the atomic map -/

variable [LT K]

/-- Invisible steps. -/
inductive Lins : AMap K V → AMap K V → Prop
  | refl (a : AMap K V) : Lins a a
  | step {a b : AMap K V} (t : Nat) (op : Call K V) (m' : K → Option V) (r : Ret K V) :
      Lins a b → b.ops t = .pending op → Step b.m op m' r →
      Lins a { m := m', ops := setOp b.ops t (.done op r) }

theorem Accepts.nil_inv {a b : AMap K V} {h : List (Event K V)} (ha : Accepts a h b) (e : h = []) :
    Lins a b := by
  induction ha with
  | nil => exact .refl _
  | inv => simp at e
  | lin t op m' r _ h1 h2 ih => exact .step t op m' r (ih e) h1 h2
  | ret => simp at e

theorem Accepts.inv_inv {a b : AMap K V} {h h' : List (Event K V)} {t : Nat} {op : Call K V}
    (ha : Accepts a h' b) (e : h' = h ++ [.inv t op]) :
    ∃ c, Accepts a h c ∧ c.ops t = .idle ∧ Lins { c with ops := setOp c.ops t (.pending op) } b := by
  induction ha with
  | nil => simp at e
  | @inv b0 h0 t' op' h1 h2 _ =>
    obtain ⟨e1, e2⟩ := List.append_inj' e rfl
    cases e2
    subst e1
    exact ⟨_, h1, h2, .refl _⟩
  | lin t op m' r _ h1 h2 ih =>
    obtain ⟨c, g1, g2, g3⟩ := ih e
    exact ⟨c, g1, g2, .step t op m' r g3 h1 h2⟩
  | ret =>
    obtain ⟨_, e2⟩ := List.append_inj' e rfl
    cases e2

theorem Accepts.ret_inv {a b : AMap K V} {h h' : List (Event K V)} {t : Nat} {op : Call K V}
    {r : Ret K V} (ha : Accepts a h' b) (e : h' = h ++ [.ret t op r]) :
    ∃ c, Accepts a h c ∧ c.ops t = .done op r ∧ Lins { c with ops := setOp c.ops t .idle } b := by
  induction ha with
  | nil => simp at e
  | inv =>
    obtain ⟨_, e2⟩ := List.append_inj' e rfl
    cases e2
  | lin t op m' r _ h1 h2 ih =>
    obtain ⟨c, g1, g2, g3⟩ := ih e
    exact ⟨c, g1, g2, .step t op m' r g3 h1 h2⟩
  | @ret b0 h0 t' op' r' h1 h2 _ =>
    obtain ⟨e1, e2⟩ := List.append_inj' e rfl
    cases e2
    subst e1
    exact ⟨_, h1, h2, .refl _⟩

theorem Lins.idle {a b : AMap K V} (h : Lins a b) (hi : ∀ t, a.ops t = .idle) : b = a := by
  induction h with
  | refl => rfl
  | step t op m' r _ h1 _ ih =>
    rw [ih, hi t] at h1; cases h1

/-- With one pending operation, either nothing happened or that operation took effect. -/
theorem Lins.one {a b : AMap K V} (h : Lins a b) {t : Nat} {o : Op K V}
    (hi : ∀ u, u ≠ t → a.ops u = .idle) (ht : a.ops t = .pending (.op o)) :
    b = a ∨ b = { m := (apply a.m o).1, ops := setOp a.ops t (.done (.op o) (.res (apply a.m o).2)) } := by
  induction h with
  | refl => exact Or.inl rfl
  | @step b u op m' r _ h1 h2 ih =>
    rcases ih with e | e
    · subst e
      by_cases hu : u = t
      · subst hu
        rw [ht] at h1; cases h1
        cases h2
        exact Or.inr rfl
      · rw [hi u hu] at h1; cases h1
    · subst e
      by_cases hu : u = t
      · subst hu
        simp [setOp] at h1
      · simp [setOp, hu, hi u hu] at h1

/-- A sequential history of the atomic map consists of the answers of the map. -/
theorem Accepts.seq {m : K → Option V} {b : AMap K V} {t : Nat} {l : List (Op K V × Res V)}
    (h : Accepts ⟨m, fun _ => .idle⟩ (seqHist t l) b) :
    l.map Prod.snd = answers m (l.map Prod.fst) ∧ b = ⟨final m (l.map Prod.fst), fun _ => .idle⟩ := by
  induction l using List.reverseRecOn generalizing b with
  | nil => exact ⟨rfl, (h.nil_inv rfl).idle (fun _ => rfl)⟩
  | append_singleton l x ih =>
    rw [seqHist_append] at h
    simp only [seqHist] at h
    rw [List.append_cons] at h
    obtain ⟨c, h1, h2, h3⟩ := h.ret_inv rfl
    obtain ⟨d, h4, h5, h6⟩ := h1.inv_inv rfl
    obtain ⟨e1, e2⟩ := ih h4
    subst e2
    rcases h6.one (t := t) (o := x.1) (by intro u hu; simp [setOp, hu]) (by simp [setOp]) with e | e
    · subst e; simp [setOp] at h2
    · subst e
      simp only [setOp, if_true, OpSt.done.injEq, Ret.res.injEq, true_and] at h2
      have h7 := h3.idle (by intro u; simp only [setOp]; split <;> rfl)
      rw [List.map_append, List.map_append, answers_append, final_append, ← e1]
      refine ⟨?_, ?_⟩
      · simp [answers, h2]
      · rw [h7]
        congr 1
        funext u
        simp only [setOp]; split <;> rfl

end BwTree.Spec
