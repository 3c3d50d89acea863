import Verif.Spec.Seq

/-!
# Sequences of calls of one thread (specification)

Like `Spec.Seq`, with node visits of scans among the calls.
-/

namespace BwTree.Spec

set_option linter.unusedSectionVars false

variable {K V : Type} [DecidableEq K]

/-- The history of thread `t` issuing the calls one after the other, with what they return. -/
def callHist (t : Nat) : List (Call K V × Ret K V) → List (Event K V)
  | [] => []
  | x :: xs => .inv t x.1 :: .ret t x.1 x.2 :: callHist t xs

/-- The map after a call: a visit leaves it as it is. -/
def mapAfter (m : K → Option V) : Call K V → (K → Option V)
  | .op o => (apply m o).1
  | .visit _ _ => m

/-- The map after a sequence of calls. -/
def mapAfterAll (m : K → Option V) : List (Call K V) → (K → Option V)
  | [] => m
  | c :: cs => mapAfterAll (mapAfter m c) cs

/-- Every call returns what the map returns at that moment. -/
def Meets [LT K] (m : K → Option V) : List (Call K V × Ret K V) → Prop
  | [] => True
  | x :: xs => Step m x.1 (mapAfter m x.1) x.2 ∧ Meets (mapAfter m x.1) xs

theorem callHist_append (t : Nat) (l l' : List (Call K V × Ret K V)) :
    callHist t (l ++ l') = callHist t l ++ callHist t l' := by
  induction l with
  | nil => rfl
  | cons o l ih => simp [callHist, ih]

theorem mapAfterAll_append (m : K → Option V) (l l' : List (Call K V)) :
    mapAfterAll m (l ++ l') = mapAfterAll (mapAfterAll m l) l' := by
  induction l generalizing m with
  | nil => rfl
  | cons o l ih => simp [mapAfterAll, ih]

theorem Meets.append [LT K] {m : K → Option V} {l l' : List (Call K V × Ret K V)} :
    Meets m (l ++ l') ↔ Meets m l ∧ Meets (mapAfterAll m (l.map Prod.fst)) l' := by
  induction l generalizing m with
  | nil => simp [Meets, mapAfterAll]
  | cons o l ih => simp [Meets, mapAfterAll, ih, and_assoc]

theorem callHist_thread {t : Nat} {l : List (Call K V × Ret K V)} {e : Event K V}
    (he : e ∈ callHist t l) : ∃ c r, e = .inv t c ∨ e = .ret t c r := by
  induction l with
  | nil => cases he
  | cons x l ih =>
    simp only [callHist, List.mem_cons] at he
    rcases he with rfl | rfl | he
    · exact ⟨x.1, x.2, Or.inl rfl⟩
    · exact ⟨_, _, Or.inr rfl⟩
    · exact ih he

theorem callHist_op (t : Nat) (l : List (Op K V × Res V)) :
    callHist t (l.map fun x => (.op x.1, .res x.2)) = seqHist t l := by
  induction l with
  | nil => rfl
  | cons x l ih => simp [callHist, seqHist, ih]

variable [LT K]

theorem Step.post {m m' : K → Option V} {c : Call K V} {r : Ret K V} (h : Step m c m' r) :
    m' = mapAfter m c := by
  cases h <;> rfl

/-- With one pending call, either nothing happened or that call took effect. -/
theorem Lins.oneCall {a b : AMap K V} (h : Lins a b) {t : Nat} {c : Call K V}
    (hi : ∀ u, u ≠ t → a.ops u = .idle) (ht : a.ops t = .pending c) :
    b = a ∨ ∃ r, Step a.m c (mapAfter a.m c) r ∧
      b = { m := mapAfter a.m c, ops := setOp a.ops t (.done c r) } := by
  induction h with
  | refl => exact Or.inl rfl
  | @step b u op m' r _ h1 h2 ih =>
    rcases ih with e | ⟨r', e', e⟩
    · subst e
      by_cases hu : u = t
      · subst hu
        rw [ht] at h1; cases h1
        have := h2.post
        subst this
        exact Or.inr ⟨r, h2, rfl⟩
      · rw [hi u hu] at h1; cases h1
    · subst e
      by_cases hu : u = t
      · subst hu
        simp [setOp] at h1
      · simp [setOp, hu, hi u hu] at h1

/-- A sequential history of the atomic map consists of what the map returns. -/
theorem Accepts.calls {m : K → Option V} {b : AMap K V} {t : Nat} {l : List (Call K V × Ret K V)}
    (h : Accepts ⟨m, fun _ => .idle⟩ (callHist t l) b) :
    Meets m l ∧ b = ⟨mapAfterAll m (l.map Prod.fst), fun _ => .idle⟩ := by
  induction l using List.reverseRecOn generalizing b with
  | nil => exact ⟨trivial, (h.nil_inv rfl).idle (fun _ => rfl)⟩
  | append_singleton l x ih =>
    rw [callHist_append] at h
    simp only [callHist] at h
    rw [List.append_cons] at h
    obtain ⟨c, h1, h2, h3⟩ := h.ret_inv rfl
    obtain ⟨d, h4, h5, h6⟩ := h1.inv_inv rfl
    obtain ⟨e1, e2⟩ := ih h4
    subst e2
    rcases h6.oneCall (t := t) (c := x.1) (by intro u hu; simp [setOp, hu]) (by simp [setOp]) with
      e | ⟨r, e', e⟩
    · subst e; simp [setOp] at h2
    · subst e
      simp only [setOp, if_true, OpSt.done.injEq, true_and] at h2
      subst h2
      have h7 := h3.idle (by intro u; simp only [setOp]; split <;> rfl)
      rw [Meets.append, List.map_append, mapAfterAll_append]
      refine ⟨⟨e1, e', trivial⟩, ?_⟩
      rw [h7]
      simp only [List.map_cons, List.map_nil, mapAfterAll]
      congr 1
      funext u
      simp only [setOp]; split <;> rfl

end BwTree.Spec
