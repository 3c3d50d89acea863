import Verif.Spec.Calls

/-!
# Histories in which writes do not overlap (specification)
-/

namespace BwTree.Spec

variable {K V : Type}

/-- All operations except `Read` are writes. -/
def Op.isWrite : Op K V → Bool
  | .read _ => false
  | _ => true

/-- Calls of writing operations; scans only read. -/
def Call.isWrite : Call K V → Bool
  | .op o => o.isWrite
  | .visit _ _ => false

/-- No two writes overlap: when a write is called, those called before it have returned.  Reads and
scans may overlap with everything. -/
def Apart (h : List (Event K V)) : Prop :=
  ∀ h1 h2 h3 t u c c', h = h1 ++ .inv t c :: (h2 ++ .inv u c' :: h3) → c.isWrite = true →
    c'.isWrite = true → ∃ r, .ret t c r ∈ h2

/-- The writes that have returned, with their results. -/
def writesDone : List (Event K V) → List (Call K V × Ret K V)
  | [] => []
  | .inv _ _ :: h => writesDone h
  | .ret _ c r :: h => if c.isWrite then (c, r) :: writesDone h else writesDone h

theorem writesDone_append (h h' : List (Event K V)) :
    writesDone (h ++ h') = writesDone h ++ writesDone h' := by
  induction h with
  | nil => rfl
  | cons e h ih =>
    cases e with
    | inv t c => exact ih
    | ret t c r =>
      simp only [List.cons_append, writesDone]
      split
      · rw [ih]; rfl
      · exact ih

/-- A write overlaps with no other call, as under a reader-writer lock. -/
def Exclusive (h : List (Event K V)) : Prop :=
  ∀ h1 h2 h3 t u c c', h = h1 ++ .inv t c :: (h2 ++ .inv u c' :: h3) →
    c.isWrite = true ∨ c'.isWrite = true → ∃ r, .ret t c r ∈ h2

theorem Exclusive.apart {h : List (Event K V)} (he : Exclusive h) : Apart h :=
  fun h1 h2 h3 t u c c' e hc _ => he h1 h2 h3 t u c c' e (Or.inl hc)

theorem Exclusive.left {h h' : List (Event K V)} (ha : Exclusive (h ++ h')) : Exclusive h := by
  intro h1 h2 h3 t u c c' e
  refine ha h1 h2 (h3 ++ h') t u c c' ?_
  rw [e]; simp

theorem Apart.left {h h' : List (Event K V)} (ha : Apart (h ++ h')) : Apart h := by
  intro h1 h2 h3 t u c c' e
  refine ha h1 h2 (h3 ++ h') t u c c' ?_
  rw [e]; simp

end BwTree.Spec
