import Verif.Bytes.Session
import Verif.Bytes.Exec

/-!
# Running sessions on bytes (executable)

Used for examples.
-/

namespace BwTree.Bytes

open Layout (Mem BBound)

variable {L : Lay} {α : Type}

theorem BFirm.other {b b' : BSh L.C} {q q' : BProg L.C α} (h : BStep b q b' q')
    (h1 : ∀ p o n k, q ≠ .cas p o n k) (h2 : ∀ p o k, q ≠ .check p o k) : BFirm b q b' q' :=
  ⟨h, fun p o n k _ e => absurd e (h1 p o n k), fun p o k _ e => absurd e (h2 p o k)⟩

theorem exec_firm : ∀ {n : Nat} {s : BSh L.C} {p : BProg L.C α} {s' : BSh L.C} {a : α},
    exec n s p = some (s', a) → BFirmRun s p s' (.ret a)
  | 0, s, p, s', a, h => by
    cases p <;> cases h
    exact .refl _ _
  | n + 1, s, p, s', a, h => by
    cases p with
    | ret x => cases h; exact .refl _ _
    | ub => cases h
    | stuck => cases h
    | flag k => cases h
    | loadRoot k => exact .step (.other (.loadRoot _ _) nofun nofun) (exec_firm h)
    | storeRoot q k => exact .step (.other (.storeRoot _ _ _) nofun nofun) (exec_firm h)
    | casRoot o x k =>
      simp only [exec] at h
      split at h
      · exact .step (.other (.casRootOk _ _ _ _ ‹_›) nofun nofun) (exec_firm h)
      · exact .step (.other (.casRootFail _ _ _ _ ‹_›) nofun nofun) (exec_firm h)
    | load q k =>
      simp only [exec] at h
      split at h
      · exact .step (.other (.load _ _ _ _ ‹_›) nofun nofun) (exec_firm h)
      · cases h
    | store q c k => exact .step (.other (.store _ _ _ _) nofun nofun) (exec_firm h)
    | cas q o c k =>
      simp only [exec] at h
      split at h
      · rename_i hd hm
        split at h
        · refine .step ⟨.casOk _ _ _ _ _ _ hm ‹_›, ?_, nofun⟩ (exec_firm h)
          intro p' o' n' k' x e _ _; cases e; exact ⟨rfl, rfl⟩
        · refine .step ⟨.casFail _ _ _ _ _, ?_, nofun⟩ (exec_firm h)
          intro p' o' n' k' x e h1 h2; cases e
          rw [hm] at h1; cases h1
          exact absurd h2 ‹_›
      · rename_i hm
        refine .step ⟨.casFail _ _ _ _ _, ?_, nofun⟩ (exec_firm h)
        intro p' o' n' k' x e h1 h2; cases e
        rw [hm] at h1; cases h1
    | check q o k =>
      simp only [exec] at h
      split at h
      · rename_i hd hm
        split at h
        · refine .step ⟨.checkOk _ _ _ _ _ hm ‹_›, nofun, ?_⟩ (exec_firm h)
          intro p' o' k' x e _ _; cases e; rfl
        · refine .step ⟨.checkFail _ _ _ _, nofun, ?_⟩ (exec_firm h)
          intro p' o' k' x e h1 h2; cases e
          rw [hm] at h1; cases h1
          exact absurd h2 ‹_›
      · rename_i hm
        refine .step ⟨.checkFail _ _ _ _, nofun, ?_⟩ (exec_firm h)
        intro p' o' k' x e h1 h2; cases e
        rw [hm] at h1; cases h1
    | newPid k => exact .step (.other (.newPid _ _) nofun nofun) (exec_firm h)
    | newCell k => exact .step (.other (.newCell _ _) nofun nofun) (exec_firm h)
    | loadCell w k => exact .step (.other (.loadCell _ _ _) nofun nofun) (exec_firm h)
    | storeCell w q k => exact .step (.other (.storeCell _ _ _ _) nofun nofun) (exec_firm h)
    | alloc k => exact .step (.other (.alloc _ _ _) nofun nofun) (exec_firm h)

/-- The state after operations one after the other, with their results; `f` bounds the loops, `n` the
accesses. -/
def execOps (f n : Nat) : BSh L.C → List (Spec.Op Str Str) →
    Option (List (Spec.Op Str Str × Spec.Res Str) × BSh L.C)
  | b, [] => some ([], b)
  | b, o :: os => (exec n b (runOp L f o)).bind fun x =>
    (execOps f n x.1 os).map fun y => ((o, x.2) :: y.1, y.2)

theorem execOps_sound {legal : Spec.Call Str Str → Prop} {b0 : BSh L.C} {f n : Nat} :
    ∀ {os : List (Spec.Op Str Str)} {pre : List (Spec.Call Str Str × Spec.Ret Str Str)}
      {b b' : BSh L.C} {it : Option (PID × Str × BBound)} {l : List (Spec.Op Str Str × Spec.Res Str)},
      BSession L legal b0 pre b it → (∀ o ∈ os, legal (.op o)) → execOps f n b os = some (l, b') →
      BSession L legal b0 (pre ++ l.map fun x => (.op x.1, .res x.2)) b' it ∧ l.map Prod.fst = os
  | [], pre, b, b', it, l, h, _, he => by
    cases he
    exact ⟨by simpa using h, rfl⟩
  | o :: os, pre, b, b', it, l, h, hl, he => by
    simp only [execOps, Option.bind_eq_some_iff, Option.map_eq_some_iff] at he
    obtain ⟨x, h1, y, h2, h3⟩ := he
    cases h3
    obtain ⟨g1, g2⟩ := execOps_sound (h.op (hl o (List.mem_cons_self ..)) (exec_firm h1))
      (fun o ho => hl o (List.mem_cons_of_mem _ ho)) h2
    refine ⟨?_, by rw [List.map_cons, g2]⟩
    rw [List.append_assoc] at g1
    exact g1

end BwTree.Bytes
