import Verif.Conc.TotLogic
import Verif.Conc.System

/-!
# Executions in which the strong compare-and-swap is strong (model)

The steps of `Conc/Prog.lean` let every compare-and-swap fail spuriously.  Here only `CASWeak` may
(`logical_ptr.hpp` 114-132; uses: `bw_tree.hpp` 289, 341, 394, 443, 1388, 1490, 1542, all of which
append a record to the chain they replace); `CASStrong` (`logical_ptr.hpp` 140-158; uses: 1209, 1447)
and the comparison of 1188-1189 fail only if the slot holds another value.
-/

namespace BwTree

variable {K V : Type} {α : Type}

/-- Steps of a program. -/
inductive Sure : Sh K V → Prog K V α → Sh K V → Prog K V α → Prop
  | firm {s s' : Sh K V} {p p' : Prog K V α} : Firm s p s' p' → Sure s p s' p'
  | weak {s : Sh K V} {q : PID} {o n : Chain K V} {k : Bool → Prog K V α} : Weak o n →
      Sure s (.cas q o n k) s (k false)

theorem Sure.step {s s' : Sh K V} {p p' : Prog K V α} (h : Sure s p s' p') : AStep s p s' p' := by
  cases h with
  | firm h => exact h.step
  | weak => exact .casFail ..

variable [LinearOrder K]

/-- Steps of the system. -/
inductive SureStep (cfg : Cfg K) : Sys K V → Option (Spec.Event K V) → Sys K V → Prop
  | event {S S' : Sys K V} {e : Spec.Event K V} : SysStep cfg S (some e) S' →
      SureStep cfg S (some e) S'
  | access (S : Sys K V) (t : Nat) (c : Spec.Call K V) (p p' : Prog K V (Out K V)) (sh' : Sh K V) :
      S.th t = .run c p → Sure S.sh p sh' p' →
      SureStep cfg S none
        { S with sh := sh', th := upd S.th t (.run c p'), mark := newMark t S.sh sh' S.mark }

/-- Executions and their histories. -/
inductive SureRun (cfg : Cfg K) (S₀ : Sys K V) : List (Spec.Event K V) → Sys K V → Prop
  | nil : SureRun cfg S₀ [] S₀
  | tau {h : List (Spec.Event K V)} {S S' : Sys K V} : SureRun cfg S₀ h S →
      SureStep cfg S none S' → SureRun cfg S₀ h S'
  | event {h : List (Spec.Event K V)} {S S' : Sys K V} {e : Spec.Event K V} : SureRun cfg S₀ h S →
      SureStep cfg S (some e) S' → SureRun cfg S₀ (h ++ [e]) S'

theorem SureStep.sys {cfg : Cfg K} {S S' : Sys K V} {l : Option (Spec.Event K V)}
    (h : SureStep cfg S l S') : SysStep cfg S l S' := by
  cases h with
  | event h => exact h
  | access t c p p' sh' h1 h2 => exact .step _ _ _ _ _ _ h1 h2.step

theorem SureRun.run {cfg : Cfg K} {S₀ S : Sys K V} {h : List (Spec.Event K V)}
    (hr : SureRun cfg S₀ h S) : Run cfg S₀ h S := by
  induction hr with
  | nil => exact .nil
  | tau _ hs ih => exact .tau ih hs.sys
  | event _ hs ih => exact .event ih hs.sys

/-- `S'` comes later than `S`, and all the time the slot of page `p` holds `c`.  The number counts the
accesses of thread `t` in between. -/
inductive Meanwhile (cfg : Cfg K) (p : PID) (c : Chain K V) (t : Nat) (S : Sys K V) :
    Nat → Sys K V → Prop
  | refl : S.sh.mt p = some c → Meanwhile cfg p c t S 0 S
  /-- an access of thread `t`. -/
  | own {n : Nat} {S' : Sys K V} {call : Spec.Call K V} {x x' : Prog K V (Out K V)} {sh' : Sh K V} :
      Meanwhile cfg p c t S n S' → S'.th t = .run call x → Sure S'.sh x sh' x' →
      sh'.mt p = some c → Meanwhile cfg p c t S (n + 1)
        { S' with sh := sh', th := upd S'.th t (.run call x'), mark := newMark t S'.sh sh' S'.mark }
  /-- any step in which `t` does not take part. -/
  | other {n : Nat} {S' S'' : Sys K V} {l : Option (Spec.Event K V)} :
      Meanwhile cfg p c t S n S' → SureStep cfg S' l S'' → S''.th t = S'.th t →
      S''.sh.mt p = some c → Meanwhile cfg p c t S n S''

end BwTree
