import Verif.Bytes.System

/-!
# One thread on bytes (model)

Steps without spurious failures, programs that end, and sequences of complete calls; compare `Firm`
and `Session`.
-/

namespace BwTree.Bytes

open Layout (Mem BBound)

variable {C α : Type}

/-! ## Steps -/

/-- One step in which no compare-and-swap (and no comparison in `TrySMOs`) fails spuriously. -/
structure BFirm (b : BSh C) (q : BProg C α) (b' : BSh C) (q' : BProg C α) : Prop where
  step : BStep b q b' q'
  cas : ∀ p o n k h, q = .cas p o n k → b.mt p = some h → h.id = o.id →
    b' = b.publish p n ∧ q' = k (some ⟨b.nid, n⟩)
  check : ∀ p o k h, q = .check p o k → b.mt p = some h → h.id = o.id → q' = k true

/-- Finitely many such steps. -/
inductive BFirmRun : BSh C → BProg C α → BSh C → BProg C α → Prop
  | refl (b : BSh C) (q : BProg C α) : BFirmRun b q b q
  | step {b b' b'' : BSh C} {q q' q'' : BProg C α} : BFirm b q b' q' →
      BFirmRun b' q' b'' q'' → BFirmRun b q b'' q''

/-- A thread that runs alone from here ends after at most `n` accesses to shared memory, whatever the
bytes of the pages it takes, and yields a result with `Q`, unless it reaches a state with `stop`. -/
inductive BEnds (stop : BSh C → Prop) (Q : α → BSh C → Prop) : Nat → BSh C → BProg C α → Prop
  | ret {n : Nat} {b : BSh C} {a : α} : Q a b → BEnds stop Q n b (.ret a)
  | full {n : Nat} {b : BSh C} {q : BProg C α} : stop b → BEnds stop Q n b q
  | page {n : Nat} {b : BSh C} {k : Mem → BProg C α} : (∀ m, BEnds stop Q n b (k m)) →
      BEnds stop Q n b (.alloc k)
  /-- There is a next step, and every next step is followed by at most `n` more. -/
  | step {n : Nat} {b : BSh C} {q : BProg C α} : (∃ b' q', BFirm b q b' q') →
      (∀ b' q', BFirm b q b' q' → BEnds stop Q n b' q') → BEnds stop Q (n + 1) b q

/-! ## Sessions -/

/-- One thread issues complete legal calls one after the other; compare `Session`. -/
inductive BSession (L : Lay) (legal : Spec.Call Str Str → Prop) (b0 : BSh L.C) :
    List (Spec.Call Str Str × Spec.Ret Str Str) → BSh L.C → Option (PID × Str × BBound) → Prop
  | start : BSession L legal b0 [] b0 none
  /-- a point operation. -/
  | op {l : List (Spec.Call Str Str × Spec.Ret Str Str)} {b b' : BSh L.C}
      {it : Option (PID × Str × BBound)} {f : Nat} {o : Spec.Op Str Str} {r : Spec.Res Str} :
      BSession L legal b0 l b it → legal (.op o) → BFirmRun b (runOp L f o) b' (.ret r) →
      BSession L legal b0 (l ++ [(.op o, .res r)]) b' it
  /-- `Scan`. -/
  | scan {l : List (Spec.Call Str Str × Spec.Ret Str Str)} {b b' : BSh L.C}
      {it : Option (PID × Str × BBound)} {f : Nat} {bb eb : BBound}
      {x : List (Str × Str) × Option (Str × PID)} :
      BSession L legal b0 l b it → legal (.visit bb eb) →
      BFirmRun b (scanFirst L f bb eb) b' (.ret x) →
      BSession L legal b0 (l ++ [(.visit bb eb, (visitOut eb x).1)]) b' (visitOut eb x).2
  /-- the iterator goes to the next node. -/
  | next {l : List (Spec.Call Str Str × Spec.Ret Str Str)} {b b' : BSh L.C} {f : Nat} {p : PID}
      {k : Str} {eb : BBound} {x : List (Str × Str) × Option (Str × PID)} :
      BSession L legal b0 l b (some (p, k, eb)) → BFirmRun b (scanNext L f p k eb) b' (.ret x) →
      BSession L legal b0 (l ++ [(.visit (some (k, true)) eb, (visitOut eb x).1)]) b' (visitOut eb x).2

end BwTree.Bytes
