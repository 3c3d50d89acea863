import Verif.Bytes.Prog
import Verif.Conc.System

/-!
# Threads on bytes (model)

`Verif/Conc/System.lean` with programs on bytes; `legal` are the calls a caller may make.
-/

namespace BwTree.Bytes

open Layout (Mem BBound)

/-- What a program of a thread yields. -/
abbrev BOut := Spec.Ret Str Str × Option (PID × Str × BBound)

/-- The result of a node visit as the caller sees it. -/
def visitOut (e : BBound) (x : List (Str × Str) × Option (Str × PID)) : BOut :=
  (.page x.1 (x.2.map Prod.fst), x.2.map fun y => (y.2, y.1, e))

/-- A thread. -/
inductive BTSt (L : Lay) where
  | idle
  | run (call : Spec.Call Str Str) (prog : BProg L.C BOut)

/-- State of the system. -/
structure BSys (L : Lay) where
  sh : BSh L.C
  th : Nat → BTSt L
  it : Nat → Option (PID × Str × BBound)

/-- One step of the system; the label is the visible event. -/
inductive BSysStep (L : Lay) (legal : Spec.Call Str Str → Prop) :
    BSys L → Option (Spec.Event Str Str) → BSys L → Prop
  | op (S : BSys L) (t f : Nat) (o : Spec.Op Str Str) : legal (.op o) → S.th t = .idle →
      BSysStep L legal S (some (.inv t (.op o)))
        { S with th := upd S.th t (.run (.op o) ((runOp L f o).bind fun r => .ret (.res r, none))) }
  | scan (S : BSys L) (t f : Nat) (b e : BBound) : legal (.visit b e) → S.th t = .idle →
      BSysStep L legal S (some (.inv t (.visit b e)))
        { S with th := upd S.th t (.run (.visit b e)
            ((scanFirst L f b e).bind fun x => .ret (visitOut e x))) }
  | next (S : BSys L) (t f : Nat) (p : PID) (k : Str) (e : BBound) : S.th t = .idle →
      S.it t = some (p, k, e) →
      BSysStep L legal S (some (.inv t (.visit (some (k, true)) e)))
        { S with th := upd S.th t (.run (.visit (some (k, true)) e)
            ((scanNext L f p k e).bind fun x => .ret (visitOut e x))) }
  | step (S : BSys L) (t : Nat) (c : Spec.Call Str Str) (p p' : BProg L.C BOut) (sh' : BSh L.C) :
      S.th t = .run c p → BStep S.sh p sh' p' →
      BSysStep L legal S none { S with sh := sh', th := upd S.th t (.run c p') }
  | retOp (S : BSys L) (t : Nat) (o : Spec.Op Str Str) (r : BOut) : S.th t = .run (.op o) (.ret r) →
      BSysStep L legal S (some (.ret t (.op o) r.1)) { S with th := upd S.th t .idle }
  | retVisit (S : BSys L) (t : Nat) (b e : BBound) (r : BOut) :
      S.th t = .run (.visit b e) (.ret r) →
      BSysStep L legal S (some (.ret t (.visit b e) r.1))
        { S with th := upd S.th t .idle, it := upd S.it t r.2 }

/-- Executions and their histories. -/
inductive BRun (L : Lay) (legal : Spec.Call Str Str → Prop) (S₀ : BSys L) :
    List (Spec.Event Str Str) → BSys L → Prop
  | nil : BRun L legal S₀ [] S₀
  | tau {h : List (Spec.Event Str Str)} {S S' : BSys L} : BRun L legal S₀ h S →
      BSysStep L legal S none S' → BRun L legal S₀ h S'
  | event {h : List (Spec.Event Str Str)} {S S' : BSys L} {e : Spec.Event Str Str} :
      BRun L legal S₀ h S → BSysStep L legal S (some e) S' → BRun L legal S₀ (h ++ [e]) S'

/-- A new tree, `bw_tree.hpp` 102-115; the page of the first leaf holds any bytes. -/
def bstart (L : Lay) (m : Mem) : BSys L :=
  { sh := { mt := upd (fun _ => none) 1 (some ⟨0, L.base (L.empty m)⟩), root := 1, cells := fun _ => 0
            npid := 2, ncell := 0, nid := 1 }
    th := fun _ => .idle, it := fun _ => none }

end BwTree.Bytes
