import Verif.Fix.Bulk
import Verif.Fix.Strings
import Verif.Conc.System

/-!
# Trees on fixed-length pages at the start (specification)
-/

namespace BwTree.Fix

open Layout (Mem)
open Bytes (VStr BSys bstart)

/-- The trees handed to the threads, with the map they represent. -/
inductive FStart (P : FPar) [LinearOrder (VStr P.c.klen)] :
    (VStr P.c.klen → Option (VStr P.pay)) → BSys (fixLay P) → Prop
  /-- The constructor, `bw_tree.hpp` 102-115. -/
  | empty (m : Mem) : FStart P (fun _ => none) (bstart (fixLay P) m)
  /-- `Bulkload` into a new tree, `bw_tree.hpp` 471-548, of sorted entries without duplicates
  (466-467); pages hold any bytes before. -/
  | bulk {mem : PID → Mem} {ids : Nat → Nat → PID} {threads : Nat}
      {es : List (VStr P.c.klen × VStr P.pay)} {T : BTbl} {root npid : PID} (pid : P.pid = 8)
      (inj : IdsInj ids) (fresh : ∀ t i, 1 < ids t i) (ne : es ≠ [])
      (sorted : es.Pairwise fun x y => x.1 < y.1)
      (run : bBulkload P mem ids threads (es.map fun x => (x.1.1, x.2.1)) = some (T, root))
      (bound : ∀ p nd, T p = some nd → p < npid) : FStart P (Spec.ofList es) (bulkStart P T root npid)

end BwTree.Fix
