import Verif.Tree.Model

/-!
# What a delta chain means (specification)

Read top-down, newest record first.  No code of the model (search, sort, consolidation) and no
helper of the proofs is used here.
-/

namespace BwTree.Spec

open BwTree

variable {K V : Type} [LinearOrder K]

/-- The records of a node that carry a key: record 0 of a leftmost index node has none. -/
def keyed (n : Node K V) : List (K × Pay V) :=
  if n.inner = true ∧ n.low = none then n.recs.tail else n.recs

/-- The bytes a base node takes: the header, for every record its fixed part (metadata and payload),
the keys of the records that have one, the lower bound of a leaf (an index node keeps it as the key of
record 0) and the upper bound.  With fixed-length keys the bounds are part of the header and the keys
part of the records. -/
def bytes (cfg : Cfg K) (n : Node K V) : Nat :=
  cfg.hdr + n.recs.length * (if n.inner then cfg.idxLen else cfg.leafLen)
    + ((keyed n).map fun r => cfg.klen r.1).sum
    + (if n.inner then 0 else (n.low.map cfg.klen).getD 0) + (n.high.map cfg.klen).getD 0

/-- The payload of `key` in a list of records. -/
def find (l : List (K × Pay V)) (key : K) : Option (Pay V) :=
  (l.find? (fun r => decide (r.1 = key))).map Prod.snd

/-- The payload carried by an insert or modify delta. -/
def payOf (d : Delta K V) : Option (Pay V) :=
  match d.pay with
  | .val v => some (.val v)
  | .child p => some (.child p)
  | _ => none

/-- The record of `key`: the newest delta for that key decides; a merge delta brings in the records
of the merged node for all keys from its separator on; otherwise the base node decides. -/
def look (key : K) : Chain K V → Option (Pay V)
  | .base n => find (keyed n) key
  | .removed _ => none
  | .delta d nx =>
    match d.ty with
    | .insert | .modify => if d.key = key then payOf d else look key nx
    | .delete => if d.key = key then none else look key nx
    | .merge =>
      match d.pay with
      | .node m => if d.key ≤ key then find m.recs key else look key nx
      | _ => none

/-- Strictly increasing keys. -/
def Increasing (l : List (K × Pay V)) : Prop := (l.map Prod.fst).Pairwise (· < ·)

/-- Child of the last separator `≤ key` (`closed`) / `< key`, `d` when there is none. -/
def route (key : K) (closed : Bool) : PID → List (K × PID) → PID
  | d, [] => d
  | d, (k, p) :: rest =>
    if k < key ∨ (closed = true ∧ k = key) then route key closed p rest else d

end BwTree.Spec
