import Verif.Layout.Chain
import Verif.Tree.HeadOps

/-!
# Searches on bytes (model, variable-length layout)

The comparisons of `component/varlen/delta_record.hpp`, the binary searches of
`component/varlen/node.hpp` and the procedures of `component/delta_chain.hpp`, on the bytes of the
objects.  `key` holds the bytes of the caller's key, `plen` is the size of a payload.
-/

namespace BwTree.Layout

/-- `HasSameKey`, `varlen/delta_record.hpp` 220-226. -/
def VRec.sameKey (lt : List UInt8 → List UInt8 → Bool) (r : VRec) (key : List UInt8) : Bool :=
  !lt key r.key && !lt r.key key

/-- `LowKeyIsLE`, `varlen/delta_record.hpp` 234-242. -/
def VRec.lowLE (lt : List UInt8 → List UInt8 → Bool) (r : VRec) (key : List UInt8) (closed : Bool) :
    Bool :=
  lt r.key key || (closed && !lt key r.key)

/-- `HighKeyIsGE`, `varlen/delta_record.hpp` 250-258. -/
def VRec.highGE (lt : List UInt8 → List UInt8 → Bool) (r : VRec) (key : List UInt8) (closed : Bool) :
    Bool :=
  match r.highKey with
  | none => true
  | some h => lt key h || (closed && !lt h key)

/-! ## In a node -/

/-- The loop of `SearchRecord` and `SearchChild`, `varlen/node.hpp` 362-375 and 396-410; `e` is
`end_pos + 1`.  `none`: a metadata entry that does not exist is read. -/
def vbsLoop (lt : List UInt8 → List UInt8 → Bool) (c : VCfg) (pg : VPage) (key : List UInt8) :
    Nat → Nat → Nat → Option (Bool × Nat)
  | 0, b, e => if b < e then none else some (false, b)
  | f + 1, b, e =>
    if b < e then
      let pos := (b + e - 1) / 2
      if pg.cnt ≤ pos then none
      else if lt key (pg.key c pos) then vbsLoop lt c pg key f b pos
      else if lt (pg.key c pos) key then vbsLoop lt c pg key f (pos + 1) e
      else some (true, pos)
    else some (false, b)

/-- `SearchRecord`, `varlen/node.hpp` 358-378. -/
def VPage.searchRecord (lt : List UInt8 → List UInt8 → Bool) (c : VCfg) (pg : VPage)
    (key : List UInt8) : Option (Bool × Nat) :=
  vbsLoop lt c pg key pg.cnt (if pg.inner && decide (pg.low.keyLen.toNat = 0) then 1 else 0) pg.cnt

/-- `SearchChild`, `varlen/node.hpp` 390-413: the bytes of the page ID. -/
def VPage.searchChild (lt : List UInt8 → List UInt8 → Bool) (c : VCfg) (plen : Nat) (pg : VPage)
    (key : List UInt8) (closed : Bool) : Option (List UInt8) :=
  match vbsLoop lt c pg key pg.cnt 1 pg.cnt with
  | none => none
  | some (found, pos) =>
    let b := if found then pos + (if closed then 1 else 0) else pos
    if b - 1 < pg.cnt then some (pg.pay c plen (b - 1)) else none

/-! ## In a chain -/

/-- Outcome of `SearchRecord` on a chain of objects. -/
inductive BSRes where
  | found (pay : List UInt8)
  | notFound
  | sibling (p : Nat)
  | removed
  | base (pg : VPage)
  | ub

/-- `DeltaChain::SearchRecord`, `delta_chain.hpp` 140-199. -/
def bSearchRecord (lt : List UInt8 → List UInt8 → Bool) (plen : Nat) (key : List UInt8) :
    Bool → BChain → BSRes
  | smo, .base pg =>
    if !smo && !pg.asRec.highGE lt key false then .sibling pg.next else .base pg
  | _, .removed _ => .removed
  | smo, .delta ty r ref nx =>
    match ty with
    | .insert | .modify =>
      if r.sameKey lt key then .found (r.pay plen) else bSearchRecord lt plen key smo nx
    | .delete => if r.sameKey lt key then .notFound else bSearchRecord lt plen key smo nx
    | .merge =>
      if r.lowLE lt key true then
        match ref with
        | .node pg => if !smo && !r.highGE lt key false then .sibling pg.next else .base pg
        | _ => .ub
      else bSearchRecord lt plen key true nx

/-- Outcome of `SearchChildNode` on a chain of objects. -/
inductive BCRes where
  | child (pid : List UInt8)
  | cell (w : Nat)
  | sibling (p : Nat)
  | removed
  | base (pg : VPage)
  | ub

/-- `DeltaChain::SearchChildNode`, `delta_chain.hpp` 65-127. -/
def bSearchChild (lt : List UInt8 → List UInt8 → Bool) (plen : Nat) (key : List UInt8)
    (closed : Bool) : Bool → BChain → BCRes
  | smo, .base pg =>
    if !smo && !pg.asRec.highGE lt key (!closed) then .sibling pg.next else .base pg
  | _, .removed _ => .removed
  | smo, .delta ty r ref nx =>
    match ty with
    | .insert =>
      if r.lowLE lt key closed && r.highGE lt key (!closed) then .child (r.pay plen)
      else bSearchChild lt plen key closed smo nx
    | .delete =>
      if r.lowLE lt key closed && r.highGE lt key (!closed) then
        match ref with
        | .word w => .cell w
        | _ => .ub
      else bSearchChild lt plen key closed smo nx
    | .merge =>
      if r.lowLE lt key closed then
        match ref with
        | .node pg => if !smo && !r.highGE lt key (!closed) then .sibling pg.next else .base pg
        | _ => .ub
      else bSearchChild lt plen key closed true nx
    | .modify => .ub

/-- `DeltaChain::Validate`, `delta_chain.hpp` 301-336. -/
def bValidate (lt : List UInt8 → List UInt8 → Bool) (key : List UInt8) (closed : Bool) :
    BChain → VRes
  | .base pg => if !pg.asRec.highGE lt key (!closed) then .sibling pg.next else .ok
  | .removed _ => .removed
  | .delta ty r ref nx =>
    match ty with
    | .merge =>
      if !r.highGE lt key (!closed) then
        match ref with
        | .node pg => .sibling pg.next
        | _ => .ub
      else .ok
    | _ => bValidate lt key closed nx

/-- Outcome of `SearchForMerge` on a chain of objects. -/
inductive BMRes where
  | found
  | abort
  | sibling (p : Nat)
  | removed
  | base (pg : VPage) (kf sf : Bool)
  | ub

/-- Comparison with the key in the buffer. -/
def VRec.sameKeyOpt (lt : List UInt8 → List UInt8 → Bool) (r : VRec) : Option (List UInt8) → Bool
  | none => false
  | some s => r.sameKey lt s

/-- The buffer after `GetHighKey`. -/
def VRec.loadHigh (r : VRec) (buf : Option (List UInt8)) : Option (List UInt8) :=
  match r.highKey with
  | none => buf
  | some h => some h

/-- `DeltaChain::SearchForMerge`, `delta_chain.hpp` 215-288, with the buffer of `GetHighKey` (see
`Tree/KeyBuffer.lean`). -/
def bSearchForMerge (lt : List UInt8 → List UInt8 → Bool) (key : List UInt8) :
    Option (List UInt8) → Bool → Bool → Bool → BChain → BMRes × Option (List UInt8)
  | buf, smo, kf, sf, .base pg =>
    if !kf && !decide (pg.low.keyLen.toNat = 0) && pg.asRec.sameKey lt key then (.abort, buf)
    else if !kf && !smo then
      if !pg.asRec.highGE lt key false then (.sibling pg.next, pg.asRec.loadHigh buf)
      else (.base pg kf sf, pg.asRec.loadHigh buf)
    else (.base pg kf sf, buf)
  | buf, _, _, _, .removed _ => (.removed, buf)
  | buf, smo, kf, sf, .delta ty r ref nx =>
    match ty with
    | .insert =>
      let kf' := kf || r.sameKey lt key
      if !kf && kf' && sf then (.found, buf)
      else
        let sf' := sf || r.sameKeyOpt lt buf
        if !sf && sf' && kf' then (.found, buf)
        else bSearchForMerge lt key buf smo kf' sf' nx
    | .delete =>
      if !kf && r.sameKey lt key then (.abort, buf)
      else if !sf && r.sameKeyOpt lt buf then (.abort, buf)
      else bSearchForMerge lt key buf smo kf sf nx
    | .merge =>
      if r.lowLE lt key true then
        match ref with
        | .node pg =>
          if !smo && !kf then
            if !r.highGE lt key false then (.sibling pg.next, r.loadHigh buf)
            else (.base pg kf sf, r.loadHigh buf)
          else (.base pg kf sf, buf)
        | _ => (.ub, buf)
      else
        let sf' := sf || r.sameKeyOpt lt buf
        if !sf && sf' && kf then (.found, buf)
        else bSearchForMerge lt key buf true kf sf' nx
    | .modify => (.ub, buf)

/-! ## One loaded head -/

/-- Outcome of one iteration of `Read`. -/
inductive BRd where
  | ret (o : Option (List UInt8))
  | sibling (p : Nat)
  | removed
  | ub

/-- `Read`, `bw_tree.hpp` 157-195: one loaded head. -/
def bRead (lt : List UInt8 → List UInt8 → Bool) (c : VCfg) (plen : Nat) (key : List UInt8)
    (b : BChain) : BRd :=
  match bSearchRecord lt plen key false b with
  | .found p => .ret (some p)
  | .notFound => .ret none
  | .sibling p => .sibling p
  | .removed => .removed
  | .base pg =>
    match pg.searchRecord lt c key with
    | none => .ub
    | some (true, pos) => .ret (some (pg.pay c plen pos))
    | some (false, _) => .ret none
  | .ub => .ub

/-- `GetHeadWithKeyCheck`, `bw_tree.hpp` 985-1015: one loaded head. -/
def bKeyCheck (lt : List UInt8 → List UInt8 → Bool) (c : VCfg) (plen : Nat) (key : List UInt8)
    (b : BChain) : KcRes :=
  match bSearchRecord lt plen key false b with
  | .found _ => .ret true
  | .notFound => .ret false
  | .sibling p => .sibling p
  | .removed => .removed
  | .base pg =>
    match pg.searchRecord lt c key with
    | none => .ub
    | some (f, _) => .ret f
  | .ub => .ub

/-- Outcome of one iteration of `SearchChildNode`. -/
inductive BCh where
  | child (pid : List UInt8)
  | cell (w : Nat)
  | sibling (p : Nat)
  | removed
  | ub

/-- `SearchChildNode`, `bw_tree.hpp` 779-812: one loaded head. -/
def bChildStep (lt : List UInt8 → List UInt8 → Bool) (c : VCfg) (plen : Nat) (key : List UInt8)
    (closed : Bool) (b : BChain) : BCh :=
  match bSearchChild lt plen key closed false b with
  | .child p => .child p
  | .cell w => .cell w
  | .sibling p => .sibling p
  | .removed => .removed
  | .base pg =>
    match pg.searchChild lt c plen key closed with
    | some p => .child p
    | none => .ub
  | .ub => .ub

/-- `GetHeadForMerge`, `bw_tree.hpp` 1037-1075: one loaded head and the buffer. -/
def bMergeCheck (lt : List UInt8 → List UInt8 → Bool) (c : VCfg) (key : List UInt8) (has : Bool)
    (buf : Option (List UInt8)) (b : BChain) : McRes × Option (List UInt8) :=
  match bSearchForMerge lt key buf false false (!has) b with
  | (.found, b) => (.ok, b)
  | (.abort, b) => (.abort, b)
  | (.sibling p, b) => (.sibling p, b)
  | (.removed, b) => (.abort, b)
  | (.base pg kf sf, b) =>
    match (if kf then some true else (pg.searchRecord lt c key).map Prod.fst) with
    | none => (.ub, b)
    | some kf' =>
      match sf, b with
      | true, _ => (if kf' then .ok else .abort, b)
      | false, some s =>
        match (pg.searchRecord lt c s).map Prod.fst with
        | none => (.ub, b)
        | some sf' => (if sf' && kf' then .ok else .abort, b)
      | false, none => (.ub, b)
  | (.ub, b) => (.ub, b)

/-- `GetLeftmostChild`, `varlen/node.hpp` 328-339. -/
def BChain.leftmostChild (c : VCfg) (plen : Nat) : BChain → Option (List UInt8)
  | .base pg => if pg.cnt = 0 then none else some (pg.pay c plen 0)
  | .removed _ => none
  | .delta _ _ _ nx => nx.leftmostChild c plen

/-! ## Scans -/

/-- A bound of a scan: the bytes of its key and whether it is closed. -/
abbrev BBound := Option (List UInt8 × Bool)

/-- `IsRightmostOf`, `varlen/node.hpp` 731-741. -/
def VPage.isRightmostOf (lt : List UInt8 → List UInt8 → Bool) (pg : VPage) (e : BBound) : Bool :=
  if pg.high.keyLen.toNat = 0 then true
  else match e with
    | none => false
    | some (k, closed) =>
      lt k (pg.border pg.high) || (!closed && !lt (pg.border pg.high) k)

/-- `SearchEndPositionFor`, `varlen/node.hpp` 422-437. -/
def VPage.endPos (lt : List UInt8 → List UInt8 → Bool) (c : VCfg) (pg : VPage) (e : BBound) :
    Option (Bool × Nat) :=
  match pg.isRightmostOf lt e, e with
  | true, some (k, closed) =>
    (pg.searchRecord lt c k).map fun x => (true, if x.1 && closed then x.2 + 1 else x.2)
  | b, _ => some (b, pg.cnt)

/-- Begin position, `bw_tree.hpp` 235 and 1109-1112. -/
def VPage.beginPos (lt : List UInt8 → List UInt8 → Bool) (c : VCfg) (pg : VPage) (b : BBound) :
    Option Nat :=
  match b with
  | none => some 0
  | some (k, closed) =>
    (pg.searchRecord lt c k).map fun x => if !x.1 || closed then x.2 else x.2 + 1

/-- One node visit of a scan: the bytes of the records, and key and page of the next visit
(`record_iterator.hpp` 137-178).  `none`: a record that does not exist is read. -/
def bScanOut (lt : List UInt8 → List UInt8 → Bool) (c : VCfg) (plen minSize : Nat) (old : Mem)
    (b e : BBound) (head : BChain) :
    Option (List (List UInt8 × List UInt8) × Option (List UInt8 × Nat)) :=
  match bTryConsolidate lt c minSize old old true head with
  | some (.one _ pg) =>
    match pg.beginPos lt c b, pg.endPos lt c e with
    | some bp, some (isEnd, ep) =>
      if pg.cnt < ep then none
      else some ((List.range' bp (ep - bp)).map fun i => (pg.key c i, pg.pay c plen i),
        if isEnd then none else some (pg.border pg.high, pg.next))
    | _, _ => none
  | _ => none

end BwTree.Layout
