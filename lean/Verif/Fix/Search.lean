import Verif.Fix.Model
import Verif.Layout.Search
import Verif.Tree.HeadOps

/-!
# Searches on bytes (model, fixed-length layout)

The comparisons of `component/fixlen/delta_record.hpp`, the binary searches of
`component/fixlen/node.hpp` and the procedures of `component/delta_chain.hpp`, on the bytes of the
objects.  `key` holds the bytes of the caller's key, `plen` is the size of a payload.
-/

namespace BwTree.Fix

open Layout (Mem FCfg FPage FSplit BRd BCh BBound)

/-- `HasSameKey`, `fixlen/delta_record.hpp` 203-208. -/
def FRec.sameKey (lt : Str → Str → Bool) (r : FRec) (key : Str) : Bool :=
  !lt key r.key && !lt r.key key

/-- `LowKeyIsLE`, `fixlen/delta_record.hpp` 216-223. -/
def FRec.lowLE (lt : Str → Str → Bool) (r : FRec) (key : Str) (closed : Bool) :
    Bool :=
  lt r.key key || (closed && !lt key r.key)

/-- `HighKeyIsGE`, `fixlen/delta_record.hpp` 231-238. -/
def FRec.highGE (lt : Str → Str → Bool) (r : FRec) (key : Str) (closed : Bool) :
    Bool :=
  !r.hasHigh || lt key r.high || (closed && !lt r.high key)

/-! ## In a node -/

/-- The loop of `SearchRecord` and `SearchChild`, `fixlen/node.hpp` 336-349 and 370-382; `e` is
`end_pos + 1`.  `none`: a key that does not exist is read. -/
def fbsLoop (lt : Str → Str → Bool) (c : FCfg) (nd : FNode) (key : Str) :
    Nat → Nat → Nat → Option (Bool × Nat)
  | 0, b, e => if b < e then none else some (false, b)
  | f + 1, b, e =>
    if b < e then
      let pos := (b + e - 1) / 2
      if nd.pg.cnt ≤ pos then none
      else if lt key (nd.pg.key c pos) then fbsLoop lt c nd key f b pos
      else if lt (nd.pg.key c pos) key then fbsLoop lt c nd key f (pos + 1) e
      else some (true, pos)
    else some (false, b)

/-- `SearchRecord`, `fixlen/node.hpp` 330-350. -/
def FNode.searchRecord (lt : Str → Str → Bool) (c : FCfg) (nd : FNode)
    (key : Str) : Option (Bool × Nat) :=
  fbsLoop lt c nd key nd.pg.cnt (if nd.inner && !nd.hasLow then 1 else 0) nd.pg.cnt

/-- `SearchChild`, `fixlen/node.hpp` 362-385: the bytes of the page ID. -/
def FNode.searchChild (lt : Str → Str → Bool) (c : FCfg) (plen : Nat) (nd : FNode)
    (key : Str) (closed : Bool) : Option Str :=
  match fbsLoop lt c nd key nd.pg.cnt 1 nd.pg.cnt with
  | none => none
  | some (found, pos) =>
    let b := if found then pos + (if closed then 1 else 0) else pos
    if b - 1 < nd.pg.cnt then some (nd.pg.pay c plen (b - 1)) else none

/-! ## In a chain -/

/-- Outcome of `SearchRecord` on a chain of objects. -/
inductive BSRes where
  | found (pay : Str)
  | notFound
  | sibling (p : Nat)
  | removed
  | base (nd : FNode)
  | ub

/-- `DeltaChain::SearchRecord`, `delta_chain.hpp` 140-199. -/
def bSearchRecord (P : FPar) (plen : Nat) (key : Str) :
    Bool → BChain → BSRes
  | smo, .base nd =>
    if !smo && !nd.asRec.highGE P.lt key false then .sibling nd.next else .base nd
  | _, .removed _ => .removed
  | smo, .delta ty r ref nx =>
    match ty with
    | .insert | .modify =>
      if r.sameKey P.lt key then .found (r.pay P plen) else bSearchRecord P plen key smo nx
    | .delete => if r.sameKey P.lt key then .notFound else bSearchRecord P plen key smo nx
    | .merge =>
      if r.lowLE P.lt key true then
        match ref with
        | .node nd => if !smo && !r.highGE P.lt key false then .sibling nd.next else .base nd
        | _ => .ub
      else bSearchRecord P plen key true nx

/-- Outcome of `SearchChildNode` on a chain of objects. -/
inductive BCRes where
  | child (pid : Str)
  | cell (w : Nat)
  | sibling (p : Nat)
  | removed
  | base (nd : FNode)
  | ub

/-- `DeltaChain::SearchChildNode`, `delta_chain.hpp` 65-127. -/
def bSearchChild (P : FPar) (plen : Nat) (key : Str)
    (closed : Bool) : Bool → BChain → BCRes
  | smo, .base nd =>
    if !smo && !nd.asRec.highGE P.lt key (!closed) then .sibling nd.next else .base nd
  | _, .removed _ => .removed
  | smo, .delta ty r ref nx =>
    match ty with
    | .insert =>
      if r.lowLE P.lt key closed && r.highGE P.lt key (!closed) then .child (r.pay P plen)
      else bSearchChild P plen key closed smo nx
    | .delete =>
      if r.lowLE P.lt key closed && r.highGE P.lt key (!closed) then
        match ref with
        | .word w => .cell w
        | _ => .ub
      else bSearchChild P plen key closed smo nx
    | .merge =>
      if r.lowLE P.lt key closed then
        match ref with
        | .node nd => if !smo && !r.highGE P.lt key (!closed) then .sibling nd.next else .base nd
        | _ => .ub
      else bSearchChild P plen key closed true nx
    | .modify => .ub

/-- `DeltaChain::Validate`, `delta_chain.hpp` 301-336. -/
def bValidate (lt : Str → Str → Bool) (key : Str) (closed : Bool) :
    BChain → VRes
  | .base nd => if !nd.asRec.highGE lt key (!closed) then .sibling nd.next else .ok
  | .removed _ => .removed
  | .delta ty r ref nx =>
    match ty with
    | .merge =>
      if !r.highGE lt key (!closed) then
        match ref with
        | .node nd => .sibling nd.next
        | _ => .ub
      else .ok
    | _ => bValidate lt key closed nx

/-- Outcome of `SearchForMerge` on a chain of objects. -/
inductive BMRes where
  | found
  | abort
  | sibling (p : Nat)
  | removed
  | base (nd : FNode) (kf sf : Bool)
  | ub

/-- Comparison with an optional key. -/
def FRec.sameKeyOpt (lt : Str → Str → Bool) (r : FRec) : Option Str → Bool
  | none => false
  | some s => r.sameKey lt s

/-- `DeltaChain::SearchForMerge`, `delta_chain.hpp` 215-288. -/
def bSearchForMerge (lt : Str → Str → Bool) (key : Str) (sib : Option Str) :
    Bool → Bool → Bool → BChain → BMRes
  | smo, kf, sf, .base nd =>
    if !kf && (nd.hasLow && nd.asRec.sameKey lt key) then .abort
    else if !kf && !smo && !nd.asRec.highGE lt key false then .sibling nd.next
    else .base nd kf sf
  | _, _, _, .removed _ => .removed
  | smo, kf, sf, .delta ty r ref nx =>
    match ty with
    | .insert =>
      let kf' := kf || r.sameKey lt key
      if !kf && kf' && sf then .found
      else
        let sf' := sf || r.sameKeyOpt lt sib
        if !sf && sf' && kf' then .found
        else bSearchForMerge lt key sib smo kf' sf' nx
    | .delete =>
      if !kf && r.sameKey lt key then .abort
      else if !sf && r.sameKeyOpt lt sib then .abort
      else bSearchForMerge lt key sib smo kf sf nx
    | .merge =>
      if r.lowLE lt key true then
        match ref with
        | .node nd =>
          if !smo && !kf && !r.highGE lt key false then .sibling nd.next
          else .base nd kf sf
        | _ => .ub
      else
        let sf' := sf || r.sameKeyOpt lt sib
        if !sf && sf' && kf then .found
        else bSearchForMerge lt key sib true kf sf' nx
    | .modify => .ub

/-! ## One loaded head -/

/-- `Read`, `bw_tree.hpp` 157-195: one loaded head. -/
def bRead (P : FPar) (plen : Nat) (key : Str)
    (b : BChain) : BRd :=
  match bSearchRecord P plen key false b with
  | .found p => .ret (some p)
  | .notFound => .ret none
  | .sibling p => .sibling p
  | .removed => .removed
  | .base nd =>
    match nd.searchRecord P.lt P.c key with
    | none => .ub
    | some (true, pos) => .ret (some (nd.pg.pay P.c plen pos))
    | some (false, _) => .ret none
  | .ub => .ub

/-- `GetHeadWithKeyCheck`, `bw_tree.hpp` 985-1015: one loaded head. -/
def bKeyCheck (P : FPar) (plen : Nat) (key : Str)
    (b : BChain) : KcRes :=
  match bSearchRecord P plen key false b with
  | .found _ => .ret true
  | .notFound => .ret false
  | .sibling p => .sibling p
  | .removed => .removed
  | .base nd =>
    match nd.searchRecord P.lt P.c key with
    | none => .ub
    | some (f, _) => .ret f
  | .ub => .ub

/-- `SearchChildNode`, `bw_tree.hpp` 779-812: one loaded head. -/
def bChildStep (P : FPar) (plen : Nat) (key : Str)
    (closed : Bool) (b : BChain) : BCh :=
  match bSearchChild P plen key closed false b with
  | .child p => .child p
  | .cell w => .cell w
  | .sibling p => .sibling p
  | .removed => .removed
  | .base nd =>
    match nd.searchChild P.lt P.c plen key closed with
    | some p => .child p
    | none => .ub
  | .ub => .ub

/-- `GetHeadForMerge`, `bw_tree.hpp` 1037-1075: one loaded head. -/
def bMergeCheck (P : FPar) (key : Str) (sib : Option Str) (b : BChain) : McRes :=
  match bSearchForMerge P.lt key sib false false sib.isNone b with
  | .found => .ok
  | .abort => .abort
  | .sibling p => .sibling p
  | .removed => .abort
  | .base nd kf sf =>
    match (if kf then some true else (nd.searchRecord P.lt P.c key).map Prod.fst) with
    | none => .ub
    | some kf' =>
      match sf, sib with
      | true, _ => if kf' then .ok else .abort
      | false, some s =>
        match (nd.searchRecord P.lt P.c s).map Prod.fst with
        | none => .ub
        | some sf' => if sf' && kf' then .ok else .abort
      | false, none => .ub
  | .ub => .ub

/-- `GetLeftmostChild`, `fixlen/node.hpp` 300-311. -/
def BChain.leftmostChild (c : FCfg) (plen : Nat) : BChain → Option Str
  | .base nd => if nd.pg.cnt = 0 then none else some (nd.pg.pay c plen 0)
  | .removed _ => none
  | .delta _ _ _ nx => nx.leftmostChild c plen

/-! ## Scans -/

/-- `IsRightmostOf`, `fixlen/node.hpp` 677-686. -/
def FNode.isRightmostOf (lt : Str → Str → Bool) (nd : FNode) (e : BBound) : Bool :=
  if !nd.hasHigh then true
  else match e with
    | none => false
    | some (k, closed) =>
      lt k nd.high || (!closed && !lt nd.high k)

/-- `SearchEndPositionFor`, `fixlen/node.hpp` 394-409. -/
def FNode.endPos (lt : Str → Str → Bool) (c : FCfg) (nd : FNode) (e : BBound) :
    Option (Bool × Nat) :=
  match nd.isRightmostOf lt e, e with
  | true, some (k, closed) =>
    (nd.searchRecord lt c k).map fun x => (true, if x.1 && closed then x.2 + 1 else x.2)
  | b, _ => some (b, nd.pg.cnt)

/-- Begin position, `bw_tree.hpp` 235 and 1109-1112. -/
def FNode.beginPos (lt : Str → Str → Bool) (c : FCfg) (nd : FNode) (b : BBound) :
    Option Nat :=
  match b with
  | none => some 0
  | some (k, closed) =>
    (nd.searchRecord lt c k).map fun x => if !x.1 || closed then x.2 else x.2 + 1

/-- One node visit of a scan: the bytes of the records, and key and page of the next visit
(`record_iterator.hpp` 137-178).  `none`: a record that does not exist is read. -/
def bScanOut (P : FPar) (plen : Nat) (old : Mem)
    (b e : BBound) (head : BChain) :
    Option (List (Str × Str) × Option (Str × Nat)) :=
  match bTryConsolidate P old old true head with
  | some (.one _ nd) =>
    match nd.beginPos P.lt P.c b, nd.endPos P.lt P.c e with
    | some bp, some (isEnd, ep) =>
      if nd.pg.cnt < ep then none
      else some ((List.range' bp (ep - bp)).map fun i => (nd.pg.key P.c i, nd.pg.pay P.c plen i),
        if isEnd then none else some (nd.high, nd.next))
    | _, _ => none
  | _ => none

end BwTree.Fix
