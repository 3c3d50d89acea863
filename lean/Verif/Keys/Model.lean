import Verif.Conc.Code

/-!
# Keys as pointers (model of the general layout)

With variable-length keys `Key` is `char *` and a key argument is an address.  Every getter that
returns a key copies it into a `thread_local` buffer of its own and returns the address of that
buffer; the next call of the same getter by the same thread overwrites the characters.

The functions here are those of `Tree/Model.lean`, `Tree/HeadOps.lean`, `Tree/Scan.lean` and
`Conc/Code.lean` with the key arguments passed by reference and the buffers as a state.  Comparisons
are evaluated in the order of the source.

Simplification: all keys have the same length (a copy replaces all the characters of a buffer).
-/

namespace BwTree.Keys
open BwTree Prog

variable {K V : Type} [LinearOrder K]

/-- The `thread_local` key buffers. -/
inductive Buf where
  /-- of `Node::GetKey`, `varlen/node.hpp` 759-775 (also behind `RecordIterator::GetKey` and
  `operator*`, `record_iterator.hpp` 137-141, 185-190). -/
  | nodeKey
  /-- of `Node::GetLowKey`, `varlen/node.hpp` 211-227. -/
  | nodeLow
  /-- of `Node::GetHighKey`, `varlen/node.hpp` 238-254. -/
  | nodeHigh
  /-- of `DeltaRecord::GetKey`, `varlen/delta_record.hpp` 412-428. -/
  | deltaKey
  /-- of `DeltaRecord::GetHighKey`, `varlen/delta_record.hpp` 347-367. -/
  | deltaHigh
  deriving DecidableEq

/-- The characters in the buffers of one thread. -/
abbrev Bufs (K : Type) := Buf → K

/-- `memcpy` into a buffer. -/
def Bufs.set (b : Bufs K) (x : Buf) (k : K) : Bufs K := fun y => if y = x then k else b y

/-- A key argument: it points to memory of the caller that nobody overwrites during the call (also
`component::DeepCopy`, `common.hpp` 180-198), or to one of the buffers. -/
inductive Ref (K : Type) where
  | own (k : K)
  | buf (x : Buf)

/-- The characters behind the pointer. -/
def Ref.get (b : Bufs K) : Ref K → K
  | .own k => k
  | .buf x => b x

/-! ## Comparisons, `varlen/delta_record.hpp` -/

/-- `HasSameKey`, 220-226. -/
def sameKeyR (r : Ref K) (a : K) (b : Bufs K) : Bool × Bufs K :=
  (sameKey a (r.get (b.set .deltaKey a)), b.set .deltaKey a)

/-- `LowKeyIsLE`, 234-242. -/
def lowKeyIsLER (r : Ref K) (low : K) (closed : Bool) (b : Bufs K) : Bool × Bufs K :=
  (lowKeyIsLE low (r.get (b.set .deltaKey low)) closed, b.set .deltaKey low)

/-- `HighKeyIsGE`, 250-258; without a highest key nothing is copied (351-352). -/
def highKeyIsGER (r : Ref K) (high : Option K) (closed : Bool) (b : Bufs K) : Bool × Bufs K :=
  match high with
  | none => (true, b)
  | some h => (highKeyIsGE (some h) (r.get (b.set .deltaHigh h)) closed, b.set .deltaHigh h)

/-! ## Binary searches, `varlen/node.hpp` -/

/-- The loop of `SearchRecord` (364-376) and `SearchChild` (398-411). -/
def bsLoopR {α : Type} (recs : List (K × α)) (r : Ref K) :
    Nat → Nat → Nat → Bufs K → Option ((Bool × Nat) × Bufs K)
  | 0, s, e, b => if s < e then none else some ((false, s), b)
  | f + 1, s, e, b =>
    if s < e then
      match recs[(s + e - 1) / 2]? with
      | none => none
      | some (ik, _) =>
        if r.get (b.set .nodeKey ik) < ik then
          bsLoopR recs r f s ((s + e - 1) / 2) (b.set .nodeKey ik)
        else if ik < r.get (b.set .nodeKey ik) then
          bsLoopR recs r f ((s + e - 1) / 2 + 1) e (b.set .nodeKey ik)
        else some ((true, (s + e - 1) / 2), b.set .nodeKey ik)
    else some ((false, s), b)

/-- `SearchRecord`, 357-380. -/
def searchRecordR (n : Node K V) (r : Ref K) (b : Bufs K) : Option ((Bool × Nat) × Bufs K) :=
  bsLoopR n.recs r n.recs.length (if n.inner && n.low.isNone then 1 else 0) n.recs.length b

/-- `SearchChild`, 392-415. -/
def searchChildNR (n : Node K V) (r : Ref K) (closed : Bool) (b : Bufs K) :
    Option (PID × Bufs K) :=
  match bsLoopR n.recs r n.recs.length 1 n.recs.length b with
  | none => none
  | some ((found, pos), b') =>
    match n.recs[(if found then pos + (if closed then 1 else 0) else pos) - 1]? with
    | some (_, .child p) => some (p, b')
    | _ => none

/-! ## Walks along a chain, `delta_chain.hpp` -/

/-- `SearchRecord`, 140-199. -/
def dcSearchRecordR (r : Ref K) : Bool → Chain K V → Bufs K → SRes K V × Bufs K
  | smo, .base n, b =>
    if smo then (.base n, b)
    else if (highKeyIsGER r n.high false b).1 then (.base n, (highKeyIsGER r n.high false b).2)
    else (.sibling n.next, (highKeyIsGER r n.high false b).2)
  | _, .removed _, b => (.removed, b)
  | smo, .delta d nx, b =>
    match d.ty with
    | .insert | .modify =>
      if (sameKeyR r d.key b).1 then (.found d.pay, (sameKeyR r d.key b).2)
      else dcSearchRecordR r smo nx (sameKeyR r d.key b).2
    | .delete =>
      if (sameKeyR r d.key b).1 then (.notFound, (sameKeyR r d.key b).2)
      else dcSearchRecordR r smo nx (sameKeyR r d.key b).2
    | .merge =>
      if (lowKeyIsLER r d.key true b).1 then
        match d.pay with
        | .node n =>
          if smo then (.base n, (lowKeyIsLER r d.key true b).2)
          else if (highKeyIsGER r d.high false (lowKeyIsLER r d.key true b).2).1 then
            (.base n, (highKeyIsGER r d.high false (lowKeyIsLER r d.key true b).2).2)
          else (.sibling n.next, (highKeyIsGER r d.high false (lowKeyIsLER r d.key true b).2).2)
        | _ => (.ub, b)
      else dcSearchRecordR r true nx (lowKeyIsLER r d.key true b).2

/-- The test `LowKeyIsLE(key, closed) && HighKeyIsGE(key, !closed)` of an index entry, 78, 86. -/
def inEntryR (r : Ref K) (low : K) (high : Option K) (closed : Bool) (b : Bufs K) : Bool × Bufs K :=
  if (lowKeyIsLER r low closed b).1 then highKeyIsGER r high (!closed) (lowKeyIsLER r low closed b).2
  else (false, (lowKeyIsLER r low closed b).2)

/-- `SearchChildNode`, 65-127. -/
def dcSearchChildR (r : Ref K) (closed : Bool) : Bool → Chain K V → Bufs K → CRes K V × Bufs K
  | smo, .base n, b =>
    if smo then (.base n, b)
    else if (highKeyIsGER r n.high (!closed) b).1 then
      (.base n, (highKeyIsGER r n.high (!closed) b).2)
    else (.sibling n.next, (highKeyIsGER r n.high (!closed) b).2)
  | _, .removed _, b => (.removed, b)
  | smo, .delta d nx, b =>
    match d.ty with
    | .insert =>
      if (inEntryR r d.key d.high closed b).1 then
        match d.pay with
        | .child p => (.child p, (inEntryR r d.key d.high closed b).2)
        | _ => (.ub, b)
      else dcSearchChildR r closed smo nx (inEntryR r d.key d.high closed b).2
    | .delete =>
      if (inEntryR r d.key d.high closed b).1 then
        match d.pay with
        | .cell c => (.cell c, (inEntryR r d.key d.high closed b).2)
        | _ => (.ub, b)
      else dcSearchChildR r closed smo nx (inEntryR r d.key d.high closed b).2
    | .merge =>
      if (lowKeyIsLER r d.key closed b).1 then
        match d.pay with
        | .node n =>
          if smo then (.base n, (lowKeyIsLER r d.key closed b).2)
          else if (highKeyIsGER r d.high (!closed) (lowKeyIsLER r d.key closed b).2).1 then
            (.base n, (highKeyIsGER r d.high (!closed) (lowKeyIsLER r d.key closed b).2).2)
          else
            (.sibling n.next, (highKeyIsGER r d.high (!closed) (lowKeyIsLER r d.key closed b).2).2)
        | _ => (.ub, b)
      else dcSearchChildR r closed true nx (lowKeyIsLER r d.key closed b).2
    | .modify => (.ub, b)

/-- `Validate`, 301-336. -/
def dcValidateR (r : Ref K) (closed : Bool) : Chain K V → Bufs K → VRes × Bufs K
  | .base n, b =>
    (if (highKeyIsGER r n.high (!closed) b).1 then .ok else .sibling n.next,
      (highKeyIsGER r n.high (!closed) b).2)
  | .removed _, b => (.removed, b)
  | .delta d nx, b =>
    match d.ty with
    | .merge =>
      if (highKeyIsGER r d.high (!closed) b).1 then (.ok, (highKeyIsGER r d.high (!closed) b).2)
      else
        match d.pay with
        | .node n => (.sibling n.next, (highKeyIsGER r d.high (!closed) b).2)
        | _ => (.ub, b)
    | _ => dcValidateR r closed nx b

/-! ## One loaded head, `bw_tree.hpp` -/

/-- `Read`, 157-195. -/
def readChainR (r : Ref K) (c : Chain K V) (b : Bufs K) : RdRes V × Bufs K :=
  match dcSearchRecordR r false c b with
  | (.found (.val v), b') => (.ret (some v), b')
  | (.found _, b') => (.ub, b')
  | (.notFound, b') => (.ret none, b')
  | (.sibling p, b') => (.sibling p, b')
  | (.removed, b') => (.removed, b')
  | (.base n, b') =>
    match searchRecordR n r b' with
    | none => (.ub, b')
    | some ((true, pos), b'') => (payloadAt n pos, b'')
    | some ((false, _), b'') => (.ret none, b'')
  | (.ub, b') => (.ub, b')

/-- `GetHeadWithKeyCheck`, 985-1015. -/
def keyCheckR (r : Ref K) (c : Chain K V) (b : Bufs K) : KcRes × Bufs K :=
  match dcSearchRecordR r false c b with
  | (.found _, b') => (.ret true, b')
  | (.notFound, b') => (.ret false, b')
  | (.sibling p, b') => (.sibling p, b')
  | (.removed, b') => (.removed, b')
  | (.base n, b') =>
    match searchRecordR n r b' with
    | none => (.ub, b')
    | some ((f, _), b'') => (.ret f, b'')
  | (.ub, b') => (.ub, b')

/-- `SearchChildNode`, 779-812. -/
def childStepR (r : Ref K) (closed : Bool) (c : Chain K V) (b : Bufs K) : ChRes × Bufs K :=
  match dcSearchChildR r closed false c b with
  | (.child p, b') => (.child p, b')
  | (.cell w, b') => (.cell w, b')
  | (.sibling p, b') => (.sibling p, b')
  | (.removed, b') => (.removed, b')
  | (.base n, b') =>
    match searchChildNR n r closed b' with
    | some (p, b'') => (.child p, b'')
    | none => (.ub, b')
  | (.ub, b') => (.ub, b')

/-! ## The searches of `bw_tree.hpp` -/

/-- `SearchChildNode`, 770-816. -/
def searchChildR (r : Ref K) (closed : Bool) (tgt : PID) :
    Nat → Stk → Bufs K → Prog K V ((Bool × Stk) × Bufs K)
  | 0, _, _ => .stuck
  | _ + 1, [], _ => .ub
  | f + 1, p :: rest, b => .load p fun c =>
    if c.liveLeaf then .flag .leafAsInner
    else match childStepR r closed c b with
    | (.child q, b') => .ret ((false, q :: p :: rest), b')
    | (.cell w, b') => (waitCell f w).bind fun q => .ret ((false, q :: p :: rest), b')
    | (.sibling q, b') =>
      if q = tgt then .ret ((true, p :: rest), b') else searchChildR r closed tgt f (q :: rest) b'
    | (.removed, b') =>
      if rest = [] then
        if tgt ≠ 0 then .ret ((false, []), b')
        else .loadRoot fun x => searchChildR r closed tgt f [x] b'
      else (searchChildR r closed tgt f rest b').bind fun x =>
        if x.1.1 then .ret ((true, x.1.2), x.2)
        else if x.1.2 = [] then .ret ((false, []), x.2)
        else searchChildR r closed tgt f x.1.2 x.2
    | (.ub, _) => .ub

/-- `SearchLeafNode`, 835-840. -/
def searchLeafLoopR (r : Ref K) (closed : Bool) : Nat → Stk → Bufs K → Prog K V (Stk × Bufs K)
  | 0, _, _ => .stuck
  | _ + 1, [], _ => .ub
  | f + 1, p :: rest, b => .load p fun c =>
    if c.isLeaf then .ret (p :: rest, b)
    else (searchChildR r closed 0 f (p :: rest) b).bind fun x =>
      searchLeafLoopR r closed f x.1.2 x.2

/-- `SearchLeafNode`, 825-842. -/
def searchLeafR (r : Ref K) (closed : Bool) (f : Nat) (b : Bufs K) : Prog K V (Stk × Bufs K) :=
  .loadRoot fun x => searchLeafLoopR r closed f [x] b

/-- `SearchTargetNode`, 875-894. -/
def searchTargetR (r : Ref K) (tInner : Bool) (tgt : PID) :
    Nat → Stk → Bufs K → Prog K V (Stk × Bufs K)
  | 0, _, _ => .stuck
  | f + 1, [], b => .loadRoot fun x => searchTargetR r tInner tgt f [x] b
  | f + 1, p :: rest, b => .load p fun c =>
    if c.isLeaf then (if tInner then .flag .targetMissed else .ret (p :: rest, b))
    else (searchChildR r true tgt f (p :: rest) b).bind fun x =>
      if x.1.1 then .ret (x.1.2, x.2) else searchTargetR r tInner tgt f x.1.2 x.2

/-- `GetHead`, 929-967. -/
def getHeadR (cfg : Cfg K) (r : Ref K) (closed : Bool) (tgt : PID) :
    Nat → Stk → Bufs K → Prog K V (Option (Chain K V × Stk) × Bufs K)
  | 0, _, _ => .stuck
  | _ + 1, [], _ => .ub
  | f + 1, p :: rest, b => (loadValidHead cfg f p).bind fun c =>
    match dcValidateR r closed c b with
    | (.ok, b') => .ret (some (c, p :: rest), b')
    | (.sibling q, b') =>
      if q = tgt then .ret (some (c, p :: rest), b')
      else getHeadR cfg r closed tgt f (q :: rest) b'
    | (.removed, b') =>
      if rest = [] then
        if tgt ≠ 0 then .ret (none, b')
        else (searchLeafR r closed f b').bind fun s => getHeadR cfg r closed tgt f s.1 s.2
      else (searchChildR r closed tgt f rest b').bind fun x =>
        if x.1.2 = [] then .ret (none, x.2) else getHeadR cfg r closed tgt f x.1.2 x.2
    | (.ub, _) => .ub

/-- `GetHeadWithKeyCheck`, 977-1017. -/
def getHeadKCR (cfg : Cfg K) (r : Ref K) :
    Nat → Stk → Bufs K → Prog K V ((Stk × Chain K V × Bool) × Bufs K)
  | 0, _, _ => .stuck
  | _ + 1, [], _ => .ub
  | f + 1, p :: rest, b => (loadValidHead cfg f p).bind fun c =>
    if c.liveInner then .flag .innerAsLeaf
    else match keyCheckR r c b with
    | (.ret x, b') => .ret ((p :: rest, c, x), b')
    | (.sibling q, b') => getHeadKCR cfg r f (q :: rest) b'
    | (.removed, b') =>
      if rest = [] then (searchLeafR r true f b').bind fun s => getHeadKCR cfg r f s.1 s.2
      else (searchChildR r true 0 f rest b').bind fun x => getHeadKCR cfg r f x.1.2 x.2
    | (.ub, _) => .ub

/-! ## The merge check -/

/-- `delta_chain.hpp` 280-282: the low key of the base node, read by `DeltaRecord::GetLowKey`. -/
def lowIsKeyR (r : Ref K) : Option K → Bufs K → Bool × Bufs K
  | none, b => (false, b)
  | some l, b => sameKeyR r l b

/-- `SearchForMerge`, `delta_chain.hpp` 215-288; `rs` is the pointer in `sib_key`. -/
def dcSearchForMergeR (r rs : Ref K) : Bool → Bool → Bool → Chain K V → Bufs K → MRes K V × Bufs K
  | smo, kf, sf, .base n, b =>
    if kf then (.base n kf sf, b)
    else
      let x := lowIsKeyR r n.low b
      if x.1 then (.abort, x.2)
      else if smo then (.base n kf sf, x.2)
      else if (highKeyIsGER r n.high false x.2).1 then
        (.base n kf sf, (highKeyIsGER r n.high false x.2).2)
      else (.sibling n.next, (highKeyIsGER r n.high false x.2).2)
  | _, _, _, .removed _, b => (.removed, b)
  | smo, kf, sf, .delta d nx, b =>
    match d.ty with
    | .insert =>
      let x := if kf then (true, b) else sameKeyR r d.key b
      if !kf && x.1 && sf then (.found, x.2)
      else
        let y := if sf then (true, x.2) else sameKeyR rs d.key x.2
        if !sf && y.1 && x.1 then (.found, y.2)
        else dcSearchForMergeR r rs smo x.1 y.1 nx y.2
    | .delete =>
      let x := if kf then (false, b) else sameKeyR r d.key b
      if x.1 then (.abort, x.2)
      else
        let y := if sf then (false, x.2) else sameKeyR rs d.key x.2
        if y.1 then (.abort, y.2)
        else dcSearchForMergeR r rs smo kf sf nx y.2
    | .merge =>
      let x := lowKeyIsLER r d.key true b
      if x.1 then
        match d.pay with
        | .node n =>
          if smo || kf then (.base n kf sf, x.2)
          else if (highKeyIsGER r d.high false x.2).1 then
            (.base n kf sf, (highKeyIsGER r d.high false x.2).2)
          else (.sibling n.next, (highKeyIsGER r d.high false x.2).2)
        | _ => (.ub, b)
      else
        let y := if sf then (true, x.2) else sameKeyR rs d.key x.2
        if !sf && y.1 && kf then (.found, y.2)
        else dcSearchForMergeR r rs true kf y.1 nx y.2
    | .modify => (.ub, b)

/-- `GetHeadForMerge`, `bw_tree.hpp` 1037-1075, on one loaded head.  `has`: `sib_key` holds a
pointer. -/
def mergeCheckR (r rs : Ref K) (has : Bool) (c : Chain K V) (b : Bufs K) : McRes × Bufs K :=
  match dcSearchForMergeR r rs false false (!has) c b with
  | (.found, b') => (.ok, b')
  | (.abort, b') => (.abort, b')
  | (.sibling p, b') => (.sibling p, b')
  | (.removed, b') => (.abort, b')
  | (.base n kf sf, b') =>
    match (if kf then some ((true, 0), b') else searchRecordR n r b') with
    | none => (.ub, b')
    | some ((kf', _), b1) =>
      if sf then (if kf' then .ok else .abort, b1)
      else
        match searchRecordR n rs b1 with
        | none => (.ub, b1)
        | some ((sf', _), b2) => (if sf' && kf' then .ok else .abort, b2)
  | (.ub, b') => (.ub, b')

/-- `GetHeadForMerge`, 1028-1077. -/
def getHeadForMergeR (cfg : Cfg K) (r rs : Ref K) (has : Bool) :
    Nat → Stk → Bufs K → Prog K V ((Stk × Chain K V × Bool) × Bufs K)
  | 0, _, _ => .stuck
  | _ + 1, [], _ => .ub
  | f + 1, p :: rest, b => (loadValidHead cfg f p).bind fun c =>
    match mergeCheckR r rs has c b with
    | (.ok, b') => .ret ((p :: rest, c, true), b')
    | (.abort, b') => .ret ((p :: rest, c, false), b')
    | (.sibling q, b') => getHeadForMergeR cfg r rs has f (q :: rest) b'
    | (.ub, _) => .ub

/-! ## Structure modifications

`smo` is `TrySMOs`; it gets the buffers and returns them. -/

/-- Loop of `Split`, 1366-1395.  `sep` is the copy of the separator in the delta record (1364, and
`varlen/delta_record.hpp` 114-134); `r` is `key` (1365). -/
def splitLoopR (cfg : Cfg K) (smo : Chain K V → Stk → Bufs K → Prog K V (Bufs K)) (r : Ref K)
    (sep : K) (high : Option K) (rInner : Bool) (rpid lpid : PID) :
    Nat → Stk → Bufs K → Prog K V (Bufs K)
  | 0, _, _ => .stuck
  | f + 1, [], b => (tryRootSplit cfg sep rpid lpid).bind fun x =>
    if x then .ret b
    else (searchTargetR r rInner rpid f [] b).bind fun s =>
      match s.1 with
      | [] => .ub
      | _ :: s' => splitLoopR cfg smo r sep high rInner rpid lpid f s' s.2
  | f + 1, x :: xs, b => (getHeadR cfg r true rpid f (x :: xs) b).bind fun o =>
    match o.1 with
    | none => splitLoopR cfg smo r sep high rInner rpid lpid f [] o.2
    | some (_, []) => .ub
    | some (c, p :: rest) =>
      .cas p c (Chain.push (entryDelta sep high rpid) c (cfg.entLen true sep)) fun ok =>
        if ok then
          (if (Chain.push (entryDelta sep high rpid) c (cfg.entLen true sep)).needConsolidation cfg
            then smo (Chain.push (entryDelta sep high rpid) c (cfg.entLen true sep)) (p :: rest) o.2
            else .ret o.2)
        else splitLoopR cfg smo r sep high rInner rpid lpid f (p :: rest) o.2

/-- `Split`, 1346-1396; `r_node->GetLowKey()` at 1365. -/
def splitR (cfg : Cfg K) (smo : Chain K V → Stk → Bufs K → Prog K V (Bufs K)) (f : Nat)
    (l r : Node K V) (sep : K) (stk : Stk) (b : Bufs K) : Prog K V (Bufs K) :=
  match stk with
  | [] => .ub
  | lpid :: rest => .newPid fun rpid =>
    .store rpid (.base r) <|
    .store lpid (.base { l with next := rpid }) <|
    splitLoopR cfg smo (.buf .nodeLow) sep r.high r.inner rpid lpid f rest (b.set .nodeLow sep)

/-- Loop of `TryDeleteIndexEntry`, 1530-1547.  `dk`, `high`: the copies in the delta record. -/
def deleteLoopR (cfg : Cfg K) (smo : Chain K V → Stk → Bufs K → Prog K V (Bufs K)) (r rs : Ref K)
    (has : Bool) (dk : K) (high : Option K) (w : Nat) :
    Nat → Stk → Bufs K → Prog K V (Option Nat × Bufs K)
  | 0, _, _ => .stuck
  | f + 1, stk, b => (getHeadForMergeR cfg r rs has f stk b).bind fun x =>
    if x.1.2.2 then
      match x.1.1 with
      | [] => .ub
      | p :: rest =>
        .cas p x.1.2.1 (Chain.push (deleteDelta dk high w) x.1.2.1 (-(cfg.entLen true dk : Int)))
          fun ok =>
          if ok then
            if (Chain.push (deleteDelta dk high w) x.1.2.1
                (-(cfg.entLen true dk : Int))).needConsolidation cfg then
              (smo (Chain.push (deleteDelta dk high w) x.1.2.1 (-(cfg.entLen true dk : Int)))
                (p :: rest) x.2).bind fun b' => .ret (some w, b')
            else .ret (some w, x.2)
          else deleteLoopR cfg smo r rs has dk high w f (p :: rest) x.2
    else .ret (none, x.2)

/-- `TryDeleteIndexEntry`, 1514-1549: `removed_node->GetHighKey()` of `DeltaRecord` at 1529, the key
is the copy made by `TryMerge`. -/
def tryDeleteIndexEntryR (cfg : Cfg K) (smo : Chain K V → Stk → Bufs K → Prog K V (Bufs K))
    (f : Nat) (r : Ref K) (n : Node K V) (stk : Stk) (b : Bufs K) : Prog K V (Option Nat × Bufs K) :=
  if stk = [] then .ret (none, b)
  else match n.low with
    | none => .ret (none, b)
    | some dk => .newCell fun w =>
      deleteLoopR cfg smo r (.buf .deltaHigh) n.high.isSome dk n.high w f stk
        (match n.high with
          | none => b
          | some h => b.set .deltaHigh h)

/-- Loops of `TryMerge`, 1474-1501.  `dk`: the copy in the delta record. -/
def mergeLoopR (cfg : Cfg K) (smo : Chain K V → Stk → Bufs K → Prog K V (Bufs K)) (n : Node K V)
    (r : Ref K) (dk : K) (w : Nat) (rem : PID) : Nat → Bool → Stk → Bufs K → Prog K V (Bufs K)
  | 0, _, _, _ => .stuck
  | f + 1, true, [], b => (searchTargetR r n.inner rem f [] b).bind fun s =>
      mergeLoopR cfg smo n r dk w rem f false s.1 s.2
  | f + 1, true, x :: xs, b => (searchChildR r false rem f (x :: xs) b).bind fun y =>
      if y.1.2 = [] then mergeLoopR cfg smo n r dk w rem f true [] y.2
      else mergeLoopR cfg smo n r dk w rem f false y.1.2 y.2
  | f + 1, false, stk, b => (getHeadR cfg r false rem f stk b).bind fun o =>
    match o.1 with
    | none => mergeLoopR cfg smo n r dk w rem f true [] o.2
    | some (_, []) => .ub
    | some (c, p :: rest) =>
      .cas p c (Chain.push (mergeDelta n dk) c (cfg.nodeDiff n)) fun ok =>
        if ok then
          .storeCell w p
            (if (Chain.push (mergeDelta n dk) c (cfg.nodeDiff n)).needConsolidation cfg then
              smo (Chain.push (mergeDelta n dk) c (cfg.nodeDiff n)) (p :: rest) o.2
            else .ret o.2)
        else mergeLoopR cfg smo n r dk w rem f false (p :: rest) o.2

/-- The key `TryMerge` passes on: `DeepCopy(removed_node->GetLowKey(), …)`, 1455. -/
def delKeyRef (dk : K) : Ref K := .own dk

/-- `TryMerge`, 1434-1502; `removed_node->GetLowKey()` at 1455 (without a lowest key the buffer is
not used). -/
def tryMergeR (cfg : Cfg K) (smo : Chain K V → Stk → Bufs K → Prog K V (Bufs K)) (f : Nat)
    (head : Chain K V) (n : Node K V) (stk : Stk) (b : Bufs K) : Prog K V (Bufs K) :=
  match stk with
  | [] => .ub
  | p :: rest => .cas p head (.removed (!n.inner)) fun ok =>
    if ok then
      match n.low with
      | none => (tryRemoveRoot n p rest).bind fun x =>
          if x then .ret b else .store p (.base n) (.ret b)
      | some dk =>
        (tryDeleteIndexEntryR cfg smo f (delKeyRef dk) n rest (b.set .nodeLow dk)).bind fun o =>
          match o.1 with
          | none => (tryRemoveRoot n p rest).bind fun x =>
              if x then .ret o.2 else .store p (.base n) (.ret o.2)
          | some w => mergeLoopR cfg smo n (delKeyRef dk) dk w p f true rest o.2
    else .ret b

/-- `Consolidate`, 1288-1311, calls `GetKey` for every record of the base nodes except the first
one of a leftmost inner node. -/
def consBuf (c : Chain K V) (b : Bufs K) : Bufs K :=
  match dcSort [] [] c with
  | none => b
  | some (_, nodes) =>
    match (nodes.reverse.flatMap fun n =>
        n.recs.drop (if n.inner && n.low.isNone then 1 else 0)).getLast? with
    | none => b
    | some x => b.set .nodeKey x.1

/-- `TrySMOs`, 1178-1216. -/
def trySMOsR (cfg : Cfg K) : Nat → Chain K V → Stk → Bufs K → Prog K V (Bufs K)
  | 0, _, _, _ => .stuck
  | _ + 1, _, [], _ => .ub
  | f + 1, head, p :: rest, b => .cas p head head fun ok =>
    if ok then
      match tryConsolidate cfg false head with
      | none => .ub
      | some (.consolidate n) => .cas p head (.base n) fun _ => .ret (consBuf head b)
      | some (.split l r) =>
        match r.low with
        | none => .ub
        | some sep => splitR cfg (trySMOsR cfg f) f l r sep (p :: rest) (consBuf head b)
      | some (.merge n) => tryMergeR cfg (trySMOsR cfg f) f head n (p :: rest) (consBuf head b)
    else .ret b

/-! ## Point operations -/

/-- Loop of `Read`, 155-196. -/
def readLoopR (r : Ref K) : Nat → Stk → Bufs K → Prog K V (Option V × Bufs K)
  | 0, _, _ => .stuck
  | _ + 1, [], _ => .ub
  | f + 1, p :: rest, b => .load p fun c =>
    if c.liveInner then .flag .innerAsLeaf
    else match readChainR r c b with
    | (.ret o, b') => .ret (o, b')
    | (.sibling q, b') => readLoopR r f (q :: rest) b'
    | (.removed, b') =>
      if rest = [] then .flag .emptyStack
      else (searchChildR r true 0 f rest b').bind fun x => readLoopR r f x.1.2 x.2
    | (.ub, _) => .ub

/-- Loop of `Write` (269-289), `Insert` (325-346), `Update` (379-399), `Delete` (429-448).  `op`
carries the key in the delta record, which was copied before the loop; the key argument is still
used for the searches. -/
def writeLoopR (cfg : Cfg K) (op : Spec.Op K V) (r : Ref K) :
    Nat → Stk → Bufs K → Prog K V (Spec.Res V)
  | 0, _, _ => .stuck
  | f + 1, stk, b => (getHeadKCR cfg r f stk b).bind fun x =>
    match writeDelta cfg op x.1.2.2 with
    | .inl a => .ret a
    | .inr (d, diff) =>
      match x.1.1 with
      | [] => .ub
      | p :: rest =>
        .cas p x.1.2.1 (Chain.push d x.1.2.1 diff) fun ok =>
          if ok then
            if (Chain.push d x.1.2.1 diff).needConsolidation cfg then
              (trySMOsR cfg f (Chain.push d x.1.2.1 diff) (p :: rest) x.2).bind fun _ =>
                .ret .success
            else .ret .success
          else writeLoopR cfg op r f (p :: rest) x.2

/-- An operation without its key argument. -/
inductive PtOp (V : Type) where
  | read
  | write (v : V)
  | insert (v : V)
  | update (v : V)
  | delete

/-- The operation with a key. -/
def PtOp.at (k : K) : PtOp V → Spec.Op K V
  | .read => .read k
  | .write v => .write k v
  | .insert v => .insert k v
  | .update v => .update k v
  | .delete => .delete k

/-- `Read` (145-197), `Write` (260-297), `Insert` (313-350), `Update` (367-403), `Delete` (417-452)
with a key argument.  The delta record is built after `SearchLeafNode` and before the loop (270, 326,
380, 430). -/
def runOpR (cfg : Cfg K) (f : Nat) (op : PtOp V) (r : Ref K) (b : Bufs K) :
    Prog K V (Spec.Res V) :=
  (searchLeafR r true f b).bind fun s =>
    match op with
    | .read => (readLoopR r f s.1 s.2).bind fun o => .ret (.payload o.1)
    | op => writeLoopR cfg (op.at (r.get s.2)) r f s.1 s.2

/-! ## Scans -/

/-- An end point given by reference: `ScanKey`, `record_iterator.hpp` 42. -/
abbrev RBound (K : Type) := Option (Ref K × Bool)

/-- The end point with the characters behind its pointer. -/
def RBound.get (b : Bufs K) : RBound K → Spec.Bound K
  | none => none
  | some (r, closed) => some (r.get b, closed)

/-- `IsRightmostOf`, `varlen/node.hpp` 732-741: `GetKey(high_meta_)`. -/
def isRightmostOfR (n : Node K V) (e : RBound K) (b : Bufs K) : Bool × Bufs K :=
  match n.high, e with
  | none, _ => (true, b)
  | some _, none => (false, b)
  | some h, some (r, closed) =>
    (decide (r.get (b.set .nodeKey h) < h) || (!closed && !decide (h < r.get (b.set .nodeKey h))),
      b.set .nodeKey h)

/-- `SearchEndPositionFor`, `varlen/node.hpp` 424-437. -/
def endPosR (n : Node K V) (e : RBound K) (b : Bufs K) : Option ((Bool × Nat) × Bufs K) :=
  match isRightmostOfR n e b, e with
  | (true, b'), some (r, closed) =>
    (searchRecordR n r b').map fun x => ((true, if x.1.1 && closed then x.1.2 + 1 else x.1.2), x.2)
  | (x, b'), _ => some ((x, n.recs.length), b')

/-- The begin position, `bw_tree.hpp` 1109-1112, 235. -/
def beginPosR (n : Node K V) (s : RBound K) (b : Bufs K) : Option (Nat × Bufs K) :=
  match s with
  | none => some (0, b)
  | some (r, closed) =>
    (searchRecordR n r b).map fun x => (if !x.1.1 || closed then x.1.2 else x.1.2 + 1, x.2)

/-- One node visit. -/
def scanOutR (cfg : Cfg K) (s e : RBound K) (c : Chain K V) (b : Bufs K) :
    Option ((List (K × V) × Option (K × PID)) × Bufs K) :=
  match scanNode cfg c with
  | none => none
  | some n =>
    match beginPosR n s (consBuf c b) with
    | none => none
    | some (bp, b1) =>
      match endPosR n e b1 with
      | none => none
      | some ((isEnd, ep), b2) =>
        match payloads ((n.recs.take ep).drop bp) with
        | none => none
        | some recs => some ((recs, if isEnd then none else n.high.map fun h => (h, n.next)), b2)

/-- `ConsolidateForScan`, 1092-1113, and `SearchEndPositionFor`. -/
def scanFromR (cfg : Cfg K) (r : Ref K) (closed : Bool) (e : RBound K) :
    Nat → Stk → Bufs K → Prog K V ((List (K × V) × Option (K × PID)) × Bufs K)
  | 0, _, _ => .stuck
  | f + 1, stk, b => (getHeadR cfg r closed 0 f stk b).bind fun o =>
    match o.1 with
    | none => .ub
    | some (c, stk') =>
      if c.isRemoved then scanFromR cfg r closed e f stk' o.2
      else if c.liveInner then .flag .innerAsLeaf
      else match scanOutR cfg (some (r, closed)) e c o.2 with
        | none => .ub
        | some x => .ret x

/-- The loop of `Scan` without a begin key, 228-234. -/
def scanLeftR (cfg : Cfg K) (e : RBound K) :
    Nat → PID → Bufs K → Prog K V ((List (K × V) × Option (K × PID)) × Bufs K)
  | 0, _, _ => .stuck
  | f + 1, p, b => .load p fun c =>
    if c.isRemoved then scanLeftR cfg e f p b
    else match scanOutR cfg none e c b with
      | none => .ub
      | some x => .ret x

/-- `Scan`, 206-242. -/
def scanFirstR (cfg : Cfg K) (f : Nat) (s e : RBound K) (b : Bufs K) :
    Prog K V ((List (K × V) × Option (K × PID)) × Bufs K) :=
  match s with
  | some (r, closed) =>
    (searchLeafR r closed f b).bind fun stk => scanFromR cfg r closed e f stk.1 stk.2
  | none => (.loadRoot fun x => leftmostLoop f x : Prog K V PID).bind fun p => scanLeftR cfg e f p b

/-- `SiblingScan`, 1124-1141, called by `HasRecord` (`record_iterator.hpp` 176-178) with the highest
key of the node in the page of the iterator, in the buffer of `Node::GetHighKey`. -/
def scanNextR (cfg : Cfg K) (f : Nat) (p : PID) (high : K) (e : RBound K) (b : Bufs K) :
    Prog K V ((List (K × V) × Option (K × PID)) × Bufs K) :=
  scanFromR cfg (.buf .nodeHigh) true e f [p] (b.set .nodeHigh high)

end BwTree.Keys
