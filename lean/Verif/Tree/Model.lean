import Verif.Tree.Assoc

/-!
# Nodes and delta chains (model)

Both page layouts (`component/fixlen/*`, `component/varlen/*`) at the level of records and sizes,
delta-chain procedures (`component/delta_chain.hpp`) and consolidation (`bw_tree.hpp` 1227-1337).
The bytes of a page are the subject of `Verif/Layout`.

Simplifications, all recorded here:
* `Comp` is `<` of a linear order (keys up to equivalence).
* Sizes are unbounded integers (`uint32_t node_size_` in the code); that they
  stay small is theorem `C20`/`C22`.
* Addresses do not occur; a chain is an immutable value.  The only field of a
  published record that is ever overwritten, the payload of an index-delete
  delta (`SetSiblingPID`), is a reference `cell c` into shared memory.
* Undefined behaviour / type confusion is an explicit outcome (`ub`, `none`).
-/

namespace BwTree

/-- Page IDs (`common.hpp` `PageID = uint64_t`), 0 is `kNullPtr`. -/
abbrev PID := Nat

/-- Compile-time constants: `utility.hpp` 112-143 (`kPageSize`, `kDeltaRecordThreshold`,
`kMaxDeltaRecordNum`, `kMinNodeSize`), `fixlen/node.hpp` 660 (`kHeaderLen`), and the
record lengths `sizeof(Key) + sizeof(T)` of `fixlen/node.hpp` 486/522 for leaf payloads
and page IDs.

The variable-length layout (`component/varlen/*`) is covered by `klen`: the length of a key in
bytes as far as it is not part of `leafLen`/`idxLen`.  There `leafLen = kMetaLen + sizeof(Payload)`,
`idxLen = kMetaLen + sizeof(PageID)`, and `maxKey` bounds the key lengths (`kMaxVarDataSize`,
`utility.hpp`).  In the fixed-length layout `klen` is zero.  `buf`: keys are `char *`, so the highest
key of a removed node is read through a buffer that other calls overwrite (`Tree/KeyBuffer.lean`). -/
structure Cfg (K : Type) where
  page : Nat
  hdr : Nat
  leafLen : Nat
  idxLen : Nat
  minSize : Nat
  thr : Nat
  maxDelta : Nat
  klen : K → Nat := fun _ => 0
  maxKey : Nat := 0
  buf : Bool := false

/-- Record length `kRecLen` of a level (`fixlen/node.hpp` 486, `bw_tree.hpp` 274, 1366), without
the variable part of the key. -/
def Cfg.recLen {K : Type} (c : Cfg K) (inner : Bool) : Nat := if inner then c.idxLen else c.leafLen

/-- Length of a stored record: `rec_len = key_len + pay_len + kMetaLen`, `bw_tree.hpp` 274, 1366. -/
def Cfg.entLen {K : Type} (c : Cfg K) (inner : Bool) (k : K) : Nat := c.recLen inner + c.klen k

/-- Length of an optional bound (`low_meta_.key_len`, zero if absent). -/
def Cfg.olen {K : Type} (c : Cfg K) : Option K → Nat
  | none => 0
  | some k => c.klen k

/-- Bytes a node spends on its bounds: `CopyLowKeyFrom` (`varlen/node.hpp` 449-472) adds the lowest
key of a leaf only, because an inner node shares it with its first record; `CopyHighKeyFrom`
(481-500) adds the highest key. -/
def Cfg.bnd {K : Type} (c : Cfg K) (inner : Bool) (low high : Option K) : Nat :=
  (if inner then 0 else c.olen low) + c.olen high

/-- Payload of a record in a base node: a user payload (leaf) or a child page ID. -/
inductive Pay (V : Type) where
  | val (v : V)
  | child (p : PID)
  deriving Repr, DecidableEq

/-- A base node, `fixlen/node.hpp` 749-780: `is_inner_`, `low_key_` (with `has_low_key_`),
`high_key_` (with `has_high_key_`), `next_`, `keys_`+payloads, `node_size_`. -/
structure Node (K V : Type) where
  inner : Bool
  low : Option K
  high : Option K
  next : PID
  recs : List (K × Pay V)
  size : Int
  deriving Repr, DecidableEq

/-- `GetNodeDiff`: `fixlen/node.hpp` 156-161 (`node_size_ - kHeaderLen`) and `varlen/node.hpp`
160-166, where the lowest key disappears as lowest key of the removed leaf and as highest key of its
left neighbour. -/
def Cfg.nodeDiff {K V : Type} (c : Cfg K) (n : Node K V) : Int :=
  n.size - c.hdr - c.olen n.low * (if n.inner then 1 else 2)

/-- `DeltaType`, `common.hpp` 76-83, without `kRemoveNode` (`Chain.removed`) and `kNotDelta`
(`Chain.base`). -/
inductive DType where
  | insert | modify | delete | merge
  deriving Repr, DecidableEq

/-- Payload bytes of a delta record: user payload, child page ID, the atomic word of an
index-delete delta (`fixlen/delta_record.hpp` 130-141), the merged node
(`bw_tree.hpp` 1471-1472), or nothing (leaf delete, 92-97). -/
inductive DPay (K V : Type) where
  | val (v : V)
  | child (p : PID)
  | cell (c : Nat)
  | node (n : Node K V)
  | none
  deriving Repr, DecidableEq

/-- A delta record, `fixlen/delta_record.hpp` 521-552: `is_inner_`, `delta_type_`, `key_`,
`high_key_` (with `has_high_key_`), payload, `rec_count_`, `node_size_`. -/
structure Delta (K V : Type) where
  inner : Bool
  ty : DType
  key : K
  high : Option K
  pay : DPay K V
  cnt : Nat
  size : Int
  deriving Repr, DecidableEq

/-- A delta chain: what a mapping-table slot points to.  `removed` is the record built by
`fixlen/delta_record.hpp` 148-154 (`kRemoveNode`, `next_` null, count and size 0). -/
inductive Chain (K V : Type) where
  | base (n : Node K V)
  | removed (leaf : Bool)
  | delta (d : Delta K V) (next : Chain K V)
  deriving Repr, DecidableEq

variable {K V : Type} [LinearOrder K]

namespace Chain

/-- `IsLeaf`, `fixlen/delta_record.hpp` 180-185 and `fixlen/node.hpp` 125-130. -/
def isLeaf : Chain K V → Bool
  | base n => !n.inner
  | removed l => l
  | delta d _ => !d.inner

/-- `GetRecordCount`/`rec_count_` of the head. -/
def cnt : Chain K V → Nat
  | base n => n.recs.length
  | removed _ => 0
  | delta d _ => d.cnt

/-- `GetNodeSize`/`node_size_` of the head. -/
def size : Chain K V → Int
  | base n => n.size
  | removed _ => 0
  | delta d _ => d.size

/-- `delta_type_ != kNotDelta`. -/
def isDelta : Chain K V → Bool
  | base _ => false
  | _ => true

/-- `GetDeltaType() == kRemoveNode`. -/
def isRemoved : Chain K V → Bool
  | removed _ => true
  | _ => false

/-- `NeedConsolidation`, `fixlen/delta_record.hpp` 244-250. -/
def needConsolidation (cfg : Cfg K) (c : Chain K V) : Bool :=
  c.isDelta && (decide (cfg.thr ≤ c.cnt) || decide ((cfg.page : Int) < c.size))

/-- `NeedWaitSMOs`, `fixlen/delta_record.hpp` 256-261. -/
def needWait (cfg : Cfg K) (c : Chain K V) : Bool :=
  c.isDelta && (decide (cfg.maxDelta ≤ c.cnt) || decide ((cfg.page : Int) < c.size))

/-- First component of `GetNodeUsage`, `fixlen/delta_record.hpp` 297-308: `node_size_` of the base
node. -/
def baseSize : Chain K V → Int
  | base n => n.size
  | removed _ => 0
  | delta _ nx => nx.baseSize

/-- Second component of `GetNodeUsage`: the number of delta records. -/
def deltaNum : Chain K V → Nat
  | base _ => 0
  | removed _ => 0
  | delta _ nx => nx.deltaNum + 1

/-- `SetNext`, `fixlen/delta_record.hpp` 352-360: link `d` in front of `next`. -/
def push (d : Delta K V) (next : Chain K V) (diff : Int) : Chain K V :=
  delta { d with
    cnt := if next.isDelta then next.cnt + 1 else 1,
    size := next.size + diff } next

end Chain

/-- `HasSameKey`, `fixlen/delta_record.hpp` 203-208. -/
def sameKey (a key : K) : Bool := !decide (key < a) && !decide (a < key)

/-- `LowKeyIsLE`, `fixlen/delta_record.hpp` 216-223 (`low` is the record's `key_`). -/
def lowKeyIsLE (low key : K) (closed : Bool) : Bool :=
  decide (low < key) || (closed && !decide (key < low))

/-- `HighKeyIsGE`, `fixlen/delta_record.hpp` 231-238. -/
def highKeyIsGE (high : Option K) (key : K) (closed : Bool) : Bool :=
  match high with
  | none => true
  | some h => decide (key < h) || (closed && !decide (h < key))

/-! ## Binary searches in a node -/

/-- The loop shared by `SearchRecord` (`fixlen/node.hpp` 336-347) and `SearchChild`
(370-382).  `e` is `end_pos + 1`, so `(begin_pos + end_pos) >> 1` is `(b + e - 1) / 2`.
`none`: read outside the record array (or the fuel is exhausted). -/
def bsLoop {α : Type} (recs : List (K × α)) (key : K) : Nat → Nat → Nat → Option (Bool × Nat)
  | 0, b, e => if b < e then none else some (false, b)
  | f + 1, b, e =>
    if b < e then
      let pos := (b + e - 1) / 2
      match recs[pos]? with
      | none => none
      | some (ik, _) =>
        if key < ik then bsLoop recs key f b pos
        else if ik < key then bsLoop recs key f (pos + 1) e
        else some (true, pos)
    else some (false, b)

/-- `SearchRecord`, `fixlen/node.hpp` 330-350: (found?, position). -/
def Node.searchRecord (n : Node K V) (key : K) : Option (Bool × Nat) :=
  bsLoop n.recs key n.recs.length (if n.inner && n.low.isNone then 1 else 0) n.recs.length

/-- `SearchChild`, `fixlen/node.hpp` 362-385.  `none`: the slot does not hold a page ID or lies
outside the array. -/
def Node.searchChild (n : Node K V) (key : K) (closed : Bool) : Option PID :=
  match bsLoop n.recs key n.recs.length 1 n.recs.length with
  | none => none
  | some (found, pos) =>
    let b := if found then pos + (if closed then 1 else 0) else pos
    match n.recs[b - 1]? with
    | some (_, .child p) => some p
    | _ => none

/-! ## Procedures on delta chains (`delta_chain.hpp`) -/

/-- Outcome of `SearchRecord` on a chain. -/
inductive SRes (K V : Type) where
  | found (p : DPay K V)
  | notFound
  | sibling (p : PID)
  | removed
  | base (n : Node K V)
  | ub

/-- `DeltaChain::SearchRecord`, `delta_chain.hpp` 140-199 (`smo` is `has_smo`). -/
def dcSearchRecord (key : K) : Bool → Chain K V → SRes K V
  | smo, .base n =>
    if !smo && !highKeyIsGE n.high key false then .sibling n.next else .base n
  | _, .removed _ => .removed
  | smo, .delta d nx =>
    match d.ty with
    | .insert | .modify => if sameKey d.key key then .found d.pay else dcSearchRecord key smo nx
    | .delete => if sameKey d.key key then .notFound else dcSearchRecord key smo nx
    | .merge =>
      if lowKeyIsLE d.key key true then
        match d.pay with
        | .node n => if !smo && !highKeyIsGE d.high key false then .sibling n.next else .base n
        | _ => .ub
      else dcSearchRecord key true nx

/-- Outcome of `SearchChildNode` on a chain.  `cell c`: the child is the content of the atomic
word `c` (`GetPayloadAtomically`). -/
inductive CRes (K V : Type) where
  | child (p : PID)
  | cell (c : Nat)
  | sibling (p : PID)
  | removed
  | base (n : Node K V)
  | ub

/-- `DeltaChain::SearchChildNode`, `delta_chain.hpp` 65-127. -/
def dcSearchChild (key : K) (closed : Bool) : Bool → Chain K V → CRes K V
  | smo, .base n =>
    if !smo && !highKeyIsGE n.high key (!closed) then .sibling n.next else .base n
  | _, .removed _ => .removed
  | smo, .delta d nx =>
    match d.ty with
    | .insert =>
      if lowKeyIsLE d.key key closed && highKeyIsGE d.high key (!closed) then
        match d.pay with
        | .child p => .child p
        | _ => .ub
      else dcSearchChild key closed smo nx
    | .delete =>
      if lowKeyIsLE d.key key closed && highKeyIsGE d.high key (!closed) then
        match d.pay with
        | .cell c => .cell c
        | _ => .ub
      else dcSearchChild key closed smo nx
    | .merge =>
      if lowKeyIsLE d.key key closed then
        match d.pay with
        | .node n => if !smo && !highKeyIsGE d.high key (!closed) then .sibling n.next else .base n
        | _ => .ub
      else dcSearchChild key closed true nx
    | .modify => .ub

/-- Outcome of `Validate` on a chain. -/
inductive VRes where
  | ok
  | sibling (p : PID)
  | removed
  | ub
  deriving DecidableEq

/-- `DeltaChain::Validate`, `delta_chain.hpp` 301-336. -/
def dcValidate (key : K) (closed : Bool) : Chain K V → VRes
  | .base n => if !highKeyIsGE n.high key (!closed) then .sibling n.next else .ok
  | .removed _ => .removed
  | .delta d nx =>
    match d.ty with
    | .merge =>
      if !highKeyIsGE d.high key (!closed) then
        match d.pay with
        | .node n => .sibling n.next
        | _ => .ub
      else .ok
    | _ => dcValidate key closed nx

/-- Outcome of `SearchForMerge`: `base n kf sf` carries the flags `key_found`/`sib_key_found`. -/
inductive MRes (K V : Type) where
  | found
  | abort
  | sibling (p : PID)
  | removed
  | base (n : Node K V) (kf sf : Bool)
  | ub

/-- Comparison with an optional sibling key; `*sib_key` is only evaluated when it exists because
`sib_key_found` starts as `!sib_key` (`bw_tree.hpp` 1039). -/
def sameKeyOpt (a : K) : Option K → Bool
  | none => false
  | some s => sameKey a s

/-- `!IsLeftmost() && HasSameKey(key)` on a base node, `delta_chain.hpp` 276 (the `key_` field of a
record overlays the `low_key_` field of a node). -/
def lowIsKey (low : Option K) (key : K) : Bool :=
  match low with
  | none => false
  | some l => sameKey l key

/-- `DeltaChain::SearchForMerge`, `delta_chain.hpp` 215-288. -/
def dcSearchForMerge (key : K) (sib : Option K) :
    Bool → Bool → Bool → Chain K V → MRes K V
  | smo, kf, sf, .base n =>
    if !kf && lowIsKey n.low key then .abort
    else if !kf && !smo && !highKeyIsGE n.high key false then .sibling n.next
    else .base n kf sf
  | _, _, _, .removed _ => .removed
  | smo, kf, sf, .delta d nx =>
    match d.ty with
    | .insert =>
      let kf' := kf || sameKey d.key key
      if !kf && kf' && sf then .found
      else
        let sf' := sf || sameKeyOpt d.key sib
        if !sf && sf' && kf' then .found
        else dcSearchForMerge key sib smo kf' sf' nx
    | .delete =>
      if !kf && sameKey d.key key then .abort
      else if !sf && sameKeyOpt d.key sib then .abort
      else dcSearchForMerge key sib smo kf sf nx
    | .merge =>
      if lowKeyIsLE d.key key true then
        match d.pay with
        | .node n =>
          if !smo && !kf && !highKeyIsGE d.high key false then .sibling n.next
          else .base n kf sf
        | _ => .ub
      else
        let sf' := sf || sameKeyOpt d.key sib
        if !sf && sf' && kf then .found
        else dcSearchForMerge key sib true kf sf' nx
    | .modify => .ub

/-- `AddByInsertionSortTo`, `fixlen/delta_record.hpp` 457-481: skip smaller keys, then push back /
shift and insert / drop because the newer record is already there. -/
def addByInsertionSort (d : Delta K V) : List (Delta K V) → List (Delta K V)
  | [] => [d]
  | r :: rs =>
    if r.key < d.key then r :: addByInsertionSort d rs
    else if d.key < r.key then d :: r :: rs
    else r :: rs

/-- `DeltaChain::Sort`, `delta_chain.hpp` 346-375: sorted deltas, and the nodes from the newest
merged one down to the base node.  `none`: a removal mark is taken for a node, or a merge delta
has no node. -/
def dcSort : List (Delta K V) → List (Node K V) → Chain K V →
    Option (List (Delta K V) × List (Node K V))
  | arr, nodes, .base n => some (arr, nodes ++ [n])
  | _, _, .removed _ => none
  | arr, nodes, .delta d nx =>
    match d.ty with
    | .merge =>
      match d.pay with
      | .node n => dcSort arr (nodes ++ [n]) nx
      | _ => none
    | _ => dcSort (addByInsertionSort d arr) nodes nx

/-! ## Consolidation -/

/-- One call of `CopyRecordFrom`: from a node (`fixlen/node.hpp` 476-502) or from a delta
(513-541).  `first` is the copy of the key-less first record of a leftmost inner node
(`bw_tree.hpp` 1294-1297). -/
inductive Copy (K V : Type) where
  | first (r : K × Pay V)
  | node (r : K × Pay V)
  | delta (d : Delta K V)

/-- Inner loop of `Consolidate` for one node, `bw_tree.hpp` 1300-1313: emits the copies and returns
the deltas that are left (`j`). -/
def mergeRecs : List (K × Pay V) → List (Delta K V) → List (Copy K V) × List (Delta K V)
  | [], arr => ([], arr)
  | r :: rs, arr =>
    let lt := arr.takeWhile (fun d => decide (d.key < r.1))
    let rest := arr.dropWhile (fun d => decide (d.key < r.1))
    match rest with
    | d :: rest' =>
      if !decide (r.1 < d.key) then
        let out := mergeRecs rs rest'
        (lt.map .delta ++ .delta d :: out.1, out.2)
      else
        let out := mergeRecs rs (d :: rest')
        (lt.map .delta ++ .node r :: out.1, out.2)
    | [] =>
      let out := mergeRecs rs []
      (lt.map .delta ++ .node r :: out.1, out.2)

/-- Outer loop of `Consolidate`, `bw_tree.hpp` 1291-1319; `nodes` is in iteration order (base node
first).  `none`: the unconditional copy of record 0 of an empty leftmost inner node. -/
def copySeq : List (Node K V) → List (Delta K V) → Option (List (Copy K V))
  | [], arr => some (arr.map .delta)
  | n :: ns, arr =>
    if n.inner && n.low.isNone then
      match n.recs with
      | [] => none
      | r :: rs =>
        let out := mergeRecs rs arr
        (copySeq ns out.2).map (fun l => .first r :: (out.1 ++ l))
    else
      let out := mergeRecs n.recs arr
      (copySeq ns out.2).map (fun l => out.1 ++ l)

/-- State of the copy loop: records and `node_size_` of `new_node`/`l_node` and, after the switch
(`fixlen/node.hpp` 494-499), of `r_node`. -/
structure CopySt (K V : Type) where
  l : List (K × Pay V)
  lsz : Int
  switched : Bool
  r : List (K × Pay V)
  rsz : Int

/-- The part of `CopyRecordFrom` that stores a record of length `len`, `fixlen/node.hpp` 489-499 /
527-537 and `varlen/node.hpp` 522-536 / 562-576 (there `len = kMetaLen + rec_len`). -/
def copyRec (cfg : Cfg K) (len : Nat) (split : Bool) (st : CopySt K V) (x : K × Pay V) :
    CopySt K V :=
  if st.switched then { st with r := st.r ++ [x], rsz := st.rsz + len }
  else
    let lsz := st.lsz + len
    { st with l := st.l ++ [x], lsz := lsz,
              switched := split && decide (((cfg.page - cfg.hdr) / 2 : Int) < lsz) }

/-- The record a delta contributes (`fixlen/node.hpp` 524-530); `none`: payload of the wrong
kind. -/
def Delta.toRec (d : Delta K V) : Option (K × Pay V) :=
  match d.pay with
  | .val v => some (d.key, .val v)
  | .child p => some (d.key, .child p)
  | _ => none

/-- `CopyRecordFrom`, both overloads; a delete-delta copies nothing (`fixlen/node.hpp` 525).  A
key-less record has `key_len = 0` (`varlen/node.hpp` 90-92, 700-703). -/
def copyOne (cfg : Cfg K) (len : Nat) (split : Bool) (st : CopySt K V) :
    Copy K V → Option (CopySt K V)
  | .first r => some (copyRec cfg len split st r)
  | .node r => some (copyRec cfg (len + cfg.klen r.1) split st r)
  | .delta d =>
    match d.ty with
    | .delete => some st
    | _ => (d.toRec).map (copyRec cfg (len + cfg.klen d.key) split st)

/-- All the copies in order. -/
def copyAll (cfg : Cfg K) (len : Nat) (split : Bool) : CopySt K V → List (Copy K V) →
    Option (CopySt K V)
  | st, [] => some st
  | st, c :: cs => (copyOne cfg len split st c).bind (fun st' => copyAll cfg len split st' cs)

/-- `SMOsRC`, `bw_tree.hpp` 633-638, with the nodes built. -/
inductive SMO (K V : Type) where
  | consolidate (n : Node K V)
  | split (l r : Node K V)
  | merge (n : Node K V)

/-- `TryConsolidate` + `Consolidate`, `bw_tree.hpp` 1227-1337.  `none` is undefined behaviour:
sorting failed, or a split did not produce a right half.  The bounds are copied last (1321-1334).
The `next` of a split-left node is set later by `Split` (1356). -/
def tryConsolidate (cfg : Cfg K) (scan : Bool) (head : Chain K V) : Option (SMO K V) :=
  match dcSort [] [] head with
  | none => none
  | some (arr, nodes) =>
    let doSplit := !scan && decide ((cfg.page : Int) < head.size)
    let inner := !head.isLeaf
    match copySeq nodes.reverse arr, nodes.head?, nodes.getLast? with
    | some seq, some front, some back =>
      match copyAll cfg (cfg.recLen inner) doSplit
          { l := [], lsz := cfg.hdr, switched := false, r := [], rsz := cfg.hdr } seq with
      | none => none
      | some st =>
        if doSplit then
          match st.switched, st.r with
          | true, x :: _ =>
            some (.split
              { inner := inner, low := back.low, high := some x.1, next := 0, recs := st.l,
                size := st.lsz + cfg.bnd inner back.low (some x.1) }
              { inner := inner, low := some x.1, high := front.high, next := front.next,
                recs := st.r, size := st.rsz + cfg.bnd inner (some x.1) front.high })
          | _, _ => none
        else
          let n : Node K V :=
            { inner := inner, low := back.low, high := front.high, next := front.next,
              recs := st.l,
              size := if scan then 2 * cfg.page else st.lsz + cfg.bnd inner back.low front.high }
          if !scan && decide (head.size ≤ cfg.minSize) then some (.merge n)
          else some (.consolidate n)
    | _, _, _ => none

end BwTree
