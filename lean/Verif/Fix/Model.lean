import Verif.Layout.Chain

/-!
# Nodes, delta records and consolidation on bytes (model, fixed-length layout)

`component/fixlen/node.hpp`, `component/fixlen/delta_record.hpp` and `Consolidate` of `bw_tree.hpp`.
Keys and payloads of a node are the bytes of its page (`Layout.FPage`); flags, `low_key_`, `high_key_`
and `next_` are fields of the header.  A delta record has its key and highest key in the header and its
payload in the bytes behind it.
-/

namespace BwTree.Fix

open Layout (Mem FCfg FPage FSplit alignUp)

/-- A string of bytes. -/
abbrev Str := List UInt8

/-- Constants: those of a page, `sizeof(DeltaRecord)`, the offset of `payload_`, `sizeof(Payload)`,
`sizeof(PageID)`, `kMinNodeSize`, `kDeltaRecordThreshold`, `kMaxDeltaRecordNum`, and `Comp`. -/
structure FPar where
  c : FCfg
  dh : Nat
  blk : Nat
  pay : Nat
  pid : Nat
  minSize : Nat
  thr : Nat
  maxDelta : Nat
  lt : Str → Str → Bool

/-- `sizeof(T)` of the records of a node. -/
def FPar.plen (P : FPar) (inner : Bool) : Nat := if inner then P.pid else P.pay

/-! ## Nodes -/

/-- A node: the page with `rec_count_` and `node_size_`, and the rest of the header;
`fixlen/node.hpp` 749-780. -/
structure FNode where
  pg : FPage
  inner : Bool
  hasLow : Bool
  low : Str
  hasHigh : Bool
  high : Str
  next : Nat

/-- The initial root, `fixlen/node.hpp` 72-78 with the initialisers of 762-777. -/
def FNode.init (c : FCfg) (old : Mem) (inner : Bool) : FNode :=
  { pg := FPage.init c old, inner := inner, hasLow := false, low := List.replicate c.klen 0
    hasHigh := false, high := List.replicate c.klen 0, next := 0 }

/-! ## Delta records -/

/-- A delta record: `is_inner_`, `key_`, `has_high_key_`, `high_key_`, the bytes of the object,
`rec_count_`, `node_size_`; `fixlen/delta_record.hpp` 521-552. -/
structure FRec where
  inner : Bool
  key : Str
  hasHigh : Bool
  high : Str
  mem : Mem
  cnt : Nat := 0
  size : Int := 0

/-- A base node seen as a delta record (`reinterpret_cast`): the headers agree field by field. -/
def FNode.asRec (nd : FNode) : FRec :=
  { inner := nd.inner, key := nd.low, hasHigh := nd.hasHigh, high := nd.high, mem := nd.pg.mem
    cnt := nd.pg.cnt, size := nd.pg.size }

/-- Insert or modify delta, `fixlen/delta_record.hpp` 75-84, in a page with bytes `old`; a record
without highest key has `Key{}` there. -/
def FRec.put (P : FPar) (old : Mem) (key pay : Str) : FRec :=
  { inner := false, key := key, hasHigh := false, high := List.replicate P.c.klen 0
    mem := old.write P.blk pay }

/-- Delete delta of a leaf, `fixlen/delta_record.hpp` 92-97. -/
def FRec.del (P : FPar) (old : Mem) (key : Str) : FRec :=
  { inner := false, key := key, hasHigh := false, high := List.replicate P.c.klen 0, mem := old }

/-- Insert-entry delta or merge delta, `fixlen/delta_record.hpp` 110-123; `word` is the page ID or
pointer. -/
def FRec.entry (P : FPar) (old : Mem) (inner : Bool) (r : FRec) (word : Str) : FRec :=
  { inner := inner, key := r.key, hasHigh := r.hasHigh, high := r.high
    mem := old.write P.blk word }

/-- Index-delete delta, `fixlen/delta_record.hpp` 130-141; its word is aligned to eight bytes
(`kPayOffset`, 498) and holds `kNullPtr` first. -/
def FRec.idxDel (P : FPar) (old : Mem) (r : FRec) (word : Str) : FRec :=
  { inner := true, key := r.key, hasHigh := r.hasHigh, high := r.high
    mem := old.write (alignUp 3 P.dh) word }

/-- `GetPayload`, `fixlen/delta_record.hpp` 390-398. -/
def FRec.pay (P : FPar) (r : FRec) (plen : Nat) : Str := r.mem.read P.blk plen

/-- `GetHighKey`, `fixlen/delta_record.hpp` 327-333. -/
def FRec.highKey (r : FRec) : Option Str := if r.hasHigh then some r.high else none

/-- The new root of a root split, `fixlen/node.hpp` 86-99, from the index-entry delta `d`; `left` is
the page ID of the left child.  The payload of `d` is read as `keys_` of a node.  Offsets that would
wrap around are cut off at zero. -/
def FNode.newRoot (c : FCfg) (old : Mem) (left : Str) (d : FRec) : FNode :=
  { FNode.init c old true with
    pg :=
      { mem := ((old.write (c.keys + 1 * c.klen) d.key).write (c.page - left.length) left).write
          (c.page - left.length - left.length) (d.mem.read c.keys left.length)
        cnt := 2, size := c.hdr + 2 * (c.klen + left.length) } }

/-- `GetNodeDiff`, `fixlen/node.hpp` 156-161. -/
def FNode.nodeDiff (c : FCfg) (nd : FNode) : Int := nd.pg.size - c.hdr

/-! ## Chains -/

/-- What the payload word of a delta refers to. -/
inductive BRef where
  | none
  | node (nd : FNode)
  | word (w : Nat)

/-- A delta chain of objects. -/
inductive BChain where
  | base (nd : FNode)
  | removed (leaf : Bool)
  | delta (ty : DType) (r : FRec) (ref : BRef) (next : BChain)

/-- `GetNodeSize` of the head. -/
def BChain.size : BChain → Int
  | .base nd => nd.pg.size
  | .removed _ => 0
  | .delta _ r _ _ => r.size

/-- `!IsLeaf()` of the head. -/
def BChain.inner : BChain → Bool
  | .base nd => nd.inner
  | .removed l => !l
  | .delta _ r _ _ => r.inner

/-- `GetRecordCount` of the head. -/
def BChain.cnt : BChain → Nat
  | .base nd => nd.pg.cnt
  | .removed _ => 0
  | .delta _ r _ _ => r.cnt

/-- `delta_type_ != kNotDelta`. -/
def BChain.isDelta : BChain → Bool
  | .base _ => false
  | _ => true

/-- A new delta in front of a chain: `SetNext`, `fixlen/delta_record.hpp` 352-360. -/
def BChain.push (ty : DType) (r : FRec) (ref : BRef) (next : BChain) (diff : Int) : BChain :=
  .delta ty { r with
    cnt := if next.isDelta then next.cnt + 1 else 1
    size := next.size + diff } ref next

/-- `AddByInsertionSortTo`, `fixlen/delta_record.hpp` 457-481. -/
def bAdd (lt : Str → Str → Bool) (d : DType × FRec) : List (DType × FRec) → List (DType × FRec)
  | [] => [d]
  | x :: xs =>
    if lt x.2.key d.2.key then x :: bAdd lt d xs
    else if lt d.2.key x.2.key then d :: x :: xs
    else x :: xs

/-- `DeltaChain::Sort`, `delta_chain.hpp` 346-375. -/
def bSort (lt : Str → Str → Bool) : List (DType × FRec) → List FNode → BChain →
    Option (List (DType × FRec) × List FNode)
  | arr, nodes, .base nd => some (arr, nodes ++ [nd])
  | _, _, .removed _ => none
  | arr, nodes, .delta ty r nd nx =>
    match ty with
    | .merge =>
      match nd with
      | .node nd => bSort lt arr (nodes ++ [nd]) nx
      | _ => none
    | _ => bSort lt (bAdd lt (ty, r) arr) nodes nx

/-! ## Consolidation -/

/-- One call of `CopyRecordFrom`: record `pos` of a node, or a delta. -/
inductive BCopy where
  | node (nd : FNode) (pos : Nat)
  | delta (d : DType × FRec)

/-- The loop over the positions of one node, `bw_tree.hpp` 1300-1313. -/
def bMerge (lt : Str → Str → Bool) (c : FCfg) (nd : FNode) :
    List Nat → List (DType × FRec) → List BCopy × List (DType × FRec)
  | [], arr => ([], arr)
  | i :: is, arr =>
    let ls := arr.takeWhile (fun d => lt d.2.key (nd.pg.key c i))
    let rest := arr.dropWhile (fun d => lt d.2.key (nd.pg.key c i))
    match rest with
    | d :: rest' =>
      if !lt (nd.pg.key c i) d.2.key then
        let out := bMerge lt c nd is rest'
        (ls.map .delta ++ .delta d :: out.1, out.2)
      else
        let out := bMerge lt c nd is (d :: rest')
        (ls.map .delta ++ .node nd i :: out.1, out.2)
    | [] =>
      let out := bMerge lt c nd is []
      (ls.map .delta ++ .node nd i :: out.1, out.2)

/-- The loop over the nodes, `bw_tree.hpp` 1291-1319; `IsLeftmost` is `has_low_key_ == 0`
(`fixlen/node.hpp` 136-141).  `none`: record 0 of an empty node. -/
def bCopySeq (lt : Str → Str → Bool) (c : FCfg) :
    List FNode → List (DType × FRec) → Option (List BCopy)
  | [], arr => some (arr.map .delta)
  | nd :: ps, arr =>
    if nd.inner && !nd.hasLow then
      if nd.pg.cnt = 0 then none
      else
        let out := bMerge lt c nd (List.range' 1 (nd.pg.cnt - 1)) arr
        (bCopySeq lt c ps out.2).map fun l => .node nd 0 :: (out.1 ++ l)
    else
      let out := bMerge lt c nd (List.range' 0 nd.pg.cnt) arr
      (bCopySeq lt c ps out.2).map fun l => out.1 ++ l

/-- The key and the payload a copy stores, `fixlen/node.hpp` 489-491 and 525-529; the payload of a
delta is read as `keys_` of a node.  Delete deltas store nothing. -/
def BCopy.val (c : FCfg) (plen : Nat) : BCopy → Option (Str × Str)
  | .node nd pos => some (nd.pg.key c pos, nd.pg.pay c plen pos)
  | .delta d => if d.1 = .delete then none else some (d.2.key, d.2.mem.read c.keys plen)

/-- What consolidation makes: one page (and whether it is to be merged), or two. -/
inductive BSMO where
  | one (merge : Bool) (nd : FNode)
  | two (l r : FNode)

/-- `TryConsolidate` and `Consolidate`, `bw_tree.hpp` 1227-1337, with `CopyLowKeyFrom` and
`CopyHighKeyFrom`, `fixlen/node.hpp` 422-464, on bytes.  `old`, `old'` are the bytes of the new
pages. -/
def bTryConsolidate (P : FPar) (old old' : Mem) (scan : Bool) (head : BChain) :
    Option BSMO :=
  (bSort P.lt [] [] head).bind fun an =>
    let doSplit := !scan && decide ((P.c.page : Int) < head.size)
    (bCopySeq P.lt P.c an.2.reverse an.1).bind fun seq =>
    (an.2.head?).bind fun front => (an.2.getLast?).bind fun back =>
    (FSplit.fill P.c
      { cur := FPage.init P.c old, off := P.c.page * (if scan then 2 else 1)
        right := if doSplit then some (FPage.init P.c old') else none, left := none }
      (seq.filterMap (BCopy.val P.c (P.plen head.inner)))).bind fun s =>
    if doSplit then
      -- 1328-1333; without a switch `r_node` stays a node without records
      match s.left with
      | some l =>
        if s.cur.cnt = 0 then none
        else some (.two
          { pg := l, inner := head.inner, hasLow := back.hasLow, low := back.low
            hasHigh := true, high := s.cur.key P.c 0, next := 0 }
          { pg := s.cur, inner := head.inner, hasLow := true, low := s.cur.key P.c 0
            hasHigh := front.hasHigh, high := front.high, next := front.next })
      | none => none
    else
      -- 1324-1326
      let n : FNode :=
        { pg := s.cur, inner := head.inner, hasLow := back.hasLow, low := back.low
          hasHigh := front.hasHigh, high := front.high, next := front.next }
      if scan then some (.one false { n with pg := s.cur.forScan P.c })
      else some (.one (decide (head.size ≤ P.minSize)) n)

end BwTree.Fix
