import Verif.Layout.Model
import Verif.Tree.Model

/-!
# Delta chains and consolidation on bytes (model, variable-length layout)

`component/varlen/delta_record.hpp` (constructors and getters of delta records), the copies of
`component/varlen/node.hpp`, `DeltaChain::Sort` and `Consolidate`, all on the bytes of the objects.

Simplifications: `next_` of a delta and the pointer of a merge delta are references to objects, the
atomic word of an index-delete delta is known by a number, `rec_count_` and `node_size_` of a delta
do not wrap;
`lt` is `Comp` on the bytes of two keys, so a comparator may look only at the bytes that belong to a
key; the buffers keys are copied to are the subject of `Verif/Keys`; the arrays of the sort are
lists (`C21`).
-/

namespace BwTree.Layout

open Util (Metadata)

/-! ## Delta records -/

/-- A delta record: `is_inner_`, the bytes of the object, `meta_`, `high_key_meta_`, `rec_count_`,
`node_size_`; `varlen/delta_record.hpp` 624-654. -/
structure VRec where
  inner : Bool
  mem : Mem
  low : Metadata
  high : Metadata
  cnt : Nat := 0
  size : Int

/-- `GetKey`, `varlen/delta_record.hpp` 411-430. -/
def VRec.key (r : VRec) : List UInt8 := r.mem.read r.low.offset.toNat r.low.keyLen.toNat

/-- `GetHighKey`, `varlen/delta_record.hpp` 347-368: no key is a key of length zero. -/
def VRec.highKey (r : VRec) : Option (List UInt8) :=
  if r.high.keyLen.toNat = 0 then none
  else some (r.mem.read r.high.offset.toNat r.high.keyLen.toNat)

/-- `GetPayload`, `varlen/delta_record.hpp` 436-444 with `GetPayloadAddr` 568-573. -/
def VRec.pay (r : VRec) (plen : Nat) : List UInt8 :=
  r.mem.read (r.low.offset.toNat + r.low.keyLen.toNat) plen

/-- A base node seen as a delta record (`reinterpret_cast`): the headers agree field by field,
`varlen/node.hpp` 877-904. -/
def VPage.asRec (pg : VPage) : VRec :=
  { inner := pg.inner, mem := pg.mem, low := pg.low, high := pg.high, cnt := pg.cnt
    size := pg.size }

/-- Insert or modify delta, `varlen/delta_record.hpp` 78-87, in a page with bytes `old`; `hdr` is
`sizeof(DeltaRecord)`. -/
def VRec.put (hdr : Nat) (old : Mem) (key pay : List UInt8) : VRec :=
  { inner := false, mem := (old.write hdr key).write (hdr + key.length) pay
    low := Metadata.mk' hdr key.length (key.length + pay.length), high := ⟨0, 0, 0⟩, size := 0 }

/-- Delete delta of a leaf, `varlen/delta_record.hpp` 95-101. -/
def VRec.del (hdr : Nat) (old : Mem) (key : List UInt8) : VRec :=
  { inner := false, mem := old.write hdr key, low := Metadata.mk' hdr key.length key.length
    high := ⟨0, 0, 0⟩, size := 0 }

/-- Insert-entry delta or merge delta, `varlen/delta_record.hpp` 114-133, from a node or delta `r`;
`word` is the page ID or pointer. -/
def VRec.entry (hdr : Nat) (old : Mem) (inner : Bool) (r : VRec) (word : List UInt8) : VRec :=
  let kl := r.low.keyLen.toNat
  let hl := r.high.keyLen.toNat
  let off := hdr + kl + word.length
  { inner := inner
    mem := ((old.write hdr (r.mem.read r.low.offset.toNat kl)).write (hdr + kl) word).write off
      (r.mem.read r.high.offset.toNat hl)
    low := Metadata.mk' hdr kl (kl + word.length), high := Metadata.mk' off hl hl, size := 0 }

/-- Index-delete delta, `varlen/delta_record.hpp` 141-163; the word holds `kNullPtr` first. -/
def VRec.idxDel (hdr : Nat) (old : Mem) (r : VRec) (word : List UInt8) : VRec :=
  let kl := r.low.keyLen.toNat
  let hl := r.high.keyLen.toNat
  let off := alignUp 3 (hdr + kl) - kl
  { inner := true
    mem := ((old.write off (r.mem.read r.low.offset.toNat kl)).write (off + kl) word).write
      (off + kl + word.length) (r.mem.read r.high.offset.toNat hl)
    low := Metadata.mk' off kl (kl + word.length)
    high := Metadata.mk' (off + kl + word.length) hl hl, size := 0 }

/-- The new root of a root split, `varlen/node.hpp` 84-103, from the index-entry delta `d`; `left` is
the page ID of the left child, the right one is the payload of `d`. -/
def VPage.newRoot (c : VCfg) (old : Mem) (left : List UInt8) (d : VRec) : VPage :=
  let kl := d.low.keyLen.toNat
  let o1 := c.page - left.length
  let o2 := o1 - left.length
  let o3 := o2 - kl
  { VPage.init c old true with
    mem := ((((old.write o1 left).write c.hdr (encMeta (Metadata.mk' o1 0 left.length))).write o2
      (d.pay left.length)).write o3 (d.mem.read d.low.offset.toNat kl)).write (c.hdr + metaLen)
      (encMeta (Metadata.mk' o3 kl (kl + left.length)))
    cnt := 2
    size := c.hdr + (2 * metaLen + c.page - o3) }

/-- `GetNodeDiff`, `varlen/node.hpp` 160-166. -/
def VPage.nodeDiff (c : VCfg) (pg : VPage) : Int :=
  pg.size - c.hdr - pg.low.keyLen.toNat * (if pg.inner then 1 else 2)

/-! ## Chains -/

/-- What the payload word of a delta refers to: the merged node, or itself (the word of an
index-delete delta, by its number). -/
inductive BRef where
  | none
  | node (pg : VPage)
  | word (w : Nat)

/-- A delta chain of objects. -/
inductive BChain where
  | base (pg : VPage)
  | removed (leaf : Bool)
  | delta (ty : DType) (r : VRec) (ref : BRef) (next : BChain)

/-- `GetNodeSize` of the head. -/
def BChain.size : BChain → Int
  | .base pg => pg.size
  | .removed _ => 0
  | .delta _ r _ _ => r.size

/-- `!IsLeaf()` of the head. -/
def BChain.inner : BChain → Bool
  | .base pg => pg.inner
  | .removed l => !l
  | .delta _ r _ _ => r.inner

/-- `GetRecordCount` of the head. -/
def BChain.cnt : BChain → Nat
  | .base pg => pg.cnt
  | .removed _ => 0
  | .delta _ r _ _ => r.cnt

/-- `delta_type_ != kNotDelta`. -/
def BChain.isDelta : BChain → Bool
  | .base _ => false
  | _ => true

/-- A new delta in front of a chain: `SetNext`, `varlen/delta_record.hpp` 385-393. -/
def BChain.push (ty : DType) (r : VRec) (ref : BRef) (next : BChain) (diff : Int) : BChain :=
  .delta ty { r with
    cnt := if next.isDelta then next.cnt + 1 else 1
    size := next.size + diff } ref next

/-- `AddByInsertionSortTo`, `varlen/delta_record.hpp` 502-533. -/
def bAdd (lt : List UInt8 → List UInt8 → Bool) (d : DType × VRec) :
    List (DType × VRec) → List (DType × VRec)
  | [] => [d]
  | x :: xs =>
    if lt x.2.key d.2.key then x :: bAdd lt d xs
    else if lt d.2.key x.2.key then d :: x :: xs
    else x :: xs

/-- `DeltaChain::Sort`, `delta_chain.hpp` 346-375. -/
def bSort (lt : List UInt8 → List UInt8 → Bool) : List (DType × VRec) → List VPage → BChain →
    Option (List (DType × VRec) × List VPage)
  | arr, nodes, .base pg => some (arr, nodes ++ [pg])
  | _, _, .removed _ => none
  | arr, nodes, .delta ty r nd nx =>
    match ty with
    | .merge =>
      match nd with
      | .node pg => bSort lt arr (nodes ++ [pg]) nx
      | _ => none
    | _ => bSort lt (bAdd lt (ty, r) arr) nodes nx

/-! ## Consolidation -/

/-- One call of `CopyRecordFrom`: record `pos` of a node, or a delta. -/
inductive BCopy where
  | node (pg : VPage) (pos : Nat)
  | delta (d : DType × VRec)

/-- The loop over the positions of one node, `bw_tree.hpp` 1300-1313. -/
def bMerge (lt : List UInt8 → List UInt8 → Bool) (c : VCfg) (pg : VPage) :
    List Nat → List (DType × VRec) → List BCopy × List (DType × VRec)
  | [], arr => ([], arr)
  | i :: is, arr =>
    let ls := arr.takeWhile (fun d => lt d.2.key (pg.key c i))
    let rest := arr.dropWhile (fun d => lt d.2.key (pg.key c i))
    match rest with
    | d :: rest' =>
      if !lt (pg.key c i) d.2.key then
        let out := bMerge lt c pg is rest'
        (ls.map .delta ++ .delta d :: out.1, out.2)
      else
        let out := bMerge lt c pg is (d :: rest')
        (ls.map .delta ++ .node pg i :: out.1, out.2)
    | [] =>
      let out := bMerge lt c pg is []
      (ls.map .delta ++ .node pg i :: out.1, out.2)

/-- The loop over the nodes, `bw_tree.hpp` 1291-1319; `IsLeftmost` is `low_meta_.key_len == 0`
(`varlen/node.hpp` 140-145).  `none`: record 0 of an empty node. -/
def bCopySeq (lt : List UInt8 → List UInt8 → Bool) (c : VCfg) :
    List VPage → List (DType × VRec) → Option (List BCopy)
  | [], arr => some (arr.map .delta)
  | pg :: ps, arr =>
    if pg.inner && decide (pg.low.keyLen.toNat = 0) then
      if pg.cnt = 0 then none
      else
        let out := bMerge lt c pg (List.range' 1 (pg.cnt - 1)) arr
        (bCopySeq lt c ps out.2).map fun l => .node pg 0 :: (out.1 ++ l)
    else
      let out := bMerge lt c pg (List.range' 0 pg.cnt) arr
      (bCopySeq lt c ps out.2).map fun l => out.1 ++ l

/-- Store the bytes of a record of another object, `varlen/node.hpp` 519-529 and 560-569. -/
def VPage.putFrom (c : VCfg) (pg : VPage) (off : Nat) (src : Mem) (m : Metadata) :
    Option (VPage × Nat) :=
  let len := m.recLen.toNat
  if len ≤ off then
    some ({ pg with
      mem := (pg.mem.write (off - len) (src.read m.offset.toNat len)).write
        (c.hdr + pg.cnt * metaLen) (encMeta (Metadata.mk' (off - len) m.keyLen.toNat len))
      cnt := (pg.cnt + 1) % 65536
      size := pg.size + (metaLen + len) }, off - len)
  else none

/-- `node`, `offset`, `r_node` and the node left behind, as in `CopyRecordFrom`. -/
structure VSplit where
  cur : VPage
  off : Nat
  right : Option VPage
  left : Option VPage

/-- Store a record and switch to the split-right node, `varlen/node.hpp` 522-538 and 562-578. -/
def VSplit.put (c : VCfg) (s : VSplit) (src : Mem) (m : Metadata) : Option VSplit :=
  (s.cur.putFrom c s.off src m).map fun x =>
    match s.right with
    | some r =>
      if (c.page - c.hdr) / 2 < x.1.size then
        { cur := r, off := c.page, right := none, left := some x.1 }
      else { s with cur := x.1, off := x.2 }
    | none => { s with cur := x.1, off := x.2 }

/-- `CopyRecordFrom`, both overloads. -/
def VSplit.copy (c : VCfg) (s : VSplit) : BCopy → Option VSplit
  | .node pg pos => s.put c pg.mem (pg.rmeta c pos)
  | .delta d => if d.1 = .delete then some s else s.put c d.2.mem d.2.low

/-- All the copies in order. -/
def VSplit.fill (c : VCfg) : VSplit → List BCopy → Option VSplit
  | s, [] => some s
  | s, x :: xs => (s.copy c x).bind fun s' => VSplit.fill c s' xs

/-- What consolidation leaves. -/
inductive BSMO where
  | one (merge : Bool) (pg : VPage)
  | two (l r : VPage)

/-- `TryConsolidate` and `Consolidate`, `bw_tree.hpp` 1227-1337, on bytes.  `old`, `old'` are the
bytes of the new pages. -/
def bTryConsolidate (lt : List UInt8 → List UInt8 → Bool) (c : VCfg) (minSize : Nat) (old old' : Mem)
    (scan : Bool) (head : BChain) : Option BSMO :=
  (bSort lt [] [] head).bind fun an =>
    let doSplit := !scan && decide ((c.page : Int) < head.size)
    (bCopySeq lt c an.2.reverse an.1).bind fun seq =>
    (an.2.head?).bind fun front => (an.2.getLast?).bind fun back =>
    (VSplit.fill c
      { cur := VPage.init c old head.inner, off := c.page * (if scan then 2 else 1)
        right := if doSplit then some (VPage.init c old' head.inner) else none, left := none }
      seq).bind fun s =>
    if doSplit then
      -- 1328-1333; without a switch `r_node` stays a node without records
      match s.left with
      | some l =>
        if s.cur.cnt = 0 then none
        else
          (l.copyLow c (back.border back.low)).bind fun x =>
          (x.1.copyHigh x.2 (s.cur.key c 0)).bind fun l' =>
          (s.cur.copyLow c (s.cur.key c 0)).bind fun y =>
          (y.1.copyHigh y.2 (front.border front.high)).map fun r' =>
            .two { l' with next := s.cur.next } { r' with next := front.next }
      | none => none
    else
      -- 1324-1326
      (s.cur.copyLow c (back.border back.low)).bind fun x =>
      (x.1.copyHigh x.2 (front.border front.high)).map fun n =>
        if scan then .one false { n with size := 2 * c.page, next := front.next }
        else .one (decide (head.size ≤ minSize)) { n with next := front.next }

end BwTree.Layout
