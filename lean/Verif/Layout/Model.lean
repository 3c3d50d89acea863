import Verif.Util.Model

/-!
# Pages as bytes (model)

How base nodes are written into and read from a page: `component/fixlen/node.hpp` (keys grow
upwards, payloads grow downwards) and `component/varlen/node.hpp` (an array of metadata grows
upwards, records grow downwards), and the sizes of delta records.

Simplifications: keys and payloads are byte strings; alignment of the key array is not modelled;
`node_size_` (`uint32_t`) and offsets (`size_t`) are natural numbers, an offset that would become
negative is the outcome `none`.  `rec_count_` is 16 bits wide, as in the code.
-/

namespace BwTree.Layout

/-- Bytes of a page. -/
abbrev Mem := Nat → UInt8

/-- `memcpy(ShiftAddr(page, off), bs, len)`. -/
def Mem.write (m : Mem) (off : Nat) (bs : List UInt8) : Mem := fun a =>
  if off ≤ a then (if h : a - off < bs.length then bs[a - off] else m a) else m a

/-- `len` bytes from `off` on. -/
def Mem.read (m : Mem) (off len : Nat) : List UInt8 := (List.range len).map fun i => m (off + i)

/-! ## Fixed-length layout -/

/-- `kPageSize`, `kHeaderLen = sizeof(Node)`, the offset of `keys_` (at most `sizeof(Node)`),
`sizeof(Key)`; `fixlen/node.hpp` 656-668, 749-780. -/
structure FCfg where
  page : Nat
  hdr : Nat
  keys : Nat
  klen : Nat
  deriving DecidableEq

/-- A node in a page: bytes, `rec_count_`, `node_size_`. -/
structure FPage where
  mem : Mem
  cnt : Nat
  size : Nat

/-- A node just constructed in a page with arbitrary old bytes, `fixlen/node.hpp` 72-78. -/
def FPage.init (c : FCfg) (old : Mem) : FPage := { mem := old, cnt := 0, size := c.hdr }

/-- The part of `CopyRecordFrom` that stores a record, `fixlen/node.hpp` 489-492 and 527-530: first
the key, then the payload.  `none`: the offset would wrap around. -/
def FPage.put (c : FCfg) (pg : FPage) (off : Nat) (key pay : List UInt8) : Option (FPage × Nat) :=
  if pay.length ≤ off then
    some ({ mem := (pg.mem.write (c.keys + pg.cnt * c.klen) key).write (off - pay.length) pay
            cnt := (pg.cnt + 1) % 65536
            size := pg.size + (c.klen + pay.length) }, off - pay.length)
  else none

/-- Loop body of `Bulkload`, `fixlen/node.hpp` 577-582 with `SetPayload` 711-719: first the payload,
then the key. -/
def FPage.bput (c : FCfg) (pg : FPage) (off : Nat) (key pay : List UInt8) :
    Option (FPage × Nat) :=
  if pay.length ≤ off then
    some ({ mem := (pg.mem.write (off - pay.length) pay).write (c.keys + pg.cnt * c.klen) key
            cnt := (pg.cnt + 1) % 65536
            size := pg.size + (c.klen + pay.length) }, off - pay.length)
  else none

/-- `GetKey`, `fixlen/node.hpp` 257-262. -/
def FPage.key (c : FCfg) (pg : FPage) (pos : Nat) : List UInt8 :=
  pg.mem.read (c.keys + pos * c.klen) c.klen

/-- The address computed by `GetPayloadAddr`, `fixlen/node.hpp` 692-700 (64-bit words). -/
def FPage.payAddr (c : FCfg) (pg : FPage) (plen pos : Nat) : Nat :=
  (((BitVec.ofNat 64 pg.size + BitVec.ofNat 64 (c.page - 1)) &&&
    ~~~ (BitVec.ofNat 64 (c.page - 1))) - BitVec.ofNat 64 (plen * (pos + 1))).toNat

/-- `GetPayload`, `fixlen/node.hpp` 269-277. -/
def FPage.pay (c : FCfg) (pg : FPage) (plen pos : Nat) : List UInt8 :=
  pg.mem.read (pg.payAddr c plen pos) plen

/-- The copy loop for a node that is not split (`bw_tree.hpp` 1289-1319), from an offset. -/
def FPage.fill (c : FCfg) : FPage → Nat → List (List UInt8 × List UInt8) → Option (FPage × Nat)
  | pg, off, [] => some (pg, off)
  | pg, off, r :: rs => (pg.put c off r.1 r.2).bind fun x => FPage.fill c x.1 x.2 rs

/-- The loop of `Bulkload`, `fixlen/node.hpp` 573-583, for the entries taken. -/
def FPage.bfill (c : FCfg) : FPage → Nat → List (List UInt8 × List UInt8) → Option (FPage × Nat)
  | pg, off, [] => some (pg, off)
  | pg, off, r :: rs => (pg.bput c off r.1 r.2).bind fun x => FPage.bfill c x.1 x.2 rs

/-- `node`, `r_node` and the node left behind, as in `CopyRecordFrom`. -/
structure FSplit where
  cur : FPage
  off : Nat
  right : Option FPage
  left : Option FPage

/-- `CopyRecordFrom` with a split-right node, `fixlen/node.hpp` 489-501. -/
def FSplit.put (c : FCfg) (s : FSplit) (key pay : List UInt8) : Option FSplit :=
  (s.cur.put c s.off key pay).map fun x =>
    match s.right with
    | some r =>
      if (c.page - c.hdr) / 2 < x.1.size then
        { cur := r, off := c.page, right := none, left := some x.1 }
      else { s with cur := x.1, off := x.2 }
    | none => { s with cur := x.1, off := x.2 }

/-- The copy loop of a split. -/
def FSplit.fill (c : FCfg) : FSplit → List (List UInt8 × List UInt8) → Option FSplit
  | s, [] => some s
  | s, r :: rs => (s.put c r.1 r.2).bind fun s' => FSplit.fill c s' rs

/-- `SetNodeSizeForScan`, `fixlen/node.hpp` 231-235. -/
def FPage.forScan (c : FCfg) (pg : FPage) : FPage := { pg with size := 2 * c.page }

/-- The new root of a root split, `fixlen/node.hpp` 86-99: two children, one key.  `ptr` is
`sizeof(PageID)`. -/
def FPage.newRoot (c : FCfg) (old : Mem) (sep left right : List UInt8) : Option FPage :=
  if left.length + right.length ≤ c.page then
    some { mem := ((old.write (c.keys + c.klen) sep).write (c.page - left.length) left).write
             (c.page - left.length - right.length) right
           cnt := 2, size := c.hdr + 2 * (c.klen + left.length) }
  else none

/-! ## Variable-length layout -/

open Util (Metadata)

/-- `kPageSize`, `sizeof(Node)`; `varlen/node.hpp` 704-712. -/
structure VCfg where
  page : Nat
  hdr : Nat
  deriving DecidableEq

/-- `sizeof(Metadata)`, `varlen/metadata.hpp` 91-99. -/
def metaLen : Nat := 8

/-- The eight bytes of a `Metadata` (little endian). -/
def encMeta (m : Metadata) : List UInt8 :=
  [UInt8.ofNat (m.offset.toNat), UInt8.ofNat (m.offset.toNat / 256),
   UInt8.ofNat (m.offset.toNat / 65536), UInt8.ofNat (m.offset.toNat / 16777216),
   UInt8.ofNat (m.keyLen.toNat), UInt8.ofNat (m.keyLen.toNat / 256),
   UInt8.ofNat (m.recLen.toNat), UInt8.ofNat (m.recLen.toNat / 256)]

/-- The `Metadata` held by eight bytes. -/
def decMeta (b : Nat → UInt8) : Metadata :=
  { offset := UInt32.ofNat ((b 0).toNat + 256 * (b 1).toNat + 65536 * (b 2).toNat +
      16777216 * (b 3).toNat)
    keyLen := UInt16.ofNat ((b 4).toNat + 256 * (b 5).toNat)
    recLen := UInt16.ofNat ((b 6).toNat + 256 * (b 7).toNat) }

/-- A node in a page: bytes, `is_inner_`, `rec_count_`, `node_size_`, `low_meta_`, `high_meta_`,
`next_`. -/
structure VPage where
  mem : Mem
  inner : Bool
  cnt : Nat
  size : Nat
  low : Metadata
  high : Metadata
  next : Nat := 0

/-- A node just constructed, `varlen/node.hpp` 73-76 with the initialisers of 894-901. -/
def VPage.init (c : VCfg) (old : Mem) (inner : Bool) : VPage :=
  { mem := old, inner := inner, cnt := 0, size := c.hdr, low := Metadata.mk' c.page 0 0
    high := Metadata.mk' c.page 0 0 }

/-- `meta_array_[pos]`; the array starts right after the header, so position `-1` (here `cnt = 0` in
`CopyLowKeyFrom`) is `high_meta_`. -/
def VPage.rmeta (c : VCfg) (pg : VPage) (pos : Nat) : Metadata :=
  decMeta fun i => pg.mem (c.hdr + pos * metaLen + i)

/-- `CopyRecordFrom`, `varlen/node.hpp` 522-529 and 560-569: the bytes of key and payload are
copied, then the metadata is written. -/
def VPage.put (c : VCfg) (pg : VPage) (off : Nat) (key pay : List UInt8) : Option (VPage × Nat) :=
  let len := key.length + pay.length
  if len ≤ off then
    some ({ pg with
      mem := (pg.mem.write (off - len) (key ++ pay)).write (c.hdr + pg.cnt * metaLen)
        (encMeta (Metadata.mk' (off - len) key.length len))
      cnt := (pg.cnt + 1) % 65536
      size := pg.size + (metaLen + len) }, off - len)
  else none

/-- The copy loop. -/
def VPage.fill (c : VCfg) : VPage → Nat → List (List UInt8 × List UInt8) → Option (VPage × Nat)
  | pg, off, [] => some (pg, off)
  | pg, off, r :: rs => (pg.put c off r.1 r.2).bind fun x => VPage.fill c x.1 x.2 rs

/-- `CopyLowKeyFrom`, `varlen/node.hpp` 450-475.  `key` is the key in the given node (empty: none);
an index node has its lowest key in record 0. -/
def VPage.copyLow (c : VCfg) (pg : VPage) (key : List UInt8) : Option (VPage × Nat) :=
  let off := if pg.cnt = 0 then pg.high.offset.toNat else (pg.rmeta c (pg.cnt - 1)).offset.toNat
  if pg.inner then
    let m := pg.rmeta c 0
    some ({ pg with low := { m with recLen := m.keyLen } }, off)
  else if key.length ≤ off then
    some ({ pg with
      mem := pg.mem.write (off - key.length) key
      low := Metadata.mk' (off - key.length) key.length key.length
      size := pg.size + key.length }, off - key.length)
  else none

/-- `CopyHighKeyFrom`, `varlen/node.hpp` 484-502. -/
def VPage.copyHigh (pg : VPage) (off : Nat) (key : List UInt8) : Option VPage :=
  if key.length ≤ off then
    some { pg with
      mem := pg.mem.write (off - key.length) key
      high := Metadata.mk' (off - key.length) key.length key.length
      size := pg.size + key.length }
  else none

/-- A consolidated node that is not split, `bw_tree.hpp` 1289-1326; `start` is `kPageSize` or twice
that for scans. -/
def VPage.consolidate (c : VCfg) (old : Mem) (inner : Bool) (start : Nat)
    (recs : List (List UInt8 × List UInt8)) (low high : List UInt8) : Option VPage :=
  ((VPage.init c old inner).fill c start recs).bind fun x =>
    (x.1.copyLow c low).bind fun y => y.1.copyHigh y.2 high

/-- Bytes of the key of record `pos`: `GetKey`, `varlen/node.hpp` 743-751, 759-775. -/
def VPage.key (c : VCfg) (pg : VPage) (pos : Nat) : List UInt8 :=
  let m := pg.rmeta c pos
  pg.mem.read m.offset.toNat m.keyLen.toNat

/-- Bytes of the payload of record `pos`: `GetPayloadAddr`, `varlen/node.hpp` 781-786. -/
def VPage.pay (c : VCfg) (pg : VPage) (plen pos : Nat) : List UInt8 :=
  let m := pg.rmeta c pos
  pg.mem.read (m.offset.toNat + m.keyLen.toNat) plen

/-- Bytes of a border key. -/
def VPage.border (pg : VPage) (m : Metadata) : List UInt8 := pg.mem.read m.offset.toNat m.keyLen.toNat

/-- Sizes during `Bulkload` of one node, `varlen/node.hpp` 610-632: `n` is the local `node_size`, the
result the number of entries taken.  `maxKey` is `kMaxKeyLen`. -/
def bulkCount (cap : Nat) : Nat → List (List UInt8 × List UInt8) → Nat
  | _, [] => 0
  | n, r :: rs =>
    let n' := n + (r.1.length + r.2.length + metaLen)
    if cap < n' then 0 else bulkCount cap n' rs + 1

/-- `Bulkload` of one node, `varlen/node.hpp` 597-643, and the entries left.  The variable `is_leaf`
of line 610 is 1 for index nodes and 0 for leaves. -/
def VPage.bulkload (c : VCfg) (maxKey cap : Nat) (old : Mem) (inner : Bool)
    (es : List (List UInt8 × List UInt8)) : Option (VPage × List (List UInt8 × List UInt8)) :=
  let isLeaf := if inner then 1 else 0
  let n := bulkCount cap (c.hdr + maxKey + isLeaf * maxKey) es
  ((VPage.init c old inner).fill c (c.page - maxKey) (es.take n)).map fun x =>
    let m := x.1.rmeta c 0
    ({ x.1 with low := { m with recLen := m.keyLen }, size := x.1.size + isLeaf * m.keyLen.toNat },
      es.drop n)

/-- `LinkNext`, `varlen/node.hpp` 858-873; `key` is the lowest key of the right node. -/
def VPage.linkNext (c : VCfg) (pg : VPage) (key : List UInt8) : VPage :=
  { pg with
    mem := pg.mem.write (c.page - key.length) key
    high := Metadata.mk' (c.page - key.length) key.length key.length
    size := pg.size + key.length }

/-! ## Delta records -/

/-- Round up to a multiple of `2^k`: `(x + (2^k - 1)) & ~(2^k - 1)` on 64-bit words. -/
def alignUp (k x : Nat) : Nat :=
  ((BitVec.ofNat 64 x + BitVec.ofNat 64 (2 ^ k - 1)) &&& ~~~ (BitVec.ofNat 64 (2 ^ k - 1))).toNat

/-- `GetMaxDeltaSize`, `varlen/delta_record.hpp` 487-493: the bytes of a delta page. -/
def vDeltaCap (hdr maxKey payLen : Nat) : Nat := alignUp 6 (hdr + 2 * maxKey + max payLen 8)

/-- `GetMaxDeltaSize`, `fixlen/delta_record.hpp` 442-449. -/
def fDeltaCap (hdr payLen : Nat) : Nat := alignUp 6 (hdr + max payLen 8)

/-- The kinds of delta records by constructor, with the lengths of the lowest and the highest key
(0: none). -/
inductive DKind where
  | put (key : Nat)
  | del (key : Nat)
  | entry (low high : Nat)
  | idxDel (low high : Nat)
  | remove
  deriving DecidableEq

/-- First byte after the record, `varlen/delta_record.hpp` 78-87 (put), 95-101 (delete), 114-133
(insert entry, merge), 141-163 (index delete, its word aligned to eight bytes), 170-173 (remove). -/
def vDeltaEnd (hdr payLen : Nat) : DKind → Nat
  | .put k => hdr + k + payLen
  | .del k => hdr + k
  | .entry l h => hdr + l + 8 + h
  | .idxDel l h => (alignUp 3 (hdr + l) - l) + l + 8 + h
  | .remove => hdr

/-- First byte after the record in the fixed-length layout, `fixlen/delta_record.hpp` 75-154;
`block` is the offset of `payload_`. -/
def fDeltaEnd (hdr block payLen : Nat) : DKind → Nat
  | .put _ => block + payLen
  | .del _ => hdr
  | .entry _ _ => block + 8
  | .idxDel _ _ => alignUp 3 hdr + 8
  | .remove => hdr

end BwTree.Layout
