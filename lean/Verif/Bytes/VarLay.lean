import Verif.Bytes.Prog

/-!
# The layout for variable-length data (model)

`Lay` made of the pages and delta records of `Verif/Layout`.
-/

namespace BwTree.Bytes

open Layout

/-- The bytes of a page ID (little endian); `w` is `sizeof(PageID)`. -/
def pidBytes : Nat → PID → Str
  | 0, _ => []
  | w + 1, p => UInt8.ofNat p :: pidBytes w (p / 256)

/-- `memcpy` to a page ID. -/
def pidOf : Str → PID
  | [] => 0
  | b :: bs => b.toNat + 256 * pidOf bs

/-- Constants of the layout: `kPageSize` and `sizeof(Node)`, `sizeof(DeltaRecord)`, `sizeof(Payload)`,
`sizeof(PageID)`, `kMinNodeSize`, `kDeltaRecordThreshold`, `kMaxDeltaRecordNum`, and `Comp`. -/
structure VPar where
  c : VCfg
  dh : Nat
  pay : Nat
  pid : Nat
  minSize : Nat
  thr : Nat
  maxDelta : Nat
  lt : Str → Str → Bool

/-- A child found in a record is a page ID of its payload. -/
def childRes : BCh → ChRes
  | .child s => .child (pidOf s)
  | .cell w => .cell w
  | .sibling p => .sibling p
  | .removed => .removed
  | .ub => .ub

/-- What consolidation leaves: `TryConsolidate`, `bw_tree.hpp` 1227-1259. -/
def smoRes : BSMO → LSmo VPage
  | .one false pg => .consolidate pg
  | .one true pg => .merge pg
  | .two l r => .split l r

/-- A bound of a node: `GetLowKey`, `GetHighKey`, `varlen/node.hpp` 212-257. -/
def VPage.bound (pg : VPage) (m : Util.Metadata) : Option Str :=
  if m.keyLen.toNat = 0 then none else some (pg.border m)

/-- The variable-length layout.  The pointer in a merge delta is a reference to the node, so the
bytes of the pointer are any; the word of an index-delete delta holds `kNullPtr` first. -/
def varLay (P : VPar) : Lay where
  C := BChain
  N := VPage
  D := VRec × BRef
  isLeaf := fun b => !b.inner
  isRemoved := fun b => match b with | .removed _ => true | _ => false
  needWait := fun b =>
    b.isDelta && (decide (P.maxDelta ≤ b.cnt) || decide ((P.c.page : Int) < b.size))
  needCons := fun b => b.isDelta && (decide (P.thr ≤ b.cnt) || decide ((P.c.page : Int) < b.size))
  child := fun k cl b => childRes (bChildStep P.lt P.c P.pid k cl b)
  validate := bValidate P.lt
  check := bKeyCheck P.lt P.c P.pay
  read := bRead P.lt P.c P.pay
  mergeStep := fun k sib b => let r := bMergeCheck P.lt P.c k sib.isSome sib b
    (r.1, if sib.isSome then r.2 else none)
  leftmost := fun b => (b.leftmostChild P.c P.pid).map pidOf
  empty := fun m => VPage.init P.c m false
  base := .base
  mark := .removed
  cons := fun m m' b => (bTryConsolidate P.lt P.c P.minSize m m' false b).map smoRes
  scan := fun m bb eb b => bScanOut P.lt P.c P.pay P.minSize m bb eb b
  low := fun pg => VPage.bound pg pg.low
  high := fun pg => VPage.bound pg pg.high
  inner := fun pg => pg.inner
  cnt := fun pg => pg.cnt
  setNext := fun pg p => { pg with next := p }
  diff := fun pg => pg.nodeDiff P.c
  entLen := fun inner k => metaLen + (if inner then P.pid else P.pay) + k.length
  put := fun m k v => (VRec.put P.dh m k v, .none)
  del := fun m k => (VRec.del P.dh m k, .none)
  entry := fun m pg p => (VRec.entry P.dh m true pg.asRec (pidBytes P.pid p), .none)
  idxDel := fun m pg w => (VRec.idxDel P.dh m pg.asRec (pidBytes P.pid 0), .word w)
  mergeD := fun m pg => (VRec.entry P.dh m pg.inner pg.asRec (m.read 0 P.pid), .node pg)
  root := fun m p d => VPage.newRoot P.c m (pidBytes P.pid p) d.1
  push := fun ty d b diff => .push ty d.1 d.2 b diff

end BwTree.Bytes
