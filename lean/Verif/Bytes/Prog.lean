import Verif.Layout.Search
import Verif.Conc.Code

/-!
# Programs on bytes (model)

The functions of `bw_tree.hpp` once more, this time on objects made of bytes.  `Verif/Conc/Code.lean`
works on records and keys of an ordered type; here keys, payloads and page IDs in records are byte
strings, every constructor of a node or delta record writes into a page whose old bytes are
arbitrary, and a head is compared by its identity (its address), not by its contents.

What a page layout provides is an interface, `Lay`; `Verif/Bytes/VarLay.lean` is the layout for
variable-length data.  The identity of an object is given when it is published.
-/

namespace BwTree.Bytes

open Layout (Mem BRd BBound)

abbrev Str := List UInt8

/-- What consolidation makes. -/
inductive LSmo (N : Type) where
  | consolidate (n : N)
  | split (l r : N)
  | merge (n : N)

/-- A page layout: `C` are delta chains, `N` nodes, `D` delta records that are not yet linked. -/
structure Lay where
  C : Type
  N : Type
  D : Type
  isLeaf : C → Bool
  isRemoved : C → Bool
  needWait : C → Bool
  needCons : C → Bool
  child : Str → Bool → C → ChRes
  validate : Str → Bool → C → VRes
  check : Str → C → KcRes
  read : Str → C → BRd
  mergeStep : Str → Option Str → C → McRes × Option Str
  leftmost : C → Option PID
  empty : Mem → N
  base : N → C
  mark : Bool → C
  cons : Mem → Mem → C → Option (LSmo N)
  scan : Mem → BBound → BBound → C → Option (List (Str × Str) × Option (Str × PID))
  low : N → Option Str
  high : N → Option Str
  inner : N → Bool
  cnt : N → Nat
  setNext : N → PID → N
  diff : N → Int
  entLen : Bool → Str → Nat
  put : Mem → Str → Str → D
  del : Mem → Str → D
  entry : Mem → N → PID → D
  idxDel : Mem → N → Nat → D
  mergeD : Mem → N → D
  root : Mem → PID → D → N
  push : DType → D → C → Int → C

/-- A published object: its identity and what it holds. -/
structure Head (C : Type) where
  id : Nat
  ch : C

/-- Shared memory; `nid` is the identity of the next object. -/
structure BSh (C : Type) where
  mt : PID → Option (Head C)
  root : PID
  cells : Nat → PID
  npid : PID
  ncell : Nat
  nid : Nat

/-- Programs; compare `Prog`. -/
inductive BProg (C : Type) (α : Type) where
  | ret (a : α)
  | ub
  | stuck
  | flag (k : Flag)
  | loadRoot (k : PID → BProg C α)
  | storeRoot (p : PID) (k : BProg C α)
  | casRoot (old new : PID) (k : Bool → BProg C α)
  | load (p : PID) (k : Head C → BProg C α)
  | store (p : PID) (c : C) (k : BProg C α)
  /-- `CASWeak`/`CASStrong`: if it succeeds, the new object is published. -/
  | cas (p : PID) (old : Head C) (new : C) (k : Option (Head C) → BProg C α)
  /-- the comparison in `TrySMOs`, `bw_tree.hpp` 1188-1189. -/
  | check (p : PID) (h : Head C) (k : Bool → BProg C α)
  | newPid (k : PID → BProg C α)
  | newCell (k : Nat → BProg C α)
  | loadCell (w : Nat) (k : PID → BProg C α)
  | storeCell (w : Nat) (p : PID) (k : BProg C α)
  /-- a page for a record or node (`GetRecPage`, `GetNodePage`): any bytes. -/
  | alloc (k : Mem → BProg C α)

namespace BProg
variable {C : Type} {α β : Type}

/-- Sequential composition. -/
def bind : BProg C α → (α → BProg C β) → BProg C β
  | ret a, f => f a
  | ub, _ => ub
  | stuck, _ => stuck
  | flag k, _ => flag k
  | loadRoot k, f => loadRoot (fun r => (k r).bind f)
  | storeRoot p k, f => storeRoot p (k.bind f)
  | casRoot o n k, f => casRoot o n (fun r => (k r).bind f)
  | load p k, f => load p (fun r => (k r).bind f)
  | store p c k, f => store p c (k.bind f)
  | cas p o n k, f => cas p o n (fun r => (k r).bind f)
  | check p h k, f => check p h (fun r => (k r).bind f)
  | newPid k, f => newPid (fun r => (k r).bind f)
  | newCell k, f => newCell (fun r => (k r).bind f)
  | loadCell w k, f => loadCell w (fun r => (k r).bind f)
  | storeCell w p k, f => storeCell w p (k.bind f)
  | alloc k, f => alloc (fun r => (k r).bind f)

end BProg

/-- Put a new object in a slot. -/
def BSh.publish {C : Type} (s : BSh C) (p : PID) (c : C) : BSh C :=
  { s with mt := upd s.mt p (some ⟨s.nid, c⟩), nid := s.nid + 1 }

/-- One atomic step of a program. -/
inductive BStep {C α : Type} : BSh C → BProg C α → BSh C → BProg C α → Prop
  | loadRoot (s : BSh C) (k) : BStep s (.loadRoot k) s (k s.root)
  | storeRoot (s : BSh C) (p k) : BStep s (.storeRoot p k) { s with root := p } k
  | casRootOk (s : BSh C) (o n k) : s.root = o →
      BStep s (.casRoot o n k) { s with root := n } (k true)
  | casRootFail (s : BSh C) (o n k) : s.root ≠ o → BStep s (.casRoot o n k) s (k false)
  | load (s : BSh C) (p k h) : s.mt p = some h → BStep s (.load p k) s (k h)
  | loadNull (s : BSh C) (p k) : s.mt p = none → BStep s (.load p k) s .ub
  | store (s : BSh C) (p c k) : BStep s (.store p c k) (s.publish p c) k
  | casOk (s : BSh C) (p o n k h) : s.mt p = some h → h.id = o.id →
      BStep s (.cas p o n k) (s.publish p n) (k (some ⟨s.nid, n⟩))
  | casFail (s : BSh C) (p o n k) : BStep s (.cas p o n k) s (k none)
  | checkOk (s : BSh C) (p o k h) : s.mt p = some h → h.id = o.id →
      BStep s (.check p o k) s (k true)
  | checkFail (s : BSh C) (p o k) : BStep s (.check p o k) s (k false)
  | newPid (s : BSh C) (k) : BStep s (.newPid k) { s with npid := s.npid + 1 } (k s.npid)
  | newCell (s : BSh C) (k) :
      BStep s (.newCell k) { s with ncell := s.ncell + 1, cells := upd s.cells s.ncell 0 }
        (k s.ncell)
  | loadCell (s : BSh C) (w k) : BStep s (.loadCell w k) s (k (s.cells w))
  | storeCell (s : BSh C) (w p k) :
      BStep s (.storeCell w p k) { s with cells := upd s.cells w p } k
  | alloc (s : BSh C) (k m) : BStep s (.alloc k) s (k m)

/-! ## The functions of `bw_tree.hpp`

Each definition has the lines of its namesake in `Verif/Conc/Code.lean`. -/

variable (L : Lay)

/-- A live leaf. -/
def Lay.liveLeaf (c : L.C) : Bool := L.isLeaf c && !L.isRemoved c

/-- A live inner node. -/
def Lay.liveInner (c : L.C) : Bool := !L.isLeaf c && !L.isRemoved c

/-- `LoadValidHead`, `bw_tree.hpp` 904-918. -/
def loadValidHead : Nat → PID → BProg L.C (Head L.C)
  | 0, _ => .stuck
  | f + 1, p => .load p fun h => if L.needWait h.ch then loadValidHead f p else .ret h

/-- `GetPayloadAtomically`, `varlen/delta_record.hpp` 453-468. -/
def waitCell : Nat → Nat → BProg L.C PID
  | 0, _ => .stuck
  | f + 1, w => .loadCell w fun p => if p = 0 then waitCell f w else .ret p

/-- `SearchChildNode`, `bw_tree.hpp` 770-816. -/
def searchChild (key : Str) (closed : Bool) (tgt : PID) : Nat → Stk → BProg L.C (Bool × Stk)
  | 0, _ => .stuck
  | _ + 1, [] => .ub
  | f + 1, p :: rest => .load p fun h =>
    if L.liveLeaf h.ch then .flag .leafAsInner
    else match L.child key closed h.ch with
    | .child q => .ret (false, q :: p :: rest)
    | .cell w => (waitCell L f w).bind fun q => .ret (false, q :: p :: rest)
    | .sibling q =>
      if q = tgt then .ret (true, p :: rest) else searchChild key closed tgt f (q :: rest)
    | .removed =>
      if rest = [] then
        if tgt ≠ 0 then .ret (false, [])
        else .loadRoot fun r => searchChild key closed tgt f [r]
      else (searchChild key closed tgt f rest).bind fun x =>
        if x.1 then .ret (true, x.2)
        else if x.2 = [] then .ret (false, [])
        else searchChild key closed tgt f x.2
    | .ub => .ub

/-- Loop of `SearchLeafNode`, `bw_tree.hpp` 835-840. -/
def searchLeafLoop (key : Str) (closed : Bool) : Nat → Stk → BProg L.C Stk
  | 0, _ => .stuck
  | _ + 1, [] => .ub
  | f + 1, p :: rest => .load p fun h =>
    if L.isLeaf h.ch then .ret (p :: rest)
    else (searchChild L key closed 0 f (p :: rest)).bind fun x => searchLeafLoop key closed f x.2

/-- `SearchLeafNode`, `bw_tree.hpp` 825-842. -/
def searchLeaf (key : Str) (closed : Bool) (f : Nat) : BProg L.C Stk :=
  .loadRoot fun r => searchLeafLoop L key closed f [r]

/-- `SearchTargetNode`, `bw_tree.hpp` 875-894. -/
def searchTarget (key : Str) (tInner : Bool) (tgt : PID) : Nat → Stk → BProg L.C Stk
  | 0, _ => .stuck
  | f + 1, [] => .loadRoot fun r => searchTarget key tInner tgt f [r]
  | f + 1, p :: rest => .load p fun h =>
    if L.isLeaf h.ch then (if tInner then .flag .targetMissed else .ret (p :: rest))
    else (searchChild L key true tgt f (p :: rest)).bind fun x =>
      if x.1 then .ret x.2 else searchTarget key tInner tgt f x.2

/-- `GetHead`, `bw_tree.hpp` 929-967. -/
def getHead (key : Str) (closed : Bool) (tgt : PID) :
    Nat → Stk → BProg L.C (Option (Head L.C × Stk))
  | 0, _ => .stuck
  | _ + 1, [] => .ub
  | f + 1, p :: rest => (loadValidHead L f p).bind fun h =>
    match L.validate key closed h.ch with
    | .ok => .ret (some (h, p :: rest))
    | .sibling q =>
      if q = tgt then .ret (some (h, p :: rest)) else getHead key closed tgt f (q :: rest)
    | .removed =>
      if rest = [] then
        if tgt ≠ 0 then .ret none
        else (searchLeaf L key closed f).bind fun s => getHead key closed tgt f s
      else (searchChild L key closed tgt f rest).bind fun x =>
        if x.2 = [] then .ret none else getHead key closed tgt f x.2
    | .ub => .ub

/-- `GetHeadWithKeyCheck`, `bw_tree.hpp` 977-1017. -/
def getHeadKC (key : Str) : Nat → Stk → BProg L.C (Stk × Head L.C × Bool)
  | 0, _ => .stuck
  | _ + 1, [] => .ub
  | f + 1, p :: rest => (loadValidHead L f p).bind fun h =>
    if L.liveInner h.ch then .flag .innerAsLeaf
    else match L.check key h.ch with
    | .ret b => .ret (p :: rest, h, b)
    | .sibling q => getHeadKC key f (q :: rest)
    | .removed =>
      if rest = [] then (searchLeaf L key true f).bind fun s => getHeadKC key f s
      else (searchChild L key true 0 f rest).bind fun x => getHeadKC key f x.2
    | .ub => .ub

/-- `GetHeadForMerge`, `bw_tree.hpp` 1028-1077. -/
def getHeadForMerge (key : Str) :
    Nat → Option Str → Stk → BProg L.C (Stk × Head L.C × Bool × Option Str)
  | 0, _, _ => .stuck
  | _ + 1, _, [] => .ub
  | f + 1, sib, p :: rest => (loadValidHead L f p).bind fun h =>
    match (L.mergeStep key sib h.ch).1 with
    | .ok => .ret (p :: rest, h, true, (L.mergeStep key sib h.ch).2)
    | .abort => .ret (p :: rest, h, false, (L.mergeStep key sib h.ch).2)
    | .sibling q => getHeadForMerge key f (L.mergeStep key sib h.ch).2 (q :: rest)
    | .ub => .ub

/-- `TryRootSplit`, `bw_tree.hpp` 1406-1423. -/
def tryRootSplit (d : L.D) (lpid : PID) : BProg L.C Bool :=
  .loadRoot fun r =>
    if r ≠ lpid then .ret false
    else .alloc fun m => .newPid fun np =>
      .store np (L.base (L.root m lpid d)) (.storeRoot np (.ret true))

/-- Loop of `Split`, `bw_tree.hpp` 1366-1395.  `d` is the index-entry delta. -/
def splitLoop (smo : Head L.C → Stk → BProg L.C Unit) (sep : Str) (d : L.D)
    (rInner : Bool) (rpid lpid : PID) : Nat → Stk → BProg L.C Unit
  | 0, _ => .stuck
  | f + 1, [] => (tryRootSplit L d lpid).bind fun b =>
    if b then .ret ()
    else (searchTarget L sep rInner rpid f []).bind fun s =>
      match s with
      | [] => .ub
      | _ :: s' => splitLoop smo sep d rInner rpid lpid f s'
  | f + 1, x :: xs => (getHead L sep true rpid f (x :: xs)).bind fun o =>
    match o with
    | none => splitLoop smo sep d rInner rpid lpid f []
    | some (_, []) => .ub
    | some (h, p :: rest) =>
      let nc := L.push .insert d h.ch (L.entLen true sep)
      .cas p h nc fun b =>
        match b with
        | some nh => if L.needCons nc then smo nh (p :: rest) else .ret ()
        | none => splitLoop smo sep d rInner rpid lpid f (p :: rest)

/-- `Split`, `bw_tree.hpp` 1346-1396. -/
def split (smo : Head L.C → Stk → BProg L.C Unit) (f : Nat) (l r : L.N) (sep : Str) (stk : Stk) :
    BProg L.C Unit :=
  match stk with
  | [] => .ub
  | lpid :: rest => .newPid fun rpid =>
    .store rpid (L.base r) <|
    .store lpid (L.base (L.setNext l rpid)) <|
    .alloc fun m => splitLoop L smo sep (L.entry m r rpid) (L.inner r) rpid lpid f rest

/-- Loop of `TryDeleteIndexEntry`, `bw_tree.hpp` 1529-1547.  `d` is the index-delete delta. -/
def deleteLoop (smo : Head L.C → Stk → BProg L.C Unit) (dk : Str) (d : L.D) (w : Nat) :
    Nat → Option Str → Stk → BProg L.C (Option Nat)
  | 0, _, _ => .stuck
  | f + 1, sib, stk => (getHeadForMerge L dk f sib stk).bind fun x =>
    if x.2.2.1 then
      match x.1 with
      | [] => .ub
      | p :: rest =>
        let nc := L.push .delete d x.2.1.ch (-(L.entLen true dk : Int))
        .cas p x.2.1 nc fun b =>
          match b with
          | some nh =>
            if L.needCons nc then (smo nh (p :: rest)).bind fun _ => .ret (some w)
            else .ret (some w)
          | none => deleteLoop smo dk d w f x.2.2.2 (p :: rest)
    else .ret none

/-- `TryDeleteIndexEntry`, `bw_tree.hpp` 1514-1549. -/
def tryDeleteIndexEntry (smo : Head L.C → Stk → BProg L.C Unit) (f : Nat) (n : L.N) (stk : Stk) :
    BProg L.C (Option Nat) :=
  if stk = [] then .ret none
  else match L.low n with
    | none => .ret none
    | some dk => .alloc fun m => .newCell fun w =>
      deleteLoop L smo dk (L.idxDel m n w) w f (L.high n) stk

/-- `TryRemoveRoot`, `bw_tree.hpp` 1560-1579. -/
def tryRemoveRoot (n : L.N) (pid : PID) (stk : Stk) : BProg L.C Bool :=
  if stk ≠ [] ∨ 1 < L.cnt n ∨ L.inner n = false then .ret false
  else match L.leftmost (L.base n) with
    | none => .ub
    | some q => .load q fun h =>
      if L.isLeaf h.ch then .ret false else .casRoot pid q fun b => .ret b

/-- Loops of `TryMerge`, `bw_tree.hpp` 1474-1501.  `d` is the merge delta. -/
def mergeLoop (smo : Head L.C → Stk → BProg L.C Unit) (n : L.N) (dk : Str) (d : L.D) (w : Nat)
    (rem : PID) : Nat → Bool → Stk → BProg L.C Unit
  | 0, _, _ => .stuck
  | f + 1, true, [] => (searchTarget L dk (L.inner n) rem f []).bind fun s =>
      mergeLoop smo n dk d w rem f false s
  | f + 1, true, x :: xs => (searchChild L dk false rem f (x :: xs)).bind fun y =>
      if y.2 = [] then mergeLoop smo n dk d w rem f true []
      else mergeLoop smo n dk d w rem f false y.2
  | f + 1, false, stk => (getHead L dk false rem f stk).bind fun o =>
    match o with
    | none => mergeLoop smo n dk d w rem f true []
    | some (_, []) => .ub
    | some (h, p :: rest) =>
      let nc := L.push .merge d h.ch (L.diff n)
      .cas p h nc fun b =>
        match b with
        | some nh =>
          .storeCell w p (if L.needCons nc then smo nh (p :: rest) else .ret ())
        | none => mergeLoop smo n dk d w rem f false (p :: rest)

/-- `TryMerge`, `bw_tree.hpp` 1434-1502. -/
def tryMerge (smo : Head L.C → Stk → BProg L.C Unit) (f : Nat) (head : Head L.C) (n : L.N)
    (stk : Stk) : BProg L.C Unit :=
  match stk with
  | [] => .ub
  | p :: rest => .cas p head (L.mark (!L.inner n)) fun b =>
    match b with
    | some _ =>
      (tryDeleteIndexEntry L smo f n rest).bind fun o =>
        match o, L.low n with
        | none, _ => (tryRemoveRoot L n p rest).bind fun b =>
            if b then .ret () else .store p (L.base n) (.ret ())
        | some w, some dk => .alloc fun m => mergeLoop L smo n dk (L.mergeD m n) w p f true rest
        | some _, none => .ub
    | none => .ret ()

/-- `TrySMOs`, `bw_tree.hpp` 1178-1216; the pages for the new nodes are taken at 1245 and 1250. -/
def trySMOs : Nat → Head L.C → Stk → BProg L.C Unit
  | 0, _, _ => .stuck
  | _ + 1, _, [] => .ub
  | f + 1, head, p :: rest => .check p head fun b =>
    if b then
      .alloc fun m => .alloc fun m' =>
      match L.cons m m' head.ch with
      | none => .ub
      | some (.consolidate n) => .cas p head (L.base n) fun _ => .ret ()
      | some (.split l r) =>
        match L.low r with
        | none => .ub
        | some sep => split L (trySMOs f) f l r sep (p :: rest)
      | some (.merge n) => tryMerge L (trySMOs f) f head n (p :: rest)
    else .ret ()

/-- Loop of `Read`, `bw_tree.hpp` 155-196. -/
def readLoop (key : Str) : Nat → Stk → BProg L.C (Option Str)
  | 0, _ => .stuck
  | _ + 1, [] => .ub
  | f + 1, p :: rest => .load p fun h =>
    if L.liveInner h.ch then .flag .innerAsLeaf
    else match L.read key h.ch with
    | .ret o => .ret o
    | .sibling q => readLoop key f (q :: rest)
    | .removed =>
      if rest = [] then .flag .emptyStack
      else (searchChild L key true 0 f rest).bind fun x => readLoop key f x.2
    | .ub => .ub

/-- What a writing operation does with a head and the existence of its key: give up with a result,
or link its record with this type and size difference; `bw_tree.hpp` 275-283, 329-339, 383-392,
433-442. -/
def writeStep (op : Spec.Op Str Str) (found : Bool) : Spec.Res Str ⊕ (DType × Int) :=
  match op with
  | .read _ => .inl .success
  | .write k _ => if found then .inr (.modify, 0) else .inr (.insert, L.entLen false k)
  | .insert k _ => if found then .inl .keyExist else .inr (.insert, L.entLen false k)
  | .update _ _ => if found then .inr (.modify, 0) else .inl .keyNotExist
  | .delete k => if found then .inr (.delete, -(L.entLen false k : Int)) else .inl .keyNotExist

/-- Loop of `Write` (269-289), `Insert` (325-346), `Update` (379-399), `Delete` (429-448); `d` is the
record of the operation. -/
def writeLoop (op : Spec.Op Str Str) (key : Str) (d : L.D) : Nat → Stk → BProg L.C (Spec.Res Str)
  | 0, _ => .stuck
  | f + 1, stk => (getHeadKC L key f stk).bind fun x =>
    match writeStep L op x.2.2 with
    | .inl r => .ret r
    | .inr (ty, diff) =>
      match x.1 with
      | [] => .ub
      | p :: rest =>
        let nc := L.push ty d x.2.1.ch diff
        .cas p x.2.1 nc fun b =>
          match b with
          | some nh =>
            if L.needCons nc then (trySMOs L f nh (p :: rest)).bind fun _ => .ret .success
            else .ret .success
          | none => writeLoop op key d f (p :: rest)

/-- The record of an operation, `bw_tree.hpp` 268, 324, 378, 428. -/
def opRec (m : Mem) : Spec.Op Str Str → L.D
  | .read k => L.del m k
  | .write k v | .insert k v | .update k v => L.put m k v
  | .delete k => L.del m k

/-- `Read` (145-197), `Write` (260-297), `Insert` (313-350), `Update` (367-403), `Delete`
(417-452). -/
def runOp (f : Nat) (op : Spec.Op Str Str) : BProg L.C (Spec.Res Str) :=
  (searchLeaf L (opKey op) true f).bind fun stk =>
    match op with
    | .read k => (readLoop L k f stk).bind fun o => .ret (.payload o)
    | _ => .alloc fun m => writeLoop L op (opKey op) (opRec L m op) f stk

/-- `ConsolidateForScan` (`bw_tree.hpp` 1092-1113) and `SearchEndPositionFor`. -/
def scanFrom (key : Str) (closed : Bool) (e : BBound) :
    Nat → Stk → BProg L.C (List (Str × Str) × Option (Str × PID))
  | 0, _ => .stuck
  | f + 1, stk => (getHead L key closed 0 f stk).bind fun o =>
    match o with
    | none => .ub
    | some (h, stk') =>
      if L.isRemoved h.ch then scanFrom key closed e f stk'
      else if L.liveInner h.ch then .flag .innerAsLeaf
      else .alloc fun m => match L.scan m (some (key, closed)) e h.ch with
        | none => .ub
        | some x => .ret x

/-- `SearchLeftmostLeaf`, `bw_tree.hpp` 849-866. -/
def leftmostLoop : Nat → PID → BProg L.C PID
  | 0, _ => .stuck
  | f + 1, p => .load p fun h =>
    if L.isLeaf h.ch then .ret p
    else if L.isRemoved h.ch then .flag .nullNext
    else match L.leftmost h.ch with
      | none => .ub
      | some q => leftmostLoop f q

/-- The loop of `Scan` without a begin key, `bw_tree.hpp` 228-234. -/
def scanLeft (e : BBound) : Nat → PID → BProg L.C (List (Str × Str) × Option (Str × PID))
  | 0, _ => .stuck
  | f + 1, p => .load p fun h =>
    if L.isRemoved h.ch then scanLeft e f p
    else .alloc fun m => match L.scan m none e h.ch with
      | none => .ub
      | some x => .ret x

/-- `Scan`, `bw_tree.hpp` 206-242: the visit of the first node. -/
def scanFirst (f : Nat) (b e : BBound) : BProg L.C (List (Str × Str) × Option (Str × PID)) :=
  match b with
  | some (k, closed) => (searchLeaf L k closed f).bind fun stk => scanFrom L k closed e f stk
  | none => (.loadRoot fun r => leftmostLoop L f r : BProg L.C PID).bind fun p => scanLeft L e f p

/-- `SiblingScan`, `bw_tree.hpp` 1124-1141: the visit of the next node. -/
def scanNext (f : Nat) (p : PID) (key : Str) (e : BBound) :
    BProg L.C (List (Str × Str) × Option (Str × PID)) :=
  scanFrom L key true e f [p]

end BwTree.Bytes
