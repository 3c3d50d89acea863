import Verif.Conc.Prog
import Verif.Tree.Scan
import Verif.Tree.KeyBuffer

/-!
# The functions of `bw_tree.hpp` as programs (model)

Every loop and recursion takes a fuel argument; a thread whose fuel is used up never moves again.
All theorems hold for every amount of fuel, hence for every finite prefix of an execution.

Conventions: a stack is a list whose head is `stack.back()`; functions that modify their stack
argument return the new stack.  Memory management (`GetRecPage`, `tls_*`, `AddToGC`) is not part of
this model.  The `flag` constructors mark events at which the code silently continues with a node
of the wrong level.
-/

namespace BwTree
open Prog

variable {K V : Type} [LinearOrder K]

/-- `std::vector<PageID>`; the head of the list is `back()`. -/
abbrev Stk := List PID

/-- A live leaf (used to mark a level confusion; a removal mark is handled by its own case). -/
def Chain.liveLeaf (c : Chain K V) : Bool := c.isLeaf && !c.isRemoved

/-- A live inner node. -/
def Chain.liveInner (c : Chain K V) : Bool := !c.isLeaf && !c.isRemoved

/-- `LoadValidHead`, `bw_tree.hpp` 904-918. -/
def loadValidHead (cfg : Cfg K) : Nat → PID → Prog K V (Chain K V)
  | 0, _ => .stuck
  | f + 1, p => .load p fun c => if c.needWait cfg then loadValidHead cfg f p else .ret c

/-- `GetPayloadAtomically`, `fixlen/delta_record.hpp` 404-418. -/
def waitCell : Nat → Nat → Prog K V PID
  | 0, _ => .stuck
  | f + 1, w => .loadCell w fun p => if p = 0 then waitCell f w else .ret p

/-- `SearchChildNode`, `bw_tree.hpp` 770-816.  The recursive call (799) and the loop share the
fuel.  `tgt = 0` is `kNullPtr`. -/
def searchChild (key : K) (closed : Bool) (tgt : PID) : Nat → Stk → Prog K V (Bool × Stk)
  | 0, _ => .stuck
  | _ + 1, [] => .ub
  | f + 1, p :: rest => .load p fun c =>
    if c.liveLeaf then .flag .leafAsInner
    else match childStep key closed c with
    | .child q => .ret (false, q :: p :: rest)
    | .cell w => (waitCell f w).bind fun q => .ret (false, q :: p :: rest)
    | .sibling q =>
      if q = tgt then .ret (true, p :: rest) else searchChild key closed tgt f (q :: rest)
    | .removed =>
      if rest = [] then
        if tgt ≠ 0 then .ret (false, [])
        else .loadRoot fun r => searchChild key closed tgt f [r]
      else (searchChild key closed tgt f rest).bind fun x =>
        if x.1 then .ret (true, x.2)
        else if x.2 = [] then .ret (false, [])
        else searchChild key closed tgt f x.2
    | .ub => .ub

/-- Loop of `SearchLeafNode`, `bw_tree.hpp` 835-840. -/
def searchLeafLoop (key : K) (closed : Bool) : Nat → Stk → Prog K V Stk
  | 0, _ => .stuck
  | _ + 1, [] => .ub
  | f + 1, p :: rest => .load p fun c =>
    if c.isLeaf then .ret (p :: rest)
    else (searchChild key closed 0 f (p :: rest)).bind fun x => searchLeafLoop key closed f x.2

/-- `SearchLeafNode`, `bw_tree.hpp` 825-842. -/
def searchLeaf (key : K) (closed : Bool) (f : Nat) : Prog K V Stk :=
  .loadRoot fun r => searchLeafLoop key closed f [r]

/-- `SearchTargetNode`, `bw_tree.hpp` 875-894.  The outer `do`-loop restarts when the stack is
empty.  `tInner` (is the target an inner node?) only serves the instrumentation. -/
def searchTarget (key : K) (tInner : Bool) (tgt : PID) : Nat → Stk → Prog K V Stk
  | 0, _ => .stuck
  | f + 1, [] => .loadRoot fun r => searchTarget key tInner tgt f [r]
  | f + 1, p :: rest => .load p fun c =>
    if c.isLeaf then (if tInner then .flag .targetMissed else .ret (p :: rest))
    else (searchChild key true tgt f (p :: rest)).bind fun x =>
      if x.1 then .ret x.2 else searchTarget key tInner tgt f x.2

/-- `GetHead`, `bw_tree.hpp` 929-967 (`none` is `nullptr`; the stack is empty then).  Calls without
a target (`tgt = 0`) occur only in scans. -/
def getHead (cfg : Cfg K) (key : K) (closed : Bool) (tgt : PID) :
    Nat → Stk → Prog K V (Option (Chain K V × Stk))
  | 0, _ => .stuck
  | _ + 1, [] => .ub
  | f + 1, p :: rest => (loadValidHead cfg f p).bind fun c =>
    match dcValidate key closed c with
    | .ok => .ret (some (c, p :: rest))
    | .sibling q =>
      if q = tgt then .ret (some (c, p :: rest)) else getHead cfg key closed tgt f (q :: rest)
    | .removed =>
      if rest = [] then
        if tgt ≠ 0 then .ret none
        else (searchLeaf key closed f).bind fun s => getHead cfg key closed tgt f s
      else (searchChild key closed tgt f rest).bind fun x =>
        if x.2 = [] then .ret none else getHead cfg key closed tgt f x.2
    | .ub => .ub

/-- `GetHeadWithKeyCheck`, `bw_tree.hpp` 977-1017: (stack, head, key exists?). -/
def getHeadKC (cfg : Cfg K) (key : K) : Nat → Stk → Prog K V (Stk × Chain K V × Bool)
  | 0, _ => .stuck
  | _ + 1, [] => .ub
  | f + 1, p :: rest => (loadValidHead cfg f p).bind fun c =>
    if c.liveInner then .flag .innerAsLeaf
    else match keyCheck key c with
    | .ret b => .ret (p :: rest, c, b)
    | .sibling q => getHeadKC cfg key f (q :: rest)
    | .removed =>
      if rest = [] then (searchLeaf key true f).bind fun s => getHeadKC cfg key f s
      else (searchChild key true 0 f rest).bind fun x => getHeadKC cfg key f x.2
    | .ub => .ub

/-- `GetHeadForMerge`, `bw_tree.hpp` 1028-1077: (stack, head, `rc == kRecordFound`, characters of
`sib_key`).  In the general layout the characters may change on the way (`Tree/KeyBuffer.lean`). -/
def getHeadForMerge (cfg : Cfg K) (key : K) :
    Nat → Option K → Stk → Prog K V (Stk × Chain K V × Bool × Option K)
  | 0, _, _ => .stuck
  | _ + 1, _, [] => .ub
  | f + 1, sib, p :: rest => (loadValidHead cfg f p).bind fun c =>
    match (mergeStep cfg key sib c).1 with
    | .ok => .ret (p :: rest, c, true, (mergeStep cfg key sib c).2)
    | .abort => .ret (p :: rest, c, false, (mergeStep cfg key sib c).2)
    | .sibling q => getHeadForMerge cfg key f (mergeStep cfg key sib c).2 (q :: rest)
    | .ub => .ub

/-! ## Structure modifications -/

/-- The root built by `Node(split_d, left_pid)`, `fixlen/node.hpp` 84-99.  Record 0 has no key; the
separator is stored as a placeholder. -/
def newRoot (cfg : Cfg K) (sep : K) (left right : PID) : Node K V :=
  { inner := true, low := none, high := none, next := 0,
    recs := [(sep, .child left), (sep, .child right)], size := cfg.hdr + 2 * cfg.idxLen + cfg.klen sep }

/-- `TryRootSplit`, `bw_tree.hpp` 1406-1423. -/
def tryRootSplit (cfg : Cfg K) (sep : K) (rpid lpid : PID) : Prog K V Bool :=
  .loadRoot fun r =>
    if r ≠ lpid then .ret false
    else .newPid fun np =>
      .store np (.base (newRoot cfg sep lpid rpid)) (.storeRoot np (.ret true))

/-- The index-entry delta of a split, `fixlen/delta_record.hpp` 110-124; `cnt` and `size` are set by
`SetNext`. -/
def entryDelta (sep : K) (high : Option K) (rpid : PID) : Delta K V :=
  { inner := true, ty := .insert, key := sep, high := high, pay := .child rpid, cnt := 0, size := 0 }

/-- Loop of `Split`, `bw_tree.hpp` 1366-1395.  `smo` is `TrySMOs`. -/
def splitLoop (cfg : Cfg K) (smo : Chain K V → Stk → Prog K V Unit) (sep : K) (high : Option K)
    (rInner : Bool) (rpid lpid : PID) : Nat → Stk → Prog K V Unit
  | 0, _ => .stuck
  | f + 1, [] => (tryRootSplit cfg sep rpid lpid).bind fun b =>
    if b then .ret ()
    else (searchTarget sep rInner rpid f []).bind fun s =>
      match s with
      | [] => .ub
      | _ :: s' => splitLoop cfg smo sep high rInner rpid lpid f s'
  | f + 1, x :: xs => (getHead cfg sep true rpid f (x :: xs)).bind fun o =>
    match o with
    | none => splitLoop cfg smo sep high rInner rpid lpid f []
    | some (_, []) => .ub
    | some (c, p :: rest) =>
      let nc := Chain.push (entryDelta sep high rpid) c (cfg.entLen true sep)
      .cas p c nc fun b =>
        if b then (if nc.needConsolidation cfg then smo nc (p :: rest) else .ret ())
        else splitLoop cfg smo sep high rInner rpid lpid f (p :: rest)

/-- `Split`, `bw_tree.hpp` 1346-1396. -/
def split (cfg : Cfg K) (smo : Chain K V → Stk → Prog K V Unit) (f : Nat) (l r : Node K V)
    (sep : K) (stk : Stk) : Prog K V Unit :=
  match stk with
  | [] => .ub
  | lpid :: rest => .newPid fun rpid =>
    .store rpid (.base r) <|
    .store lpid (.base { l with next := rpid }) <|
    splitLoop cfg smo sep r.high r.inner rpid lpid f rest

/-- The index-delete delta of a merge, `fixlen/delta_record.hpp` 130-141. -/
def deleteDelta (key : K) (high : Option K) (w : Nat) : Delta K V :=
  { inner := true, ty := .delete, key := key, high := high, pay := .cell w, cnt := 0, size := 0 }

/-- Loop of `TryDeleteIndexEntry`, `bw_tree.hpp` 1529-1547.  `sib`: the characters of `sib_key`, which
is read from the removed node once (1529); `high` is the copy in the delta record. -/
def deleteLoop (cfg : Cfg K) (smo : Chain K V → Stk → Prog K V Unit) (dk : K) (high : Option K)
    (w : Nat) : Nat → Option K → Stk → Prog K V (Option Nat)
  | 0, _, _ => .stuck
  | f + 1, sib, stk => (getHeadForMerge cfg dk f sib stk).bind fun x =>
    if x.2.2.1 then
      match x.1 with
      | [] => .ub
      | p :: rest =>
        let nc := Chain.push (deleteDelta dk high w) x.2.1 (-(cfg.entLen true dk : Int))
        .cas p x.2.1 nc fun b =>
          if b then
            if nc.needConsolidation cfg then (smo nc (p :: rest)).bind fun _ => .ret (some w)
            else .ret (some w)
          else deleteLoop cfg smo dk high w f x.2.2.2 (p :: rest)
    else .ret none

/-- `TryDeleteIndexEntry`, `bw_tree.hpp` 1514-1549: the word of the delete delta, or `nullptr`. -/
def tryDeleteIndexEntry (cfg : Cfg K) (smo : Chain K V → Stk → Prog K V Unit) (f : Nat)
    (n : Node K V) (stk : Stk) : Prog K V (Option Nat) :=
  if stk = [] then .ret none
  else match n.low with
    | none => .ret none
    | some dk => .newCell fun w => deleteLoop cfg smo dk n.high w f n.high stk

/-- `TryRemoveRoot`, `bw_tree.hpp` 1560-1579. -/
def tryRemoveRoot (n : Node K V) (pid : PID) (stk : Stk) : Prog K V Bool :=
  if stk ≠ [] ∨ 1 < n.recs.length ∨ n.inner = false then .ret false
  else match (Chain.base n).leftmostChild with
    | none => .ub
    | some q => .load q fun c =>
      if c.isLeaf then .ret false else .casRoot pid q fun b => .ret b

/-- The merge delta, `fixlen/delta_record.hpp` 110-124. -/
def mergeDelta (n : Node K V) (dk : K) : Delta K V :=
  { inner := n.inner, ty := .merge, key := dk, high := n.high, pay := .node n, cnt := 0, size := 0 }

/-- Loops of `TryMerge`, `bw_tree.hpp` 1474-1501; `srch` tells whether the outer loop (search the
left sibling) or the inner loop (insert the merge delta) comes next. -/
def mergeLoop (cfg : Cfg K) (smo : Chain K V → Stk → Prog K V Unit) (n : Node K V) (dk : K) (w : Nat)
    (rem : PID) : Nat → Bool → Stk → Prog K V Unit
  | 0, _, _ => .stuck
  | f + 1, true, [] => (searchTarget dk n.inner rem f []).bind fun s =>
      mergeLoop cfg smo n dk w rem f false s
  | f + 1, true, x :: xs => (searchChild dk false rem f (x :: xs)).bind fun y =>
      if y.2 = [] then mergeLoop cfg smo n dk w rem f true []
      else mergeLoop cfg smo n dk w rem f false y.2
  | f + 1, false, stk => (getHead cfg dk false rem f stk).bind fun o =>
    match o with
    | none => mergeLoop cfg smo n dk w rem f true []
    | some (_, []) => .ub
    | some (c, p :: rest) =>
      let nc := Chain.push (mergeDelta n dk) c (cfg.nodeDiff n)
      .cas p c nc fun b =>
        if b then
          .storeCell w p (if nc.needConsolidation cfg then smo nc (p :: rest) else .ret ())
        else mergeLoop cfg smo n dk w rem f false (p :: rest)

/-- `TryMerge`, `bw_tree.hpp` 1434-1502. -/
def tryMerge (cfg : Cfg K) (smo : Chain K V → Stk → Prog K V Unit) (f : Nat) (head : Chain K V)
    (n : Node K V) (stk : Stk) : Prog K V Unit :=
  match stk with
  | [] => .ub
  | p :: rest => .cas p head (.removed (!n.inner)) fun b =>
    if b then
      (tryDeleteIndexEntry cfg smo f n rest).bind fun o =>
        match o, n.low with
        | none, _ => (tryRemoveRoot n p rest).bind fun b =>
            if b then .ret () else .store p (.base n) (.ret ())
        | some w, some dk => mergeLoop cfg smo n dk w p f true rest
        | some _, none => .ub
    else .ret ()

/-- `TrySMOs`, `bw_tree.hpp` 1178-1216.  The recheck (1188-1189) is a comparison with the slot,
expressed as an exchange of equal values. -/
def trySMOs (cfg : Cfg K) : Nat → Chain K V → Stk → Prog K V Unit
  | 0, _, _ => .stuck
  | _ + 1, _, [] => .ub
  | f + 1, head, p :: rest => .cas p head head fun b =>
    if b then
      match tryConsolidate cfg false head with
      | none => .ub
      | some (.consolidate n) => .cas p head (.base n) fun _ => .ret ()
      | some (.split l r) =>
        match r.low with
        | none => .ub
        | some sep => split cfg (trySMOs cfg f) f l r sep (p :: rest)
      | some (.merge n) => tryMerge cfg (trySMOs cfg f) f head n (p :: rest)
    else .ret ()

/-! ## Public operations -/

/-- Loop of `Read`, `bw_tree.hpp` 155-196. -/
def readLoop (key : K) : Nat → Stk → Prog K V (Option V)
  | 0, _ => .stuck
  | _ + 1, [] => .ub
  | f + 1, p :: rest => .load p fun c =>
    if c.liveInner then .flag .innerAsLeaf
    else match readChain key c with
    | .ret o => .ret o
    | .sibling q => readLoop key f (q :: rest)
    | .removed =>
      if rest = [] then .flag .emptyStack
      else (searchChild key true 0 f rest).bind fun x => readLoop key f x.2
    | .ub => .ub

/-- A leaf delta with a payload, `fixlen/delta_record.hpp` 75-85. -/
def putDelta (ty : DType) (key : K) (v : V) : Delta K V :=
  { inner := false, ty := ty, key := key, high := none, pay := .val v, cnt := 0, size := 0 }

/-- A leaf delete delta, `fixlen/delta_record.hpp` 92-97. -/
def delDelta (key : K) : Delta K V :=
  { inner := false, ty := .delete, key := key, high := none, pay := .none, cnt := 0, size := 0 }

/-- What a writing operation does with a head and the existence of its key: give up with a result,
or append a delta (`bw_tree.hpp` 275-283, 329-339, 383-392, 433-442). -/
def writeDelta (cfg : Cfg K) (op : Spec.Op K V) (found : Bool) :
    Spec.Res V ⊕ (Delta K V × Int) :=
  match op with
  | .read _ => .inl .success
  | .write k v =>
    if found then .inr (putDelta .modify k v, 0) else .inr (putDelta .insert k v, cfg.entLen false k)
  | .insert k v => if found then .inl .keyExist else .inr (putDelta .insert k v, cfg.entLen false k)
  | .update k v => if found then .inr (putDelta .modify k v, 0) else .inl .keyNotExist
  | .delete k => if found then .inr (delDelta k, -(cfg.entLen false k : Int)) else .inl .keyNotExist

/-- Loop of `Write` (269-289), `Insert` (325-346), `Update` (379-399), `Delete` (429-448). -/
def writeLoop (cfg : Cfg K) (op : Spec.Op K V) (key : K) : Nat → Stk → Prog K V (Spec.Res V)
  | 0, _ => .stuck
  | f + 1, stk => (getHeadKC cfg key f stk).bind fun x =>
    match writeDelta cfg op x.2.2 with
    | .inl r => .ret r
    | .inr (d, diff) =>
      match x.1 with
      | [] => .ub
      | p :: rest =>
        let nc := Chain.push d x.2.1 diff
        .cas p x.2.1 nc fun b =>
          if b then
            if nc.needConsolidation cfg then
              (trySMOs cfg f nc (p :: rest)).bind fun _ => .ret .success
            else .ret .success
          else writeLoop cfg op key f (p :: rest)

/-- The key of an operation. -/
def opKey : Spec.Op K V → K
  | .read k | .write k _ | .insert k _ | .update k _ | .delete k => k

/-- `Read` (145-197), `Write` (260-297), `Insert` (313-350), `Update` (367-403), `Delete`
(417-452). -/
def runOp (cfg : Cfg K) (f : Nat) (op : Spec.Op K V) : Prog K V (Spec.Res V) :=
  (searchLeaf (opKey op) true f).bind fun stk =>
    match op with
    | .read k => (readLoop k f stk).bind fun o => .ret (.payload o)
    | _ => writeLoop cfg op (opKey op) f stk

/-! ## Scans -/

/-- `ConsolidateForScan` (`bw_tree.hpp` 1092-1113) and `SearchEndPositionFor`: one node visit that
begins at a key.  It returns the records and the key and page of the next visit. -/
def scanFrom (cfg : Cfg K) (key : K) (closed : Bool) (e : Spec.Bound K) :
    Nat → Stk → Prog K V (List (K × V) × Option (K × PID))
  | 0, _ => .stuck
  | f + 1, stk => (getHead cfg key closed 0 f stk).bind fun o =>
    match o with
    | none => .ub
    | some (c, stk') =>
      if c.isRemoved then scanFrom cfg key closed e f stk'
      else if c.liveInner then .flag .innerAsLeaf
      else match scanOut cfg (some (key, closed)) e c with
        | none => .ub
        | some x => .ret x

/-- `SearchLeftmostLeaf`, `bw_tree.hpp` 849-866 (only the top of the stack is used). -/
def leftmostLoop : Nat → PID → Prog K V PID
  | 0, _ => .stuck
  | f + 1, p => .load p fun c =>
    if c.isLeaf then .ret p
    else if c.isRemoved then .flag .nullNext
    else match c.leftmostChild with
      | none => .ub
      | some q => leftmostLoop f q

/-- The loop of `Scan` without a begin key, `bw_tree.hpp` 228-234. -/
def scanLeft (cfg : Cfg K) (e : Spec.Bound K) :
    Nat → PID → Prog K V (List (K × V) × Option (K × PID))
  | 0, _ => .stuck
  | f + 1, p => .load p fun c =>
    if c.isRemoved then scanLeft cfg e f p
    else match scanOut cfg none e c with
      | none => .ub
      | some x => .ret x

/-- `Scan`, `bw_tree.hpp` 206-242: the visit of the first node. -/
def scanFirst (cfg : Cfg K) (f : Nat) (b e : Spec.Bound K) :
    Prog K V (List (K × V) × Option (K × PID)) :=
  match b with
  | some (k, closed) => (searchLeaf k closed f).bind fun stk => scanFrom cfg k closed e f stk
  | none => (.loadRoot fun r => leftmostLoop f r : Prog K V PID).bind fun p => scanLeft cfg e f p

/-- `SiblingScan`, `bw_tree.hpp` 1124-1141: the visit of the next node. -/
def scanNext (cfg : Cfg K) (f : Nat) (p : PID) (key : K) (e : Spec.Bound K) :
    Prog K V (List (K × V) × Option (K × PID)) :=
  scanFrom cfg key true e f [p]

end BwTree
