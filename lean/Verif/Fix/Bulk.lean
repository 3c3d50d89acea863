import Verif.Fix.FixLay
import Verif.Bulk.Model
import Verif.Bytes.System

/-!
# Bulkload on bytes (model, fixed-length layout)

`bw_tree.hpp` 471-548 and 1597-1650, `fixlen/node.hpp` 558-652 and 732-743, on the bytes of pages.
`mem p` are the bytes of the page that gets the ID `p` before it is filled.  Workers, IDs and fuel are
as in `Verif/Bulk/Model.lean`.  `none` stands for a loop that does not end, an access to a page or a
record that does not exist, a payload that is read as a page ID in a leaf, or a page ID that does not
fit in its `P.pid` bytes.
-/

namespace BwTree.Fix

open Layout (Mem FPage)
open Bytes (Lay Head BSh BSys pidBytes pidOf)

/-- `kNodeCapacityForBulkLoading`, `common.hpp` 99. -/
def FPar.bulkCap (P : FPar) : Nat := P.c.page * 9 / 10

/-- `kInnerNodeCap`, `bw_tree.hpp` 614-618. -/
def FPar.innerCap (P : FPar) : Nat := (P.c.page - P.c.hdr - P.c.klen) / (P.c.klen + P.pid)

/-- The loop of `Node::Bulkload`, `fixlen/node.hpp` 571-584: the page, and the entries left. -/
def bTake (P : FPar) (plen : Nat) : FPage → Nat → List (Str × Str) → Option (FPage × List (Str × Str))
  | pg, _, [] => some (pg, [])
  | pg, off, x :: xs =>
    if P.bulkCap < pg.size + (P.c.klen + plen) then some (pg, x :: xs)
    else (pg.bput P.c off x.1 x.2).bind fun y => bTake P plen y.1 y.2 xs

/-- The node after the loop, `fixlen/node.hpp` 586-588, with the initialisers of 762-777. -/
def FNode.loaded (P : FPar) (inner : Bool) (pg : FPage) : FNode :=
  { pg := pg, inner := inner, hasLow := true, low := pg.key P.c 0, hasHigh := false
    high := List.replicate P.c.klen 0, next := 0 }

/-- `LinkNext`, `fixlen/node.hpp` 732-743. -/
def FNode.linkNext (nd : FNode) (p : PID) (r : FNode) : FNode :=
  { nd with next := p, hasHigh := true, high := r.low }

/-- The link of a node to the first of the nodes that follow, `fixlen/node.hpp` 590-592. -/
def FNode.linkTo (nd : FNode) : List (PID × FNode) → FNode
  | [] => nd
  | y :: _ => nd.linkNext y.1 y.2

/-- `ConstructSingleLayer`, `bw_tree.hpp` 1626-1650, with `Node::Bulkload`, `fixlen/node.hpp` 558-595. -/
def bLayer (P : FPar) (mem : PID → Mem) (inner : Bool) (ids : Nat → PID) :
    Nat → Nat → List (Str × Str) → Option (List (PID × FNode) × Nat)
  | _, i, [] => some ([], i)
  | 0, _, _ :: _ => none
  | f + 1, i, e :: es =>
    if ids i < 256 ^ P.pid then
      (bTake P (P.plen inner) (FPage.init P.c (mem (ids i))) P.c.page (e :: es)).bind fun x =>
        if x.1.cnt = 0 then none
        else (bLayer P mem inner ids f (i + 1) x.2).map fun r =>
          ((ids i, (FNode.loaded P inner x.1).linkTo r.1) :: r.1, r.2)
    else none

/-- The slots of the mapping table. -/
abbrev BTbl := PID → Option FNode

/-- `lptr->Store(node)`, `bw_tree.hpp` 1643-1645, for all nodes of a layer. -/
def BTbl.putAll (T : BTbl) : List (PID × FNode) → BTbl
  | [] => T
  | x :: xs => BTbl.putAll (upd T x.1 (some x.2)) xs

/-- A partial tree: height, the `NodeEntry`s of the top layer (`fixlen/node.hpp` 594), number of IDs
used. -/
structure BPart where
  height : Nat
  nodes : List (Str × PID)
  used : Nat

/-- A `NodeEntry` as an entry of the layer above. -/
def entBytes (P : FPar) (x : Str × PID) : Str × Str := (x.1, pidBytes P.pid x.2)

/-- The `NodeEntry`s of a layer. -/
def nodeEnts (ns : List (PID × FNode)) : List (Str × PID) := ns.map fun y => (y.2.low, y.1)

/-- One more index layer on top of a partial tree. -/
def BPart.layer (P : FPar) (mem : PID → Mem) (ids : Nat → PID) (x : BPart × BTbl) :
    Option (BPart × BTbl) :=
  (bLayer P mem true ids x.1.nodes.length x.1.used (x.1.nodes.map (entBytes P))).map fun r =>
    (⟨x.1.height + 1, nodeEnts r.1, r.2⟩, x.2.putAll r.1)

/-- The loop of `BulkloadWithSingleThread`, `bw_tree.hpp` 1608-1612. -/
def BPart.grow (P : FPar) (mem : PID → Mem) (ids : Nat → PID) : Nat → BPart × BTbl →
    Option (BPart × BTbl)
  | f, x =>
    if x.1.nodes.length ≤ P.innerCap then some x
    else match f with
      | 0 => none
      | f + 1 => (BPart.layer P mem ids x).bind (BPart.grow P mem ids f)

/-- `BulkloadWithSingleThread`, `bw_tree.hpp` 1597-1615. -/
def bBulkPart (P : FPar) (mem : PID → Mem) (ids : Nat → PID) (T : BTbl) (es : List (Str × Str)) :
    Option (BPart × BTbl) :=
  (bLayer P mem false ids es.length 0 es).bind fun r =>
    BPart.grow P mem ids es.length (⟨1, nodeEnts r.1, r.2⟩, T.putAll r.1)

/-- All workers, one after the other. -/
def bBulkParts (P : FPar) (mem : PID → Mem) (ids : Nat → Nat → PID) :
    Nat → BTbl → List (List (Str × Str)) → Option (List BPart × BTbl)
  | _, T, [] => some ([], T)
  | t, T, s :: ss =>
    (bBulkPart P mem (ids t) T s).bind fun x =>
      (bBulkParts P mem ids (t + 1) x.2 ss).map fun y => (x.1 :: y.1, y.2)

/-- Levelling, `bw_tree.hpp` 522-526: `n` more layers. -/
def BPart.raise (P : FPar) (mem : PID → Mem) (ids : Nat → PID) : Nat → BPart × BTbl →
    Option (BPart × BTbl)
  | 0, x => some x
  | n + 1, x => (BPart.layer P mem ids x).bind (BPart.raise P mem ids n)

/-- `GetPayload<PageID>`, `fixlen/node.hpp` 269-277. -/
def FNode.childAt (P : FPar) (nd : FNode) (pos : Nat) : PID := pidOf (nd.pg.pay P.c P.pid pos)

/-- `LinkVerticalBorderNodes`, `fixlen/node.hpp` 605-627; the number is the fuel. -/
def bLinkBorder (P : FPar) : Nat → BTbl → PID → PID → Option BTbl
  | 0, _, _, _ => none
  | f + 1, T, l, r =>
    (T l).bind fun ln => (T r).bind fun rn =>
      let T' := upd T l (some (ln.linkNext r rn))
      if ln.inner = false then some T'
      else if rn.inner = false then none
      else bLinkBorder P f T' (ln.childAt P (ln.pg.cnt - 1)) (rn.childAt P 0)

/-- The page of the first or last entry of a layer. -/
def bEntryPid : Option (Str × PID) → PID
  | some x => x.2
  | none => 0

/-- Levelling and linking of the partial trees, `bw_tree.hpp` 518-533. -/
def bBulkJoin (P : FPar) (mem : PID → Mem) (ids : Nat → Nat → PID) (height : Nat) :
    Nat → PID → BTbl → List BPart → Option (List (Str × PID) × BTbl)
  | _, _, T, [] => some ([], T)
  | t, prev, T, p :: ps =>
    (BPart.raise P mem (ids t) (height - p.height) (p, T)).bind fun x =>
      (if prev = 0 then some x.2 else bLinkBorder P height x.2 prev (bEntryPid x.1.nodes.head?)).bind
        fun T' => (bBulkJoin P mem ids height (t + 1) (bEntryPid x.1.nodes.getLast?) T' ps).map
          fun y => (x.1.nodes ++ y.1, y.2)

/-- The upper layers, `bw_tree.hpp` 536-538. -/
def bBulkTop (P : FPar) (mem : PID → Mem) (ids : Nat → PID) : Nat → BPart × BTbl →
    Option (BPart × BTbl)
  | f, x =>
    if x.1.nodes.length ≤ 1 then some x
    else match f with
      | 0 => none
      | f + 1 => (BPart.layer P mem ids x).bind (bBulkTop P mem ids f)

/-- `RemoveLeftmostKeys`, `fixlen/node.hpp` 636-652; the first number is the fuel. -/
def bRemoveLeftmost (P : FPar) : Nat → BTbl → PID → Option BTbl
  | 0, _, _ => none
  | f + 1, T, p =>
    (T p).bind fun nd =>
      let T' := upd T p (some { nd with hasLow := false })
      if nd.inner = false then some T' else bRemoveLeftmost P f T' (nd.childAt P 0)

/-- `Bulkload`, `bw_tree.hpp` 471-548, without the exchange of the root: the new pages and the new
root. -/
def bBulkload (P : FPar) (mem : PID → Mem) (ids : Nat → Nat → PID) (threads : Nat)
    (es : List (Str × Str)) : Option (BTbl × PID) :=
  let ss := bulkShares threads es
  (bBulkParts P mem ids 0 (fun _ => none) ss).bind fun x =>
    let height := x.1.foldr (fun p h => max p.height h) 1
    (bBulkJoin P mem ids height 0 0 x.2 x.1).bind fun y =>
      (bBulkTop P mem (ids ss.length) y.1.length (⟨height, y.1, 0⟩, y.2)).bind fun z =>
        let root := bEntryPid z.1.nodes.head?
        (bRemoveLeftmost P z.1.height z.2 root).map fun T => (T, root)

/-- A tree after `Bulkload` into a new tree; the old root (page 1) is cleared (`bw_tree.hpp` 541-545). -/
def bulkStart (P : FPar) (T : BTbl) (root npid : PID) : BSys (fixLay P) :=
  { sh := { mt := fun p => (T p).map fun nd => ⟨p, .base nd⟩, root := root, cells := fun _ => 0
            npid := npid, ncell := 0, nid := npid }
    th := fun _ => .idle, it := fun _ => none }

end BwTree.Fix
