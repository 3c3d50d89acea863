import Verif.Bytes.VarLay
import Verif.Bytes.System
import Verif.Bulk.Model

/-!
# Bulkload on bytes (model, variable-length layout)

`bw_tree.hpp` 471-548 and 1597-1650, `varlen/node.hpp` 597-708 and 858-873.  `mem p` are the bytes of
the page that gets the ID `p` before it is filled.  Workers, IDs, fuel and `none` are as in
`Verif/Fix/Bulk.lean`.  `mk` is `kMaxKeyLen`, `kl` is `kBulkKeyLen` (`bw_tree.hpp` 603, `sizeof(Key)`).
-/

namespace BwTree.Bytes

open Layout (Mem VPage metaLen)

/-- `kNodeCapacityForBulkLoading`, `common.hpp` 99. -/
def VPar.bulkCap (P : VPar) : Nat := P.c.page * 9 / 10

/-- `kInnerNodeCap`, `bw_tree.hpp` 614-618. -/
def VPar.innerCap (P : VPar) (kl : Nat) : Nat := (P.c.page - P.c.hdr - kl) / (kl + P.pid + metaLen)

/-- `LinkNext`, `varlen/node.hpp` 858-873. -/
def vLink (P : VPar) (pg : VPage) (p : PID) (r : VPage) : VPage :=
  { pg.linkNext P.c (r.border r.low) with next := p }

/-- The link of a node to the first of the nodes that follow, `varlen/node.hpp` 638-640. -/
def vLinkTo (P : VPar) (pg : VPage) : List (PID × VPage) → VPage
  | [] => pg
  | y :: _ => vLink P pg y.1 y.2

/-- `ConstructSingleLayer`, `bw_tree.hpp` 1626-1650, with `Node::Bulkload`, `varlen/node.hpp` 597-643. -/
def vLayer (P : VPar) (mk : Nat) (mem : PID → Mem) (inner : Bool) (ids : Nat → PID) :
    Nat → Nat → List (Str × Str) → Option (List (PID × VPage) × Nat)
  | _, i, [] => some ([], i)
  | 0, _, _ :: _ => none
  | f + 1, i, e :: es =>
    if ids i < 256 ^ P.pid then
      (VPage.bulkload P.c mk P.bulkCap (mem (ids i)) inner (e :: es)).bind fun x =>
        if x.1.cnt = 0 then none
        else (vLayer P mk mem inner ids f (i + 1) x.2).map fun r =>
          ((ids i, vLinkTo P x.1 r.1) :: r.1, r.2)
    else none

/-- The slots of the mapping table. -/
abbrev VTbl := PID → Option VPage

/-- `lptr->Store(node)`, `bw_tree.hpp` 1643-1645, for all nodes of a layer. -/
def VTbl.putAll (T : VTbl) : List (PID × VPage) → VTbl
  | [] => T
  | x :: xs => VTbl.putAll (upd T x.1 (some x.2)) xs

/-- A partial tree: height, the `NodeEntry`s of the top layer (`varlen/node.hpp` 642), number of IDs
used. -/
structure VPart where
  height : Nat
  nodes : List (Str × PID)
  used : Nat

/-- A `NodeEntry` as an entry of the layer above. -/
def vEntBytes (P : VPar) (x : Str × PID) : Str × Str := (x.1, pidBytes P.pid x.2)

/-- The `NodeEntry`s of a layer: the key is that of the first entry. -/
def vEnts (P : VPar) (ns : List (PID × VPage)) : List (Str × PID) :=
  ns.map fun y => (y.2.key P.c 0, y.1)

/-- One more index layer on top of a partial tree. -/
def VPart.layer (P : VPar) (mk : Nat) (mem : PID → Mem) (ids : Nat → PID) (x : VPart × VTbl) :
    Option (VPart × VTbl) :=
  (vLayer P mk mem true ids x.1.nodes.length x.1.used (x.1.nodes.map (vEntBytes P))).map fun r =>
    (⟨x.1.height + 1, vEnts P r.1, r.2⟩, x.2.putAll r.1)

/-- The loop of `BulkloadWithSingleThread`, `bw_tree.hpp` 1608-1612. -/
def VPart.grow (P : VPar) (mk kl : Nat) (mem : PID → Mem) (ids : Nat → PID) : Nat → VPart × VTbl →
    Option (VPart × VTbl)
  | f, x =>
    if x.1.nodes.length ≤ P.innerCap kl then some x
    else match f with
      | 0 => none
      | f + 1 => (VPart.layer P mk mem ids x).bind (VPart.grow P mk kl mem ids f)

/-- `BulkloadWithSingleThread`, `bw_tree.hpp` 1597-1615. -/
def vBulkPart (P : VPar) (mk kl : Nat) (mem : PID → Mem) (ids : Nat → PID) (T : VTbl)
    (es : List (Str × Str)) : Option (VPart × VTbl) :=
  (vLayer P mk mem false ids es.length 0 es).bind fun r =>
    VPart.grow P mk kl mem ids es.length (⟨1, vEnts P r.1, r.2⟩, T.putAll r.1)

/-- All workers, one after the other. -/
def vBulkParts (P : VPar) (mk kl : Nat) (mem : PID → Mem) (ids : Nat → Nat → PID) :
    Nat → VTbl → List (List (Str × Str)) → Option (List VPart × VTbl)
  | _, T, [] => some ([], T)
  | t, T, s :: ss =>
    (vBulkPart P mk kl mem (ids t) T s).bind fun x =>
      (vBulkParts P mk kl mem ids (t + 1) x.2 ss).map fun y => (x.1 :: y.1, y.2)

/-- Levelling, `bw_tree.hpp` 522-526: `n` more layers. -/
def VPart.raise (P : VPar) (mk : Nat) (mem : PID → Mem) (ids : Nat → PID) : Nat → VPart × VTbl →
    Option (VPart × VTbl)
  | 0, x => some x
  | n + 1, x => (VPart.layer P mk mem ids x).bind (VPart.raise P mk mem ids n)

/-- `GetPayload<PageID>`, `varlen/node.hpp` 273-281. -/
def vChildAt (P : VPar) (pg : VPage) (pos : Nat) : PID := pidOf (pg.pay P.c P.pid pos)

/-- `LinkVerticalBorderNodes`, `varlen/node.hpp` 653-675; the number is the fuel. -/
def vLinkBorder (P : VPar) : Nat → VTbl → PID → PID → Option VTbl
  | 0, _, _, _ => none
  | f + 1, T, l, r =>
    (T l).bind fun ln => (T r).bind fun rn =>
      let T' := upd T l (some (vLink P ln r rn))
      if ln.inner = false then some T'
      else if rn.inner = false then none
      else vLinkBorder P f T' (vChildAt P ln (ln.cnt - 1)) (vChildAt P rn 0)

/-- The page of the first or last entry of a layer. -/
def vEntryPid : Option (Str × PID) → PID
  | some x => x.2
  | none => 0

/-- Levelling and linking of the partial trees, `bw_tree.hpp` 518-533. -/
def vBulkJoin (P : VPar) (mk : Nat) (mem : PID → Mem) (ids : Nat → Nat → PID) (height : Nat) :
    Nat → PID → VTbl → List VPart → Option (List (Str × PID) × VTbl)
  | _, _, T, [] => some ([], T)
  | t, prev, T, p :: ps =>
    (VPart.raise P mk mem (ids t) (height - p.height) (p, T)).bind fun x =>
      (if prev = 0 then some x.2 else vLinkBorder P height x.2 prev (vEntryPid x.1.nodes.head?)).bind
        fun T' => (vBulkJoin P mk mem ids height (t + 1) (vEntryPid x.1.nodes.getLast?) T' ps).map
          fun y => (x.1.nodes ++ y.1, y.2)

/-- The upper layers, `bw_tree.hpp` 536-538. -/
def vBulkTop (P : VPar) (mk : Nat) (mem : PID → Mem) (ids : Nat → PID) : Nat → VPart × VTbl →
    Option (VPart × VTbl)
  | f, x =>
    if x.1.nodes.length ≤ 1 then some x
    else match f with
      | 0 => none
      | f + 1 => (VPart.layer P mk mem ids x).bind (vBulkTop P mk mem ids f)

/-- The first record of a node loses its key, `varlen/node.hpp` 693-697 (16-bit fields). -/
def vDropKey (P : VPar) (pg : VPage) : VPage :=
  let m := pg.rmeta P.c 0
  let m' := Util.Metadata.mk' (m.offset.toNat + m.keyLen.toNat) 0 (m.recLen.toNat - m.keyLen.toNat)
  { pg with mem := pg.mem.write P.c.hdr (Layout.encMeta m') }

/-- `RemoveLeftmostKeys`, `varlen/node.hpp` 683-702; the first number is the fuel. -/
def vRemoveLeftmost (P : VPar) : Nat → VTbl → PID → Option VTbl
  | 0, _, _ => none
  | f + 1, T, p =>
    (T p).bind fun pg =>
      let pg' : VPage := { pg with low := Util.Metadata.mk' P.c.page 0 0 }
      if pg.inner = false then some (upd T p (some pg'))
      else vRemoveLeftmost P f (upd T p (some (vDropKey P pg'))) (vChildAt P (vDropKey P pg') 0)

/-- `Bulkload`, `bw_tree.hpp` 471-548, without the exchange of the root: the new pages and the new
root. -/
def vBulkload (P : VPar) (mk kl : Nat) (mem : PID → Mem) (ids : Nat → Nat → PID) (threads : Nat)
    (es : List (Str × Str)) : Option (VTbl × PID) :=
  let ss := bulkShares threads es
  (vBulkParts P mk kl mem ids 0 (fun _ => none) ss).bind fun x =>
    let height := x.1.foldr (fun p h => max p.height h) 1
    (vBulkJoin P mk mem ids height 0 0 x.2 x.1).bind fun y =>
      (vBulkTop P mk mem (ids ss.length) y.1.length (⟨height, y.1, 0⟩, y.2)).bind fun z =>
        let root := vEntryPid z.1.nodes.head?
        (vRemoveLeftmost P z.1.height z.2 root).map fun T => (T, root)

/-- A tree after `Bulkload` into a new tree; the old root (page 1) is cleared (`bw_tree.hpp` 541-545). -/
def vBulkStart (P : VPar) (T : VTbl) (root npid : PID) : BSys (varLay P) :=
  { sh := { mt := fun p => (T p).map fun pg => ⟨p, .base pg⟩, root := root, cells := fun _ => 0
            npid := npid, ncell := 0, nid := npid }
    th := fun _ => .idle, it := fun _ => none }

end BwTree.Bytes
