import Verif.Conc.Prog

/-!
# Bulkload (model)

`bw_tree.hpp` 471-548 and 1597-1650, `fixlen/node.hpp` 558-652 and 732-743, `varlen/node.hpp` 597-702 and
858-873.

Simplifications, all recorded here:
* The worker threads share nothing but the page-ID counter and write only pages of their own, so a
  worker is a function of its share of the entries and of the IDs it is given.  `ids t i` is the
  `i`-th ID worker `t` reserves (`ids T` for the main thread, where `T` is the number of
  workers); that no ID is handed out twice is C25.
* The layers the main thread adds to level the heights of the partial trees take their IDs from the
  sequence of the partial tree.
* With variable-length keys `RemoveLeftmostKeys` also drops the key of the first record of an inner node
  (`varlen/node.hpp` 693-697); here the key stays and is not looked at (`Node.body`).
* `none` stands for a loop that does not end or an access to a record that does not exist.
-/

namespace BwTree

variable {K V : Type} [LinearOrder K]

/-- `kNodeCapacityForBulkLoading`, `common.hpp` 99. -/
def Cfg.bulkCap (cfg : Cfg K) : Nat := cfg.page * 9 / 10

/-- `kInnerNodeCap`, `bw_tree.hpp` 602-618.  `kBulkKeyLen` is `sizeof(Key)`: the record length without
the page ID, or the length of a pointer if keys have variable length. -/
def Cfg.innerCap (cfg : Cfg K) : Nat :=
  if cfg.maxKey = 0 then (cfg.page - cfg.hdr - (cfg.idxLen - 8)) / cfg.idxLen
  else (cfg.page - cfg.hdr - 8) / (8 + cfg.idxLen)

/-- Bytes `Node::Bulkload` reserves for the bounds, `varlen/node.hpp` 609-615 (`is_leaf` is 1 for inner
nodes); none in `fixlen/node.hpp` 572. -/
def Cfg.bulkRes (cfg : Cfg K) (inner : Bool) : Nat := cfg.maxKey + (if inner then cfg.maxKey else 0)

/-- The requirement on the page size: in the reduced capacity an inner node takes two entries and a
leaf takes one. -/
structure BulkOK (cfg : Cfg K) : Prop where
  inner : cfg.hdr + cfg.bulkRes true + 2 * (cfg.recLen true + cfg.maxKey) ≤ cfg.bulkCap
  leaf : cfg.hdr + cfg.bulkRes false + (cfg.recLen false + cfg.maxKey) ≤ cfg.bulkCap
  pos : 0 < cfg.idxLen
  keys : ∀ k, cfg.klen k ≤ cfg.maxKey
  var : cfg.maxKey = 0 ∨ 16 ≤ cfg.idxLen

/-- No ID is handed out twice (C25). -/
def IdsInj (ids : Nat → Nat → PID) : Prop := ∀ t i u j, ids t i = ids u j → t = u ∧ i = j

/-- The loop of `Node::Bulkload`, `fixlen/node.hpp` 573-584 and `varlen/node.hpp` 616-631, from the
size `sz` on: the entries taken and the entries left. -/
def bulkTake (cfg : Cfg K) (inner : Bool) : Nat → List (K × Pay V) →
    List (K × Pay V) × List (K × Pay V)
  | _, [] => ([], [])
  | sz, x :: xs =>
    if sz + cfg.entLen inner x.1 > cfg.bulkCap then ([], x :: xs)
    else
      let r := bulkTake cfg inner (sz + cfg.entLen inner x.1) xs
      (x :: r.1, r.2)

/-- Bytes of the records. -/
def Cfg.recsLen (cfg : Cfg K) (inner : Bool) (l : List (K × Pay V)) : Nat :=
  (l.map fun x => cfg.entLen inner x.1).sum

/-- `node_size_` of a bulkloaded node: the header and the records, the first key once more if the node
is an inner node (`varlen/node.hpp` 633-636), the highest key if the node has one (`LinkNext`,
`varlen/node.hpp` 872). -/
def Cfg.bulkSize (cfg : Cfg K) (inner : Bool) (low : Option K) (l : List (K × Pay V))
    (high : Option K) : Nat :=
  cfg.hdr + cfg.recsLen inner l + (if inner then cfg.olen low else 0) + cfg.olen high

/-- `ConstructSingleLayer`, `bw_tree.hpp` 1626-1650, with `Node::Bulkload`, `fixlen/node.hpp` 558-595 and
`varlen/node.hpp` 597-643.  A node is linked (`LinkNext`, `fixlen/node.hpp` 732-743, `varlen/node.hpp`
858-873) when its right neighbour is built.  The first number is the fuel, the second one counts the IDs
used. -/
def bulkLayer (cfg : Cfg K) (inner : Bool) (ids : Nat → PID) : Nat → Nat → List (K × Pay V) →
    Option (List (PID × Node K V) × Nat)
  | _, i, [] => some ([], i)
  | 0, _, _ :: _ => none
  | f + 1, i, e :: es =>
    match bulkTake cfg inner (cfg.hdr + cfg.bulkRes inner) (e :: es) with
    | ([], _) => none
    | (x :: xs, rest) =>
      match bulkLayer cfg inner ids f (i + 1) rest with
      | none => none
      | some (ns, j) =>
        let high := ns.head?.bind fun y => y.2.low
        some ((ids i, { inner := inner, low := some x.1, high := high,
                        next := (ns.head?.map fun y => y.1).getD 0,
                        recs := x :: xs
                        size := (cfg.bulkSize inner (some x.1) (x :: xs) high : Nat) }) :: ns, j)

/-- The `NodeEntry` of a node, `fixlen/node.hpp` 594. -/
def nodeEntry (x : PID × Node K V) : Option (K × Pay V) := x.2.low.map fun k => (k, .child x.1)

/-- The slots of the mapping table. -/
abbrev Tbl (K V : Type) := PID → Option (Node K V)

/-- `lptr->Store(node)`, `bw_tree.hpp` 1643-1645, for all nodes of a layer. -/
def Tbl.putAll (T : Tbl K V) : List (PID × Node K V) → Tbl K V
  | [] => T
  | x :: xs => Tbl.putAll (upd T x.1 (some x.2)) xs

/-- A partial tree: height, entries of the top layer, number of IDs used. -/
structure Part (K V : Type) where
  height : Nat
  nodes : List (K × Pay V)
  used : Nat

/-- One more index layer on top of a partial tree. -/
def Part.layer (cfg : Cfg K) (ids : Nat → PID) (x : Part K V × Tbl K V) :
    Option (Part K V × Tbl K V) :=
  match bulkLayer cfg true ids x.1.nodes.length x.1.used x.1.nodes with
  | none => none
  | some (ns, j) => some (⟨x.1.height + 1, ns.filterMap nodeEntry, j⟩, x.2.putAll ns)

/-- The loop of `BulkloadWithSingleThread`, `bw_tree.hpp` 1608-1612. -/
def Part.grow (cfg : Cfg K) (ids : Nat → PID) : Nat → Part K V × Tbl K V →
    Option (Part K V × Tbl K V)
  | f, x =>
    if x.1.nodes.length ≤ cfg.innerCap then some x
    else match f with
      | 0 => none
      | f + 1 => (Part.layer cfg ids x).bind (Part.grow cfg ids f)

/-- `BulkloadWithSingleThread`, `bw_tree.hpp` 1597-1615. -/
def bulkPart (cfg : Cfg K) (ids : Nat → PID) (T : Tbl K V) (es : List (K × Pay V)) :
    Option (Part K V × Tbl K V) :=
  match bulkLayer cfg false ids es.length 0 es with
  | none => none
  | some (ns, j) =>
    Part.grow cfg ids es.length (⟨1, ns.filterMap nodeEntry, j⟩, T.putAll ns)

/-- All workers, one after the other. -/
def bulkParts (cfg : Cfg K) (ids : Nat → Nat → PID) : Nat → Tbl K V → List (List (K × Pay V)) →
    Option (List (Part K V) × Tbl K V)
  | _, T, [] => some ([], T)
  | t, T, s :: ss =>
    match bulkPart cfg (ids t) T s with
    | none => none
    | some (p, T') => (bulkParts cfg ids (t + 1) T' ss).map fun x => (p :: x.1, x.2)

/-- Levelling, `bw_tree.hpp` 522-526: `n` more layers. -/
def Part.raise (cfg : Cfg K) (ids : Nat → PID) : Nat → Part K V × Tbl K V →
    Option (Part K V × Tbl K V)
  | 0, x => some x
  | n + 1, x => (Part.layer cfg ids x).bind (Part.raise cfg ids n)

/-- `LinkVerticalBorderNodes`, `fixlen/node.hpp` 605-627 (`LinkNext` 732-743), `varlen/node.hpp` 653-677
(`LinkNext` 858-873); the number is the fuel. -/
def linkBorder (cfg : Cfg K) : Nat → Tbl K V → PID → PID → Option (Tbl K V)
  | 0, _, _, _ => none
  | f + 1, T, l, r =>
    match T l, T r with
    | some ln, some rn =>
      let T' := upd T l (some { ln with next := r, high := rn.low, size := ln.size + cfg.olen rn.low })
      if ln.inner = false then some T'
      else match ln.recs.getLast?, rn.recs.head? with
        | some (_, .child l'), some (_, .child r') => linkBorder cfg f T' l' r'
        | _, _ => none
    | _, _ => none

/-- The page of the first or last entry of a layer. -/
def entryPid : Option (K × Pay V) → PID
  | some (_, .child p) => p
  | _ => 0

/-- Levelling and linking of the partial trees, `bw_tree.hpp` 518-533. -/
def bulkJoin (cfg : Cfg K) (ids : Nat → Nat → PID) (height : Nat) : Nat → PID → Tbl K V →
    List (Part K V) → Option (List (K × Pay V) × Tbl K V)
  | _, _, T, [] => some ([], T)
  | t, prev, T, p :: ps =>
    match Part.raise cfg (ids t) (height - p.height) (p, T) with
    | none => none
    | some (p', T') =>
      match (if prev = 0 then some T' else linkBorder cfg height T' prev (entryPid p'.nodes.head?)) with
      | none => none
      | some T'' =>
        (bulkJoin cfg ids height (t + 1) (entryPid p'.nodes.getLast?) T'' ps).map fun x =>
          (p'.nodes ++ x.1, x.2)

/-- The upper layers, `bw_tree.hpp` 536-538. -/
def bulkTop (cfg : Cfg K) (ids : Nat → PID) : Nat → Part K V × Tbl K V → Option (Part K V × Tbl K V)
  | f, x =>
    if x.1.nodes.length ≤ 1 then some x
    else match f with
      | 0 => none
      | f + 1 => (Part.layer cfg ids x).bind (bulkTop cfg ids f)

/-- `RemoveLeftmostKeys`, `fixlen/node.hpp` 636-652 and `varlen/node.hpp` 686-702; the first number is the fuel. -/
def removeLeftmost : Nat → Tbl K V → PID → Option (Tbl K V)
  | 0, _, _ => none
  | f + 1, T, p =>
    match T p with
    | none => none
    | some n =>
      let T' := upd T p (some { n with low := none })
      if n.inner = false then some T'
      else match n.recs.head? with
        | some (_, .child q) => removeLeftmost f T' q
        | _ => none

/-- The number of entries of worker `i`, `bw_tree.hpp` 502. -/
def shareLen (n threads i : Nat) : Nat := (n + i) / threads

/-- The shares of the workers, `bw_tree.hpp` 498-507. -/
def shares {α : Type} (n threads : Nat) : Nat → Nat → List α → List (List α)
  | 0, _, _ => []
  | k + 1, i, es =>
    es.take (shareLen n threads i) :: shares n threads k (i + 1) (es.drop (shareLen n threads i))

/-- The work is divided as in `bw_tree.hpp` 484-487. -/
def bulkShares {α : Type} (threads : Nat) (es : List α) : List (List α) :=
  if threads ≤ 1 ∨ es.length < threads then [es] else shares es.length threads threads 0 es

/-- `Bulkload`, `bw_tree.hpp` 471-548, without the exchange of the root: the new pages and the new
root.  (For an empty input the code returns at once; this is `none` here.) -/
def bulkload (cfg : Cfg K) (ids : Nat → Nat → PID) (threads : Nat) (es : List (K × V)) :
    Option (Tbl K V × PID) :=
  let ss := bulkShares threads (es.map fun x => (x.1, Pay.val x.2))
  match bulkParts cfg ids 0 (fun _ => none) ss with
  | none => none
  | some (ps, T) =>
    let height := ps.foldr (fun p h => max p.height h) 1
    match bulkJoin cfg ids height 0 0 T ps with
    | none => none
    | some (nodes, T') =>
      match bulkTop cfg (ids ss.length) nodes.length (⟨height, nodes, 0⟩, T') with
      | none => none
      | some (p, T'') =>
        let root := entryPid p.nodes.head?
        (removeLeftmost p.height T'' root).map fun T3 => (T3, root)

/-- Shared memory after `Bulkload` into a new tree: the old root (page 1) is cleared
(`bw_tree.hpp` 541-545). -/
def bulkSh (T : Tbl K V) (root npid : PID) : Sh K V :=
  { mt := fun p => (T p).map .base, root := root, cells := fun _ => 0, npid := npid, ncell := 0 }

end BwTree
