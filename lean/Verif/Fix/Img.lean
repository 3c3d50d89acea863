import Verif.Fix.Model
import Verif.Layout.Img

/-!
# What it means that bytes hold a node or a chain (specification, fixed-length layout)
-/

namespace BwTree.Fix

open Layout (Mem FCfg FPage FSplit Enc Framed)

variable {K V : Type} [LinearOrder K]

/-- The constants of the byte level and of the model agree: sizes, lengths of keys and payloads, and
`Comp` on bytes.  `page` is a power of two, as the rounding of `GetPayloadAddr` needs, and a page
holds fewer than 65536 records, as the 16 bits of `rec_count_` need. -/
structure FEncOK (cfg : Cfg K) (P : FPar) (e : Enc K V) : Prop where
  page : cfg.page = P.c.page
  hdr : cfg.hdr = P.c.hdr
  minSize : cfg.minSize = P.minSize
  room : P.c.hdr ≤ P.c.page
  pos : 0 < P.c.hdr
  pow : ∃ q, q ≤ 31 ∧ P.c.page = 2 ^ q
  keys : P.c.keys ≤ P.c.hdr
  blk : P.blk = P.c.keys
  klen : ∀ k, cfg.klen k = 0
  maxKey : cfg.maxKey = 0
  key : ∀ k, (e.key k).length = P.c.klen
  val : ∀ v, (e.val v).length = P.pay
  pid : ∀ p, (e.pid p).length = P.pid
  leafLen : cfg.leafLen = P.c.klen + P.pay
  idxLen : cfg.idxLen = P.c.klen + P.pid
  lt : ∀ a b, P.lt (e.key a) (e.key b) = decide (a < b)
  lim : ∀ inner, 2 * P.c.page < P.c.hdr + 65536 * (P.c.klen + P.plen inner)

/-- Keys, payloads: inside a page that ends at `lim`, payloads behind the keys. -/
def FNode.InPage (P : FPar) (lim : Nat) (nd : FNode) : Prop :=
  ∀ i, i < nd.pg.cnt →
    P.c.keys + nd.pg.cnt * P.c.klen ≤ nd.pg.payAddr P.c (P.plen nd.inner) i ∧
      nd.pg.payAddr P.c (P.plen nd.inner) i + P.plen nd.inner ≤ lim

/-- The records of the nodes of a chain lie in their pages. -/
def BChain.Boxed (P : FPar) : BChain → Prop
  | .base nd => nd.InPage P P.c.page
  | .removed _ => True
  | .delta _ _ ref nx => (∀ nd, ref = .node nd → nd.InPage P P.c.page) ∧ nx.Boxed P

/-- A bound in the header: a flag and the bytes of the key. -/
def Bnd (e : Enc K V) (k : Option K) (has : Bool) (bytes : Str) : Prop :=
  has = k.isSome ∧ ∀ x, k = some x → bytes = e.key x

/-- The page holds the node: all records, bounds and the size.  Record 0 of a leftmost index node has
no key. -/
structure NImg (P : FPar) (e : Enc K V) (n : Node K V) (nd : FNode) : Prop where
  inner : nd.inner = n.inner
  cnt : nd.pg.cnt = n.recs.length
  size : (nd.pg.size : Int) = n.size
  keys : ∀ i (h : i < n.recs.length), ¬ (n.inner = true ∧ n.low = none ∧ i = 0) →
    nd.pg.key P.c i = e.key (n.recs[i]).1
  pays : ∀ i (h : i < n.recs.length),
    nd.pg.pay P.c (e.pay (n.recs[i]).2).length i = e.pay (n.recs[i]).2
  low : Bnd e n.low nd.hasLow nd.low
  high : Bnd e n.high nd.hasHigh nd.high
  next : nd.next = n.next

/-- The object holds the delta: type, key, highest key, and payload unless it deletes or merges. -/
structure DImg (P : FPar) (e : Enc K V) (d : Delta K V) (ty : DType) (r : FRec) : Prop where
  ty : ty = d.ty
  inner : r.inner = d.inner
  cnt : r.cnt = d.cnt
  size : r.size = d.size
  key : r.key = e.key d.key
  cell : ∀ x, d.ty ≠ .delete → d.toRec = some x →
    r.mem.read P.blk (e.pay x.2).length = e.pay x.2
  high : Bnd e d.high r.hasHigh r.high

/-- The objects of a chain hold the chain. -/
def CImg (P : FPar) (e : Enc K V) : Chain K V → BChain → Prop
  | .base n, .base nd => NImg P e n nd
  | .removed l, .removed l' => l = l'
  | .delta d nx, .delta ty r ref b => DImg P e d ty r ∧
      (∀ n, d.pay = .node n → ∃ nd, ref = .node nd ∧ NImg P e n nd) ∧
      (∀ w, d.pay = .cell w → ref = .word w) ∧ CImg P e nx b
  | _, _ => False

/-- The pages hold what consolidation makes in the model. -/
def SImg (P : FPar) (e : Enc K V) : SMO K V → BSMO → Prop
  | .consolidate n, .one false nd => NImg P e n nd
  | .merge n, .one true nd => NImg P e n nd
  | .split l r, .two nl nr => NImg P e l nl ∧ NImg P e r nr
  | _, _ => False

/-- Consolidation writes inside its pages only, and what it writes can be found there. -/
def SFrame (P : FPar) (lim : Nat) (old old' : Mem) : BSMO → Prop
  | .one _ nd => Framed P.c.keys lim old nd.pg.mem ∧ nd.InPage P lim
  | .two l r => (Framed P.c.keys lim old l.pg.mem ∧ l.InPage P lim) ∧
      Framed P.c.keys lim old' r.pg.mem ∧ r.InPage P lim

end BwTree.Fix
