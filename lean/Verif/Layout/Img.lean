import Verif.Layout.Chain

/-!
# What it means that bytes hold a node or a chain (specification)
-/

namespace BwTree.Layout

open Util (Metadata)

variable {K V : Type} [LinearOrder K]

/-- The bytes of keys, payloads and page IDs. -/
structure Enc (K V : Type) where
  key : K → List UInt8
  val : V → List UInt8
  pid : PID → List UInt8

/-- Bytes of the payload of a record. -/
def Enc.pay (e : Enc K V) : Pay V → List UInt8
  | .val v => e.val v
  | .child p => e.pid p

/-- Bytes of a bound; no bound is a key without bytes. -/
def Enc.opt (e : Enc K V) : Option K → List UInt8
  | none => []
  | some k => e.key k

/-- The constants of the byte level and of the model agree: sizes, `Comp` on bytes, and no key is
empty. -/
structure EncOK (cfg : Cfg K) (c : VCfg) (lt : List UInt8 → List UInt8 → Bool) (e : Enc K V) :
    Prop where
  page : cfg.page = c.page
  hdr : cfg.hdr = c.hdr
  room : c.hdr ≤ c.page
  lim : 2 * c.page < 65536
  klen : ∀ k, cfg.klen k = (e.key k).length
  pos : ∀ k, 0 < (e.key k).length
  val : ∀ v, cfg.leafLen = 8 + (e.val v).length
  pid : ∀ p, cfg.idxLen = 8 + (e.pid p).length
  lt : ∀ a b, lt (e.key a) (e.key b) = decide (a < b)

/-- Metadata `m` of an object with bytes `mem` describes a record with this key and payload. -/
def RecAt (mem : Mem) (m : Metadata) (key pay : List UInt8) : Prop :=
  m.keyLen.toNat = key.length ∧ m.recLen.toNat = key.length + pay.length ∧
    mem.read m.offset.toNat m.recLen.toNat = key ++ pay

/-- The bytes that metadata refer to lie between `a` and `b`. -/
def Inside (m : Metadata) (a b : Nat) : Prop :=
  a ≤ m.offset.toNat ∧ m.offset.toNat + m.recLen.toNat ≤ b

/-- Records and bounds of a page lie behind its metadata and end at `lim`. -/
def VPage.InPage (c : VCfg) (lim : Nat) (pg : VPage) : Prop :=
  (∀ i, i < pg.cnt → Inside (pg.rmeta c i) (c.hdr + pg.cnt * metaLen) lim) ∧
    Inside pg.low (c.hdr + pg.cnt * metaLen) lim ∧ Inside pg.high (c.hdr + pg.cnt * metaLen) lim

/-- Keys and payload of a delta record lie behind its header (`dh` bytes) and end at `cap`. -/
def VRec.InRec (dh cap : Nat) (r : VRec) : Prop :=
  Inside r.low dh cap ∧ (r.high.recLen.toNat = 0 ∨ Inside r.high dh cap)

/-- What the objects of a chain refer to lies inside them. -/
def BChain.Boxed (c : VCfg) (dh cap : Nat) : BChain → Prop
  | .base pg => pg.InPage c c.page
  | .removed _ => True
  | .delta _ r ref nx => r.InRec dh cap ∧ (∀ pg, ref = .node pg → pg.InPage c c.page) ∧
      nx.Boxed c dh cap

/-- Outside the part of a page behind the header nothing is written. -/
def Framed (hdr lim : Nat) (old mem : Mem) : Prop :=
  ∀ a, a < hdr ∨ lim ≤ a → mem a = old a

/-- The page holds the node: all records, bounds and the size.  Record 0 of a leftmost index node has
no key. -/
structure NImg (c : VCfg) (e : Enc K V) (n : Node K V) (pg : VPage) : Prop where
  inner : pg.inner = n.inner
  cnt : pg.cnt = n.recs.length
  size : (pg.size : Int) = n.size
  recs : ∀ i (h : i < n.recs.length), RecAt pg.mem (pg.rmeta c i)
    (if n.inner = true ∧ n.low = none ∧ i = 0 then [] else e.key (n.recs[i]).1) (e.pay (n.recs[i]).2)
  low : RecAt pg.mem pg.low (e.opt n.low) []
  high : RecAt pg.mem pg.high (e.opt n.high) []
  next : pg.next = n.next

/-- The object holds the delta: type, key, highest key, and payload unless it deletes or merges. -/
structure DImg (e : Enc K V) (d : Delta K V) (ty : DType) (r : VRec) : Prop where
  ty : ty = d.ty
  inner : r.inner = d.inner
  cnt : r.cnt = d.cnt
  size : r.size = d.size
  key : r.low.keyLen.toNat = (e.key d.key).length ∧ r.key = e.key d.key
  cell : ∀ x, d.ty ≠ .delete → d.toRec = some x → RecAt r.mem r.low (e.key d.key) (e.pay x.2)
  high : RecAt r.mem r.high (e.opt d.high) []

/-- The objects of a chain hold the chain. -/
def CImg (c : VCfg) (e : Enc K V) : Chain K V → BChain → Prop
  | .base n, .base pg => NImg c e n pg
  | .removed l, .removed l' => l = l'
  | .delta d nx, .delta ty r nd b => DImg e d ty r ∧
      (∀ n, d.pay = .node n → ∃ pg, nd = .node pg ∧ NImg c e n pg) ∧
      (∀ w, d.pay = .cell w → nd = .word w) ∧ CImg c e nx b
  | _, _ => False

/-- The pages hold what consolidation makes in the model. -/
def SImg (c : VCfg) (e : Enc K V) : SMO K V → BSMO → Prop
  | .consolidate n, .one false pg => NImg c e n pg
  | .merge n, .one true pg => NImg c e n pg
  | .split l r, .two pl pr => NImg c e l pl ∧ NImg c e r pr
  | _, _ => False

/-- Consolidation writes inside its pages only, and what it writes can be found there. -/
def SFrame (c : VCfg) (lim : Nat) (old old' : Mem) : BSMO → Prop
  | .one _ pg => Framed c.hdr lim old pg.mem ∧ pg.InPage c lim
  | .two l r => (Framed c.hdr lim old l.mem ∧ l.InPage c lim) ∧ Framed c.hdr lim old' r.mem ∧ r.InPage c lim

end BwTree.Layout
