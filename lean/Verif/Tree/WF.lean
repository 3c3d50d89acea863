import Verif.Tree.Model

/-!
# Well-formed nodes and chains, and their meaning (specification side)

`flat c` is the list of records a chain stands for, defined by recursion over the
chain from the oldest to the newest delta; it shares no code with the model's
sort/merge consolidation.
-/

namespace BwTree

variable {K V : Type} [LinearOrder K]

/-- `key` is not below a lower bound (`none` = no lower bound); strict when `closed = false`. -/
def LowOK (low : Option K) (key : K) (closed : Bool) : Prop :=
  ∀ l, low = some l → if closed then l ≤ key else l < key

/-- `key` is below an upper bound (`none` = no upper bound); non-strict when `closed = false`. -/
def HighOK (high : Option K) (key : K) (closed : Bool) : Prop :=
  ∀ h, high = some h → if closed then key < h else key ≤ h

instance (low : Option K) (key : K) (closed : Bool) : Decidable (LowOK low key closed) :=
  match low with
  | none => isTrue (by intro l h; cases h)
  | some l => decidable_of_iff (if closed then l ≤ key else l < key)
      ⟨fun h l' e => by cases e; exact h, fun h => h l rfl⟩

instance (high : Option K) (key : K) (closed : Bool) : Decidable (HighOK high key closed) :=
  match high with
  | none => isTrue (by intro l h; cases h)
  | some l => decidable_of_iff (if closed then key < l else key ≤ l)
      ⟨fun h l' e => by cases e; exact h, fun h => h l rfl⟩

/-- Keys of the interval `[low, high)`. -/
def InR (low high : Option K) (key : K) : Prop := LowOK low key true ∧ HighOK high key true

/-- Non-empty interval. -/
def NonEmptyR (low high : Option K) : Prop := ∀ l h, low = some l → high = some h → l < h

/-- A leftmost inner node has a first record without a key. -/
def Node.leftInner (n : Node K V) : Bool := n.inner && n.low.isNone

/-- The record without key of a leftmost inner node. -/
def Node.pre (n : Node K V) : List (K × Pay V) := if n.leftInner then n.recs.take 1 else []

/-- The records with keys. -/
def Node.body (n : Node K V) : List (K × Pay V) := if n.leftInner then n.recs.drop 1 else n.recs

/-- Right kind of payload for a level. -/
def PayOK (inner : Bool) (p : Pay V) : Prop :=
  if inner then ∃ c, p = .child c else ∃ v, p = .val v

/-- Sum of the variable lengths of the keys of a list of records. -/
def Cfg.keyBytes {K α : Type} (cfg : Cfg K) (l : List (K × α)) : Nat :=
  (l.map (fun x => cfg.klen x.1)).sum

/-- Bytes of a node with `n` records, `body` of them with keys. -/
def Cfg.bytes {K α : Type} (cfg : Cfg K) (inner : Bool) (low high : Option K) (n : Nat)
    (body : List (K × α)) : Int :=
  cfg.hdr + cfg.recLen inner * n + cfg.keyBytes body + cfg.bnd inner low high

/-- Well-formed base node. -/
structure NodeWF (cfg : Cfg K) (n : Node K V) : Prop where
  sorted : SortedK n.body
  range : ∀ x ∈ n.body, InR n.low n.high x.1
  ne : NonEmptyR n.low n.high
  kind : ∀ x ∈ n.recs, PayOK n.inner x.2
  first : n.inner = true → ∃ r rs, n.recs = r :: rs ∧ ∀ l, n.low = some l → r.1 = l
  size : n.size = cfg.bytes n.inner n.low n.high n.recs.length n.body

namespace Chain

/-- Upper bound of the logical node. -/
def high : Chain K V → Option K
  | base n => n.high
  | removed _ => none
  | delta d nx => if d.ty = .merge then d.high else nx.high

/-- Sibling link of the logical node. -/
def nextPid : Chain K V → PID
  | base n => n.next
  | removed _ => 0
  | delta d nx =>
    match d.ty, d.pay with
    | .merge, .node n => n.next
    | _, _ => nx.nextPid

/-- Lower bound of the logical node. -/
def low : Chain K V → Option K
  | base n => n.low
  | removed _ => none
  | delta _ nx => nx.low

/-- The key-less first record, if any. -/
def pre : Chain K V → List (K × Pay V)
  | base n => n.pre
  | removed _ => []
  | delta _ nx => nx.pre

/-- Records with keys, oldest delta applied first. -/
def flatBody : Chain K V → List (K × Pay V)
  | base n => n.body
  | removed _ => []
  | delta d nx =>
    match d.ty with
    | .insert | .modify =>
      match d.toRec with
      | some r => ains r.1 r.2 nx.flatBody
      | none => nx.flatBody
    | .delete => adel d.key nx.flatBody
    | .merge =>
      match d.pay with
      | .node n => nx.flatBody ++ n.recs
      | _ => nx.flatBody

/-- All records the chain stands for. -/
def flat (c : Chain K V) : List (K × Pay V) := c.pre ++ c.flatBody

end Chain

/-- Payload of an insert/modify/delete delta fits the level. -/
def DPayOK (inner : Bool) (ty : DType) (p : DPay K V) : Prop :=
  match ty with
  | .insert => if inner then ∃ c, p = .child c else ∃ v, p = .val v
  | .modify => inner = false ∧ ∃ v, p = .val v
  | .delete => if inner then ∃ c, p = .cell c else p = .none
  | .merge => True

/-- Well-formed chain of a page with lower bound `low`. -/
def ChainWF (cfg : Cfg K) (inner : Bool) (low : Option K) : Chain K V → Prop
  | .base n => n.inner = inner ∧ n.low = low ∧ NodeWF cfg n
  | .removed _ => False
  | .delta d nx =>
    ChainWF cfg inner low nx ∧ d.inner = inner ∧ DPayOK inner d.ty d.pay ∧
    d.cnt = (if nx.isDelta then nx.cnt + 1 else 1) ∧ d.cnt ≤ cfg.maxDelta ∧
    d.size = cfg.bytes inner low (Chain.high (.delta d nx)) (Chain.flat (.delta d nx)).length
      (Chain.flatBody (.delta d nx)) ∧
    (match d.ty with
    | .insert => InR low nx.high d.key ∧ alook nx.flatBody d.key = none
    | .modify => InR low nx.high d.key ∧ alook nx.flatBody d.key ≠ none
    | .delete => InR low nx.high d.key ∧ alook nx.flatBody d.key ≠ none ∧
        (inner = true → LowOK low d.key false)
    | .merge => nx.high = some d.key ∧ ∃ n, d.pay = .node n ∧ n.inner = inner ∧
        n.low = some d.key ∧ n.high = d.high ∧ NodeWF cfg n)

end BwTree
