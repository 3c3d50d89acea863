import Mathlib.Order.Defs.LinearOrder

/-!
# The abstract map (specification)

What a user of the index relies on: a map from keys to optional payloads, the five point
operations with their return values, range scans, and the notion "every operation takes effect atomically
between its invocation and its response".  Nothing of the tree occurs here.
-/

namespace BwTree.Spec

/-- The point operations of the API. -/
inductive Op (K V : Type) where
  | read (k : K)
  | write (k : K) (v : V)
  | insert (k : K) (v : V)
  | update (k : K) (v : V)
  | delete (k : K)
  deriving DecidableEq, Repr

/-- Return values: the optional payload of `Read`, or a return code. -/
inductive Res (V : Type) where
  | payload (o : Option V)
  | success
  | keyExist
  | keyNotExist
  deriving DecidableEq, Repr

variable {K V : Type} [DecidableEq K]

/-- `m` with `k` bound to `o`. -/
def set (m : K → Option V) (k : K) (o : Option V) : K → Option V :=
  fun x => if x = k then o else m x

/-- The map with the listed entries; the first entry of a key counts. -/
def ofList : List (K × V) → K → Option V
  | [], _ => none
  | x :: xs, k => if x.1 = k then some x.2 else ofList xs k

/-- Sequential meaning of an operation on the map. -/
def apply (m : K → Option V) : Op K V → (K → Option V) × Res V
  | .read k => (m, .payload (m k))
  | .write k v => (set m k (some v), .success)
  | .insert k v =>
    match m k with
    | none => (set m k (some v), .success)
    | some _ => (m, .keyExist)
  | .update k v =>
    match m k with
    | none => (m, .keyNotExist)
    | some _ => (set m k (some v), .success)
  | .delete k =>
    match m k with
    | none => (m, .keyNotExist)
    | some _ => (set m k none, .success)

/-- A bound of a scan: a key and whether it is included (`true`), or none. -/
abbrev Bound (K : Type) := Option (K × Bool)

/-- What a thread may call: a point operation, or one node visit of a scan (`Scan` itself visits
the first node, advancing the iterator visits the next one). -/
inductive Call (K V : Type) where
  | op (o : Op K V)
  | visit (b e : Bound K)
  deriving DecidableEq, Repr

/-- What a call returns.  A visit yields records and, unless the scan is finished, the key at which
the next visit starts. -/
inductive Ret (K V : Type) where
  | res (r : Res V)
  | page (recs : List (K × V)) (next : Option K)
  deriving DecidableEq, Repr

/-- `k` is not before the begin bound. -/
def fromB [LT K] (b : Bound K) (k : K) : Prop :=
  ∀ x c, b = some (x, c) → x < k ∨ (c = true ∧ x = k)

/-- `k` is not beyond the end bound. -/
def toB [LT K] (e : Bound K) (k : K) : Prop :=
  ∀ x c, e = some (x, c) → k < x ∨ (c = true ∧ k = x)

/-- A visit that begins at `b` in a scan up to `e` returns the right page: the records are, in
increasing order, exactly those of the map from `b` up to `next` (exclusive), or up to `e` if
there is no next page.  The next page starts neither before `b` (strictly after it, if `b` is
closed) nor beyond `e`. -/
structure PageOK [LT K] (m : K → Option V) (b e : Bound K) (recs : List (K × V))
    (next : Option K) : Prop where
  incr : recs.Pairwise (fun x y => x.1 < y.1)
  mem : ∀ k v, (k, v) ∈ recs ↔
    m k = some v ∧ fromB b k ∧ toB e k ∧ ∀ h, next = some h → k < h
  next_from : ∀ h x c, next = some h → b = some (x, c) → x < h ∨ (c = false ∧ x = h)
  next_to : ∀ h, next = some h → toB e h

/-- The effect and result of a call that takes effect on the map `m`. -/
inductive Step [LT K] (m : K → Option V) : Call K V → (K → Option V) → Ret K V → Prop
  | op (o : Op K V) : Step m (.op o) (apply m o).1 (.res (apply m o).2)
  | visit (b e : Bound K) (recs : List (K × V)) (next : Option K) :
      PageOK m b e recs next → Step m (.visit b e) m (.page recs next)

/-- What a thread is doing, as seen by the specification. -/
inductive OpSt (K V : Type) where
  | idle
  | pending (op : Call K V)
  | done (op : Call K V) (r : Ret K V)

/-- Visible events. -/
inductive Event (K V : Type) where
  | inv (t : Nat) (op : Call K V)
  | ret (t : Nat) (op : Call K V) (r : Ret K V)
  deriving DecidableEq

/-- The atomic map: a map and the pending operations of all threads. -/
structure AMap (K V : Type) where
  m : K → Option V
  ops : Nat → OpSt K V

/-- One thread's entry replaced. -/
def setOp (f : Nat → OpSt K V) (t : Nat) (x : OpSt K V) : Nat → OpSt K V :=
  fun u => if u = t then x else f u

/-- Histories the atomic map admits: a thread invokes an operation, at one later moment the
operation takes effect on the map (this is invisible), and later it returns the result computed
at that moment. -/
inductive Accepts [LT K] : AMap K V → List (Event K V) → AMap K V → Prop
  | nil (a : AMap K V) : Accepts a [] a
  | inv {a b : AMap K V} {h : List (Event K V)} (t : Nat) (op : Call K V) :
      Accepts a h b → b.ops t = .idle →
      Accepts a (h ++ [.inv t op]) { b with ops := setOp b.ops t (.pending op) }
  | lin {a b : AMap K V} {h : List (Event K V)} (t : Nat) (op : Call K V) (m' : K → Option V)
      (r : Ret K V) :
      Accepts a h b → b.ops t = .pending op → Step b.m op m' r →
      Accepts a h { m := m', ops := setOp b.ops t (.done op r) }
  | ret {a b : AMap K V} {h : List (Event K V)} (t : Nat) (op : Call K V) (r : Ret K V) :
      Accepts a h b → b.ops t = .done op r →
      Accepts a (h ++ [.ret t op r]) { b with ops := setOp b.ops t .idle }

end BwTree.Spec
