import Verif.Tree.Scan
import Verif.Conc.Prog

/-!
# Iterators and the node buffer of a thread (model)

`Scan` copies the first node of its range into a page, and every iterator of the thread keeps a
pointer to it.  The page is `thread_local` (`bw_tree.hpp` 213-215): all iterators of a thread share
it.  The model takes the assignment of iterators to pages as a parameter (`slot`), so that the code
can be compared with one page per iterator.

What the tree delivers is the parameter `Src`; it may change with time (other threads may run between
two accesses).
-/

namespace BwTree.Iter

variable {K V : Type} [LinearOrder K]

/-- A `RecordIterator`, `record_iterator.hpp` 226-243 (`node_` is the page of its slot). -/
structure It (K : Type) where
  pos : Nat
  cnt : Nat
  isEnd : Bool
  e : Spec.Bound K

/-- What the tree delivers at a given time: the consolidated leaf for a begin bound
(`bw_tree.hpp` 217-236) and for a page and a key (`SiblingScan`, 1131-1134). -/
structure Src (K V : Type) where
  first : Nat → Spec.Bound K → Option (Node K V)
  sib : Nat → PID → K → Option (Node K V)

/-- The iterators and pages of one thread. -/
structure St (K V : Type) where
  its : Nat → Option (It K)
  page : Nat → Option (Node K V)
  time : Nat

/-- Calls on iterators; `i` names the iterator. -/
inductive Cmd (K : Type) where
  /-- `Scan(b, e)` -/
  | scan (i : Nat) (b e : Spec.Bound K)
  /-- `HasRecord()`, at most `f` nodes -/
  | has (i f : Nat)
  /-- `operator*` -/
  | get (i : Nat)
  /-- `operator++` -/
  | next (i : Nat)

/-- What a call returns; `bad`: the call is not possible (no such iterator, no node, position out of
range, out of fuel). -/
inductive Out (K V : Type) where
  | unit
  | bool (b : Bool)
  | record (r : K × Pay V)
  | bad
  deriving DecidableEq

/-- `HasRecord`, `record_iterator.hpp` 167-180, with `operator=` 99-109 and `SiblingScan`
(`bw_tree.hpp` 1124-1141). -/
def hasRecord (src : Src K V) (pg : Nat) : Nat → It K → St K V → It K × St K V × Out K V
  | 0, it, s => (it, s, .bad)
  | f + 1, it, s =>
    if it.pos < it.cnt then (it, s, .bool true)
    else if it.isEnd then (it, s, .bool false)
    else match s.page pg with
      | none => (it, s, .bad)
      | some n => match n.high with
        | none => (it, s, .bad)
        | some k => match src.sib s.time n.next k with
          | none => (it, s, .bad)
          | some n' => match n'.beginPos (some (k, true)), n'.endPos it.e with
            | some bp, some (isEnd, ep) =>
              hasRecord src pg f { it with pos := bp, cnt := ep, isEnd := isEnd }
                { s with page := upd s.page pg (some n'), time := s.time + 1 }
            | _, _ => (it, s, .bad)

/-- One call.  `slot i` is the page of iterator `i`. -/
def step (src : Src K V) (slot : Nat → Nat) (s : St K V) : Cmd K → St K V × Out K V
  | .scan i b e => match src.first s.time b with
    | none => ({ s with its := upd s.its i none }, .bad)
    | some n => match n.beginPos b, n.endPos e with
      | some bp, some (isEnd, ep) =>
        ({ its := upd s.its i (some ⟨bp, ep, isEnd, e⟩), page := upd s.page (slot i) (some n),
           time := s.time + 1 }, .unit)
      | _, _ => ({ s with its := upd s.its i none }, .bad)
  | .has i f => match s.its i with
    | none => (s, .bad)
    | some it =>
      let x := hasRecord src (slot i) f it s
      ({ x.2.1 with its := upd x.2.1.its i (some x.1) }, x.2.2)
  | .get i => match s.its i, s.page (slot i) with
    | some it, some n => match n.recs[it.pos]? with
      | some r => (s, .record r)
      | none => (s, .bad)
    | _, _ => (s, .bad)
  | .next i => match s.its i with
    | some it => ({ s with its := upd s.its i (some { it with pos := it.pos + 1 }) }, .unit)
    | none => (s, .bad)

/-- A sequence of calls and what they return. -/
def run (src : Src K V) (slot : Nat → Nat) : St K V → List (Cmd K) → List (Out K V)
  | _, [] => []
  | s, c :: cs => (step src slot s c).2 :: run src slot (step src slot s c).1 cs

/-- The loop `for (auto iter = Scan(b, e); iter; ++iter) use(*iter)` from the first test of the
iterator on (`record_iterator.hpp` 137-180): the records, and whether the loop has ended.  `f` bounds
the nodes one `HasRecord` passes, the number argument the records. -/
def loop (src : Src K V) (slot : Nat → Nat) (i f : Nat) : Nat → St K V → List (K × Pay V) × Bool
  | 0, _ => ([], false)
  | n + 1, s =>
    let x := step src slot s (.has i f)
    match x.2 with
    | .bool false => ([], true)
    | .bool true =>
      let y := step src slot x.1 (.get i)
      match y.2 with
      | .record r =>
        let z := loop src slot i f n (step src slot y.1 (.next i)).1
        (r :: z.1, z.2)
      | _ => ([], false)
    | _ => ([], false)

/-- Before the first scan. -/
def St.init : St K V := { its := fun _ => none, page := fun _ => none, time := 0 }

/-- The page assignment of the code: one page per thread (`bw_tree.hpp` 213-215). -/
def shared : Nat → Nat := fun _ => 0

/-- One page per iterator. -/
def separate : Nat → Nat := id

end BwTree.Iter
