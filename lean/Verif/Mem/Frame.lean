import Verif.Conc.Code
import Verif.Gc.Model

/-!
# The pointers a call remembers (model)

The programs of `Verif/Conc/Code.lean` speak about chains.  The code has pointers instead: it compares
addresses, and it hands addresses to the garbage collector.  A *frame* is what the local variables of
a running call hold: the heads it has loaded or published and their addresses, the removals it has begun, the
page IDs it has taken, and the head it has just found unchanged.
-/

namespace BwTree.Mem

open BwTree.Gc (Obj)

/-- The local variables of a call that hold pointers and page IDs. -/
structure Frm (K V : Type) where
  /-- the heads loaded from a page or published there by this call, with their addresses -/
  hd : List (PID × Chain K V × Obj)
  /-- the removals begun, the innermost call of `TryMerge` first: `rem_pid` and the contents of
  `removed_node` (`bw_tree.hpp` 1434-1502) -/
  rems : List (PID × Node K V)
  /-- page IDs taken and not used yet (`r_pid` 1354, `new_pid` 1416) -/
  new : List PID
  /-- the head that `TrySMOs` has just found unchanged (1188-1189); `Split` and `AddToGC` (1215)
  work on it -/
  chk : Option (PID × Chain K V × Obj)
  /-- index-delete deltas that are not published yet -/
  cs : List Nat

/-- At the beginning of a call. -/
def Frm.empty {K V : Type} : Frm K V := { hd := [], rems := [], new := [], chk := none, cs := [] }

variable {K V : Type}

/-- A head was loaded. -/
def Frm.load (g : Frm K V) (p : PID) (c : Chain K V) (h : Obj) : Frm K V :=
  { g with hd := (p, c, h) :: g.hd }

/-- A CAS has failed. -/
def Frm.fail (g : Frm K V) : Frm K V := { g with chk := none }

/-- The head of `p` was found unchanged. -/
def Frm.same (g : Frm K V) (p : PID) (c : Chain K V) (h : Obj) : Frm K V :=
  { g with chk := some (p, c, h) }

/-- A delta record was published; `c` is the chain now. -/
def Frm.push (g : Frm K V) (p : PID) (c : Chain K V) (x : Obj) : Frm K V :=
  { g with hd := (p, c, x) :: g.hd, chk := none }

/-- The removals left when the innermost one ends. -/
def Frm.pop (g : Frm K V) : Frm K V := { g with rems := g.rems.tail }

/-- The word of an index-delete delta is published. -/
def Frm.dropCell (g : Frm K V) (w : Nat) : Frm K V := { g with cs := g.cs.erase w }

/-- A removal begins. -/
def Frm.mark (g : Frm K V) (p : PID) (n : Node K V) : Frm K V :=
  { g with rems := (p, n) :: g.rems, chk := none }

/-- A node was stored under a new page ID. -/
def Frm.pub (g : Frm K V) (p : PID) (c : Chain K V) (x : Obj) : Frm K V :=
  { g with hd := (p, c, x) :: g.hd, new := g.new.erase p }

/-- A page ID was taken. -/
def Frm.pid (g : Frm K V) (p : PID) : Frm K V := { g with new := p :: g.new }

/-- An index-delete delta was created. -/
def Frm.cell (g : Frm K V) (w : Nat) : Frm K V := { g with cs := w :: g.cs }

/-- The chain contains the index-delete delta with word `w`. -/
def CellIn (w : Nat) : Chain K V → Prop
  | .base _ => False
  | .removed _ => False
  | .delta d c => d.pay = .cell w ∨ CellIn w c

end BwTree.Mem
