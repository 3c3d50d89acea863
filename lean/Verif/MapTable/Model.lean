import Verif.Tree.Assoc

/-!
# Mapping table: page-ID reservation by concurrent threads, destructor, statistics (model)

`component/mapping_table.hpp`.  IDs are 64-bit words in the code and natural numbers here (no
addition below can exceed 64 bits as long as the directory bound of `C27` is respected).
Pointers are modelled by the flag "non-null".  Memory is sequentially consistent.
-/

namespace BwTree.MapTable

/-- `kArrayCapacity`, `mapping_table.hpp` 238: 4096 / 8. -/
def arrCap : Nat := 512
/-- `kTableCapacity`, `mapping_table.hpp` 241: (4096 - 64) / 8. -/
def tabCap : Nat := 504
/-- `kRowIDUnit`, 229. -/
def rowUnit : Nat := 65536
/-- `kTabIDUnit`, 232. -/
def tabUnit : Nat := 4294967296

/-- `(id >> kTabShift) & kIDMask`, 175. -/
def tabOf (id : Nat) : Nat := (id >>> 32) &&& 0xFFFF
/-- `(id >> kRowShift) & kIDMask`, 176. -/
def rowOf (id : Nat) : Nat := (id >>> 16) &&& 0xFFFF
/-- `id & kIDMask`, 177. -/
def colOf (id : Nat) : Nat := id &&& 0xFFFF

/-- Where a thread is inside `GetNewPageID`, 124-165. -/
inductive PC where
  /-- before the load of `cnt_` (129) -/
  | idle
  /-- before the CAS (135) -/
  | loaded (cur : Nat)
  /-- before the store of a new row pointer (146) -/
  | extRow (cur new : Nat)
  /-- before the store of `cnt_` (147) -/
  | extRowSt (cur new : Nat)
  /-- before the store of a new table pointer (156) -/
  | extTab (cur new : Nat)
  /-- before the store of `cnt_` (157) -/
  | extTabSt (cur new : Nat)
  /-- the assertion of 130 failed -/
  | aborted
  deriving DecidableEq

/-- Shared memory, program counters, and the IDs returned so far (newest first).  `oob`: a store
outside `tables_` or through a null table pointer has happened (undefined behaviour).  `pages` counts
the 4096-byte pages allocated so far, including the `MappingTable` object itself (which is one page,
238-281). -/
structure St where
  cnt : Nat
  pages : Nat
  dir : Nat → Bool
  rows : Nat → Nat → Bool
  pc : Nat → PC
  out : List Nat
  oob : Bool

/-- The constructor, 71-77, and the initial value of `cnt_` (275). -/
def init : St where
  cnt := 2 ^ 63
  pages := 3
  dir := fun i => decide (i = 0)
  rows := fun i j => decide (i = 0 ∧ j = 0)
  pc := fun _ => .idle
  out := []
  oob := false

def St.setPc (s : St) (t : Nat) (p : PC) : St := { s with pc := fun u => if u = t then p else s.pc u }

/-- `GetNewPageID` returns `id`; the thread may call it again. -/
def St.ret (s : St) (t id : Nat) : St := { s.setPc t .idle with out := id :: s.out }

/-- One atomic step of thread `t`; `fail` is the spurious failure of the weak CAS. -/
def step (s : St) (t : Nat) (fail : Bool) : St :=
  match s.pc t with
  | .idle => if tabOf s.cnt < arrCap then s.setPc t (.loaded s.cnt) else s.setPc t .aborted
  | .aborted => s
  | .loaded cur =>
    if colOf cur < arrCap then
      if s.cnt = cur ∧ fail = false then
        let new := cur + 1
        let s := { s with cnt := new }
        if colOf new < arrCap then s.ret t cur
        else
          let new := new + rowUnit
          if rowOf new < arrCap then s.setPc t (.extRow cur new) else s.setPc t (.extTab cur new)
      else s.setPc t .idle
    else s.setPc t .idle
  | .extRow cur new =>
    let s' := { s with
      pages := s.pages + 1
      rows := fun i j => if i = tabOf new ∧ j = rowOf new then true else s.rows i j
      oob := s.oob || !s.dir (tabOf new) }
    s'.setPc t (.extRowSt cur new)
  | .extRowSt cur new => ({ s with cnt := new / rowUnit * rowUnit }).ret t cur
  | .extTab cur new =>
    let new := new + tabUnit
    let s' := { s with
      pages := s.pages + 2
      dir := fun i => if i = tabOf new then true else s.dir i
      rows := fun i j => if i = tabOf new then decide (j = 0) else s.rows i j
      oob := s.oob || decide (tabCap ≤ tabOf new) }
    s'.setPc t (.extTabSt cur new)
  | .extTabSt cur new => ({ s with cnt := new / tabUnit * tabUnit }).ret t cur

/-- States reachable by any interleaving of any number of threads. -/
inductive Reachable : St → Prop where
  | init : Reachable init
  | step {s} (h : Reachable s) (t : Nat) (fail : Bool) : Reachable (step s t fail)

/-- `GetLogicalPtr`, 171-178: the slot of an ID, or `none` when a null pointer is dereferenced. -/
def slotOf (s : St) (id : Nat) : Option (Nat × Nat × Nat) :=
  if s.dir (tabOf id) && s.rows (tabOf id) (rowOf id) then some (tabOf id, rowOf id, colOf id)
  else none

/-- The slots the destructor passes to `ReleaseLogicalPtr`, in order, 94-113. -/
def dtorSlots (cnt : Nat) : List (Nat × Nat × Nat) :=
  let tableId := tabOf cnt
  (List.range tableId).flatMap fun i =>
    let isLast := decide (i + 1 = tableId)
    let rowNum := if isLast then rowOf cnt else arrCap
    let colNum := if isLast then colOf cnt else arrCap
    (List.range rowNum).flatMap fun j => (List.range colNum).map fun k => (i, j, k)

/-- The rows the destructor releases, 109. -/
def dtorRows (cnt : Nat) : List (Nat × Nat) :=
  let tableId := tabOf cnt
  (List.range tableId).flatMap fun i =>
    (List.range (if i + 1 = tableId then rowOf cnt else arrCap)).map fun j => (i, j)

/-- `CollectStatisticalData`, 191-205: (used, reserved).  Integers, so that an unsigned wrap-around
of `empty_num` would show up as a negative number. -/
def stats (cnt : Nat) : Int × Int :=
  let tab := tabOf cnt
  let row := rowOf cnt
  let col := colOf cnt
  let reserved : Int := (tab * (arrCap + 1) + row + 3) * 4096
  let empty : Int := 2 * arrCap + tabCap - col - row - tab - 3
  (reserved - empty * 8, reserved)

end BwTree.MapTable
