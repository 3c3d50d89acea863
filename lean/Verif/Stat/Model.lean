import Verif.Conc.Prog

/-!
# CollectStatisticalData (model), `bw_tree.hpp` 561-572 and 718-758

The traversal does not take part in the interleavings: the model evaluates it on one state of the
tree, in which nobody is active.

Simplifications:
* A page that is marked as removed or that waits for its structure modification makes the code spin
  (`LoadValidHead` 904-918, the loop of 731-734).  As nobody is active it spins forever; the model
  answers `none`.
* The recursion of the code has no bound; the model recurses on a bound `f` and answers `none` when
  it is used up.
* The last entry of the result (the mapping table, 569) is `MapTable.stats`.
* Sums are unbounded integers (`size_t` in the code).
-/

namespace BwTree

variable {K V : Type} [LinearOrder K]

/-- One level: number of nodes, actual usage, virtual usage. -/
abbrev Usage := Nat × Int × Int

/-- Add to the entry of a level; `none` is the exception of `at`. -/
def addUsage (level : Nat) (u : Usage) (st : List Usage) : Option (List Usage) :=
  match st[level]? with
  | some x => some (st.set level (x.1 + u.1, x.2.1 + u.2.1, x.2.2 + u.2.2))
  | none => none

/-- What a page contributes, 737-742. -/
def usage (cfg : Cfg K) (recSz : Nat) (c : Chain K V) : Usage :=
  (1, c.baseSize + c.deltaNum * recSz, cfg.page + c.deltaNum * recSz)

/-- `CollectStatisticalData`, 718-758.  `recSz` is `kDeltaRecSize`. -/
def collectStat (cfg : Cfg K) (recSz : Nat) (sh : Sh K V) :
    Nat → PID → Nat → List Usage → Option (List Usage)
  | 0, _, _, _ => none
  | f + 1, pid, level, st0 =>
    let st1 := if st0.length ≤ level then st0 ++ [(0, 0, 0)] else st0
    match sh.mt pid with
    | none => none
    | some head =>
      if head.needWait cfg || head.isRemoved then none
      else
        match addUsage level (usage cfg recSz head) st1 with
        | none => none
        | some st2 =>
          if head.isLeaf then some st2
          else
            match tryConsolidate cfg true head with
            | some (.consolidate n) => n.recs.foldlM (fun st r =>
                match r.2 with
                | .child q => collectStat cfg recSz sh f q (level + 1) st
                | .val _ => none) st2
            | _ => none

end BwTree
