import Verif.Props.Conc
import Verif.Spec.Seq

/-!
# C07: calls of one thread

`Spec.seqHist t l` is the history in which thread `t` issues the calls of `l` one after the other.
-/

namespace BwTree.Props

open BwTree

set_option linter.unusedSectionVars false

variable {K V : Type} [LinearOrder K] {cfg : Cfg K}

/-- Every sequence of calls returns what the map returns, from the empty tree as well as from a
bulkloaded one.  Partial: a call that stops at an event of `Flag`, or that does not terminate, has
no return in the history; that neither happens to a single thread is not shown here. -/
theorem C07_sequential_partial (hc : CfgOK2 cfg) {m : K → Option V} {sh : Sh K V}
    (hi : Init cfg m sh) {t : Nat} {l : List (Spec.Op K V × Spec.Res V)} {S : Sys K V}
    (hr : Run cfg (Sys.start sh) (Spec.seqHist t l) S) :
    l.map Prod.snd = Spec.answers m (l.map Prod.fst) := by
  obtain ⟨s, _, h2⟩ := hi.run hc hr
  exact (Spec.Accepts.seq h2).1

/-- 14 inserts in descending order (with splits, as 6 records fit in a page), deletes of half
of them (with a merge), and reads. -/
def exSeq : List (Cmd Nat Nat) :=
  ([13, 12, 11, 10, 9, 8, 7, 6, 5, 4, 3, 2, 1, 0].map fun k => .call 0 60 (.insert k (k + 100))) ++
  ([10, 11, 7, 12, 9, 13, 3].map fun k => .call 0 60 (.delete k)) ++
  [.call 0 60 (.read 8), .call 0 60 (.read 2), .call 0 60 (.update 2 7), .call 0 60 (.write 8 6),
   .call 0 60 (.read 2), .call 0 60 (.read 8)]

/-- The calls and results of a history. -/
def pairs (h : List (Spec.Event K V)) : List (Spec.Op K V × Spec.Res V) :=
  h.filterMap fun e => match e with
    | .ret _ (.op o) (.res r) => some (o, r)
    | _ => none

example : ∃ (l : List (Spec.Op Nat Nat × Spec.Res Nat)) (S : Sys Nat Nat),
    Run smallCfg (Sys.start (initSh smallCfg)) (Spec.seqHist 0 l) S ∧ l.length = 27 ∧
    l.getLast? = some (.read 8, .payload (some 6)) ∧ isMark (S.sh.mt 2) = true := by
  have h : ((scenario smallCfg exSeq).map fun x =>
      (decide (x.1 = Spec.seqHist 0 (pairs x.1)) && isMark (x.2.sh.mt 2), (pairs x.1).length,
        (pairs x.1).getLast?)) =
      some (true, 27, some (.read 8, .payload (some 6))) := by decide +kernel
  rw [Option.map_eq_some_iff] at h
  obtain ⟨⟨a, S⟩, h1, h2⟩ := h
  simp only [Prod.mk.injEq, Bool.and_eq_true, decide_eq_true_eq] at h2
  refine ⟨pairs a, S, ?_, h2.2.1, h2.2.2, h2.1.2⟩
  rw [← h2.1.1]; exact scenario_sound h1

end BwTree.Props
