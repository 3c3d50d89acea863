import Verif.Conc.SeqRun
import Verif.Props.Seq
import Verif.Props.Races
import Verif.Props.Levels

/-!
# C07 - C10, C47: executions in which one thread makes all calls

The thread may call the point operations and the node visits of scans in any order, on the empty
tree or on a bulkloaded one.
-/

namespace BwTree.Props

open BwTree

set_option linter.unusedSectionVars false

variable {K V : Type} [LinearOrder K] {cfg : Cfg K}

/-- With one thread, none of the events that stop a thread is possible: levels are never confused
(C08), the stack of `Read` is never empty when it is used (C09), a scan never follows a null pointer
(C10); and there is no other undefined behaviour. -/
theorem C07_no_event (hc : CfgOK2 cfg) {m : K → Option V} {sh : Sh K V} (hi : Init cfg m sh)
    {h : List (Spec.Event K V)} {S : Sys K V} (hr : Run cfg (Sys.start sh) h S) {t : Nat}
    (ht : ∀ e ∈ h, e.thread = t) (u : Nat) :
    flagAt S u = none ∧ ∀ c, S.th u ≠ .run c .ub := by
  refine ⟨?_, fun c => (C01_linearizable_partial hc hi hr).2 u c⟩
  obtain ⟨s, h1⟩ := hr.seqR hc hi ht
  cases hf : flagAt S u with
  | none => rfl
  | some k =>
    exfalso
    obtain ⟨c, hk⟩ := flagAt_run hf
    by_cases e : u = t
    · subst e
      exact h1.run _ _ hk
    · rw [h1.others u e] at hk; cases hk

/-- With one thread, a call that has not returned can take a step, unless the bound on the number of
its loop iterations that was chosen at the call is used up. -/
theorem C07_moves (hc : CfgOK2 cfg) {m : K → Option V} {sh : Sh K V} (hi : Init cfg m sh)
    {h : List (Spec.Event K V)} {S : Sys K V} (hr : Run cfg (Sys.start sh) h S) {t : Nat}
    (ht : ∀ e ∈ h, e.thread = t) {c : Spec.Call K V} {p : Prog K V (Out K V)}
    (hp : S.th t = .run c p) :
    (∃ r, p = .ret r) ∨ p = .stuck ∨ ∃ sh' p', AStep S.sh p sh' p' := by
  have h1 := C07_no_event hc hi hr ht t
  cases p with
  | ret r => exact Or.inl ⟨r, rfl⟩
  | ub => exact absurd hp (h1.2 c)
  | stuck => exact Or.inr (Or.inl rfl)
  | flag k =>
    have := h1.1
    simp only [flagAt, hp] at this
    cases this
  | loadRoot k => exact Or.inr (Or.inr ⟨_, _, .loadRoot _ _⟩)
  | load p k =>
    cases hm : S.sh.mt p with
    | none => exact Or.inr (Or.inr ⟨_, _, .loadNull _ _ _ hm⟩)
    | some c => exact Or.inr (Or.inr ⟨_, _, .load _ _ _ _ hm⟩)
  | loadCell w k => exact Or.inr (Or.inr ⟨_, _, .loadCell _ _ _⟩)
  | storeRoot p k => exact Or.inr (Or.inr ⟨_, _, .storeRoot _ _ _⟩)
  | casRoot o n k =>
    by_cases e : S.sh.root = o
    · exact Or.inr (Or.inr ⟨_, _, .casRootOk _ _ _ _ e⟩)
    · exact Or.inr (Or.inr ⟨_, _, .casRootFail _ _ _ _ e⟩)
  | store p c k => exact Or.inr (Or.inr ⟨_, _, .store _ _ _ _⟩)
  | cas p o n k => exact Or.inr (Or.inr ⟨_, _, .casFail _ _ _ _ _⟩)
  | newPid k => exact Or.inr (Or.inr ⟨_, _, .newPid _ _⟩)
  | newCell k => exact Or.inr (Or.inr ⟨_, _, .newCell _ _⟩)
  | storeCell w p k => exact Or.inr (Or.inr ⟨_, _, .storeCell _ _ _ _⟩)

/-- Between the calls of one thread no search meets a removal mark or an unset word of an
index-delete record. -/
theorem C47_one_thread_calm (hc : CfgOK2 cfg) {m : K → Option V} {sh : Sh K V}
    (hi : Init cfg m sh) {h : List (Spec.Event K V)} {S : Sys K V}
    (hr : Run cfg (Sys.start sh) h S) {t : Nat} (ht : ∀ e ∈ h, e.thread = t)
    (hq : S.th t = .idle) (key : K) (closed : Bool) : Spec.Calm S.sh key closed := by
  obtain ⟨s, h1⟩ := hr.seqR hc hi ht
  obtain ⟨⟨fl, h2⟩, _⟩ := h1.idle hq
  rw [← h1.sh]
  exact h2.calm key closed

theorem _root_.BwTree.Spec.seqHist_thread {t : Nat} {l : List (Spec.Op K V × Spec.Res V)}
    {e : Spec.Event K V} (he : e ∈ Spec.seqHist t l) : e.thread = t := by
  induction l with
  | nil => cases he
  | cons x l ih =>
    simp only [Spec.seqHist, List.mem_cons] at he
    rcases he with rfl | rfl | he
    · rfl
    · rfl
    · exact ih he

/-- C47 for one thread: between its calls, a `Read` of any key that runs alone ends and returns what
the map holds after the calls so far. -/
theorem C47_one_thread_read (hc : CfgOK2 cfg) {m : K → Option V} {sh : Sh K V}
    (hi : Init cfg m sh) {t : Nat} {l : List (Spec.Op K V × Spec.Res V)} {S : Sys K V}
    (hr : Run cfg (Sys.start sh) (Spec.seqHist t l) S) (hq : S.th t = .idle) (key : K) :
    ∃ N, ∀ f, N ≤ f → ∃ n, Alone n S.sh (runOp cfg f (.read key)) S.sh
      (.ret (.payload (Spec.final m (l.map Prod.fst) key))) := by
  obtain ⟨mS, ops, h1, h2⟩ := C47_quiet_read_partial hc hi hr
  have h3 := (Spec.Accepts.seq h1).2
  have h4 : mS = Spec.final m (l.map Prod.fst) := congrArg Spec.AMap.m h3
  rw [← h4]
  refine h2 key (C47_one_thread_calm hc hi hr (t := t) ?_ hq key true)
  intro e he
  exact Spec.seqHist_thread he

/-- Calls of one thread, the last one in the middle of a merge: the right leaf carries a removal mark
and the word of the index-delete record is not set. -/
def exMid : List (Cmd Nat Nat) := exSeq.take 18 ++ [.acts [.op 0 60 (.delete 9)], .steps 0 13]

example : ∃ (h : List (Spec.Event Nat Nat)) (S : Sys Nat Nat),
    Run smallCfg (Sys.start (initSh smallCfg)) h S ∧ (∀ e ∈ h, e.thread = 0) ∧ h.length = 37 ∧
    S.th 0 ≠ .idle ∧ isMark (S.sh.mt 2) = true ∧ S.sh.ncell = 1 ∧ S.sh.cells 0 = 0 := by
  obtain ⟨h, S, h1, _, h2⟩ := scenario_witness (cfg := smallCfg) (cs := exMid)
    (fun h S => ((h.all fun e => decide (e.thread = 0)) && !idleAt S 0 && isMark (S.sh.mt 2),
      h.length, S.sh.ncell, S.sh.cells 0))
    (x := (true, 37, 1, 0)) (by decide +kernel)
  simp only [Prod.mk.injEq, Bool.and_eq_true, List.all_eq_true, decide_eq_true_eq] at h2
  obtain ⟨⟨⟨e1, e3⟩, e4⟩, e2, e5, e6⟩ := h2
  refine ⟨h, S, h1, e1, e2, ?_, e4, e5, e6⟩
  intro e
  simp [idleAt, e] at e3

/-- A whole sequence with a merge, followed by the two visits of a scan. -/
example : ∃ (h : List (Spec.Event Nat Nat)) (S : Sys Nat Nat),
    Run smallCfg (Sys.start (initSh smallCfg)) h S ∧ (∀ e ∈ h, e.thread = 0) ∧ h.length = 58 ∧
    S.th 0 = .idle ∧
    h.getLast? = some (.ret 0 (.visit (some (4, true)) none)
      (.page [(4, 104), (5, 105), (6, 106), (8, 6)] none)) := by
  obtain ⟨h, S, h1, _, h2⟩ := scenario_witness (cfg := smallCfg)
    (cs := exSeq ++ [.acts [.scan 0 60 none none], .fin 0 60, .acts [.next 0 60], .fin 0 60])
    (fun h S => (h.all fun e => decide (e.thread = 0), h.length, idleAt S 0, h.getLast?))
    (x := (true, 58, true, some (.ret 0 (.visit (some (4, true)) none)
      (.page [(4, 104), (5, 105), (6, 106), (8, 6)] none))))
    (by decide +kernel)
  simp only [Prod.mk.injEq, List.all_eq_true, decide_eq_true_eq] at h2
  obtain ⟨e1, e2, e3, e4⟩ := h2
  exact ⟨h, S, h1, e1, e2, idleAt_spec e3, e4⟩

end BwTree.Props
