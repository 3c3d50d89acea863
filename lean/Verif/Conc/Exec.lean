import Verif.Conc.System

/-!
# Concrete executions (used by examples and counterexamples)

An interpreter for schedules, proved to produce executions of the thread system.
-/

namespace BwTree
set_option linter.unusedSectionVars false

variable {K V : Type} [LinearOrder K] [DecidableEq V]

/-- One atomic access; a compare-and-swap succeeds if it can, unless `ok` is false. -/
def aexec {α : Type} (ok : Bool) (s : Sh K V) : Prog K V α → Option (Sh K V × Prog K V α)
  | .ret _ | .ub | .stuck | .flag _ => none
  | .loadRoot k => some (s, k s.root)
  | .storeRoot p k => some ({ s with root := p }, k)
  | .casRoot o n k => if s.root = o then some ({ s with root := n }, k true) else some (s, k false)
  | .load p k => match s.mt p with
    | some c => some (s, k c)
    | none => some (s, .ub)
  | .store p c k => some ({ s with mt := upd s.mt p (some c) }, k)
  | .cas p o n k =>
    if ok && decide (s.mt p = some o) then some ({ s with mt := upd s.mt p (some n) }, k true)
    else some (s, k false)
  | .newPid k => some ({ s with npid := s.npid + 1 }, k s.npid)
  | .newCell k => some ({ s with ncell := s.ncell + 1, cells := upd s.cells s.ncell 0 }, k s.ncell)
  | .loadCell w k => some (s, k (s.cells w))
  | .storeCell w p k => some ({ s with cells := upd s.cells w p }, k)

theorem aexec_sound {α : Type} {ok : Bool} {s s' : Sh K V} {p p' : Prog K V α}
    (h : aexec ok s p = some (s', p')) : AStep s p s' p' := by
  cases p with
  | ret a => cases h
  | ub => cases h
  | stuck => cases h
  | flag k => cases h
  | loadRoot k => cases h; exact .loadRoot ..
  | storeRoot p k => cases h; exact .storeRoot ..
  | casRoot o n k =>
    simp only [aexec] at h
    split at h
    · cases h; exact .casRootOk _ _ _ _ ‹_›
    · cases h; exact .casRootFail _ _ _ _ ‹_›
  | load p k =>
    simp only [aexec] at h
    split at h
    · cases h; exact .load _ _ _ _ ‹_›
    · cases h; exact .loadNull _ _ _ ‹_›
  | store p c k => cases h; exact .store ..
  | cas p o n k =>
    simp only [aexec] at h
    split at h
    · rename_i hc
      cases h
      rw [Bool.and_eq_true] at hc
      exact .casOk _ _ _ _ _ (of_decide_eq_true hc.2)
    · cases h; exact .casFail ..
  | newPid k => cases h; exact .newPid ..
  | newCell k => cases h; exact .newCell ..
  | loadCell w k => cases h; exact .loadCell ..
  | storeCell w p k => cases h; exact .storeCell ..

/-- Actions of a scheduler. -/
inductive Act (K V : Type) where
  | op (t f : Nat) (o : Spec.Op K V)
  | scan (t f : Nat) (b e : Spec.Bound K)
  | next (t f : Nat)
  | step (t : Nat) (ok : Bool)
  | ret (t : Nat)

/-- One action. -/
def exec (cfg : Cfg K) (S : Sys K V) : Act K V → Option (Option (Spec.Event K V) × Sys K V)
  | .op t f o => match S.th t with
    | .idle => some (some (.inv t (.op o)), { S with
        th := upd S.th t (.run (.op o) ((runOp cfg f o).bind fun r => .ret (.res r, none))) })
    | .run _ _ => none
  | .scan t f b e => match S.th t with
    | .idle => some (some (.inv t (.visit b e)), { S with
        th := upd S.th t (.run (.visit b e)
            ((scanFirst cfg f b e).bind fun x => .ret (visitOut e x))) })
    | .run _ _ => none
  | .next t f => match S.th t, S.it t with
    | .idle, some (p, k, e) => some (some (.inv t (.visit (some (k, true)) e)), { S with
        th := upd S.th t (.run (.visit (some (k, true)) e)
            ((scanNext cfg f p k e).bind fun x => .ret (visitOut e x))) })
    | _, _ => none
  | .step t ok => match S.th t with
    | .idle => none
    | .run c p => match aexec ok S.sh p with
      | none => none
      | some (sh', p') => some (none, { S with
          sh := sh', th := upd S.th t (.run c p'), mark := newMark t S.sh sh' S.mark })
  | .ret t => match S.th t with
    | .run (.op o) (.ret r) => some (some (.ret t (.op o) r.1), { S with th := upd S.th t .idle })
    | .run (.visit b e) (.ret r) =>
      some (some (.ret t (.visit b e) r.1),
        { S with th := upd S.th t .idle, it := upd S.it t r.2 })
    | _ => none

theorem exec_sound {cfg : Cfg K} {S S' : Sys K V} {a : Act K V} {l : Option (Spec.Event K V)}
    (h : exec cfg S a = some (l, S')) : SysStep cfg S l S' := by
  cases a with
  | op t f o =>
    simp only [exec] at h
    split at h
    · cases h; exact .op _ _ _ _ ‹_›
    · cases h
  | scan t f b e =>
    simp only [exec] at h
    split at h
    · cases h; exact .scan _ _ _ _ _ ‹_›
    · cases h
  | next t f =>
    simp only [exec] at h
    split at h
    · cases h; exact .next _ _ _ _ _ _ ‹_› ‹_›
    · cases h
  | step t ok =>
    simp only [exec] at h
    split at h
    · cases h
    · split at h
      · cases h
      · cases h; exact .step _ _ _ _ _ _ ‹_› (aexec_sound ‹_›)
  | ret t =>
    simp only [exec] at h
    split at h
    · cases h; exact .retOp _ _ _ _ ‹_›
    · cases h; exact .retVisit _ _ _ _ _ ‹_›
    · cases h

/-- A schedule; the history is returned in reverse. -/
def execs (cfg : Cfg K) : List (Act K V) → List (Spec.Event K V) × Sys K V →
    Option (List (Spec.Event K V) × Sys K V)
  | [], x => some x
  | a :: as, (h, S) => match exec cfg S a with
    | none => none
    | some (none, S') => execs cfg as (h, S')
    | some (some e, S') => execs cfg as (e :: h, S')

theorem execs_sound {cfg : Cfg K} {S₀ : Sys K V} : ∀ {as : List (Act K V)}
    {h h' : List (Spec.Event K V)} {S S' : Sys K V}, execs cfg as (h, S) = some (h', S') →
    Run cfg S₀ h.reverse S → Run cfg S₀ h'.reverse S'
  | [], h, h', S, S', e, hr => by cases e; exact hr
  | a :: as, h, h', S, S', e, hr => by
    simp only [execs] at e
    split at e
    · cases e
    · exact execs_sound e (hr.tau (exec_sound ‹_›))
    · refine execs_sound e ?_
      rw [List.reverse_cons]
      exact hr.event (exec_sound ‹_›)

/-- Steps of a thread until its call is finished or it cannot move, at most `n`. -/
def finish (cfg : Cfg K) (t : Nat) : Nat → List (Spec.Event K V) × Sys K V →
    Option (List (Spec.Event K V) × Sys K V)
  | 0, x => some x
  | n + 1, (h, S) => match exec cfg S (.step t true) with
    | some (none, S') => finish cfg t n (h, S')
    | _ => some (h, S)

theorem finish_sound {cfg : Cfg K} {S₀ : Sys K V} {t : Nat} : ∀ {n : Nat}
    {h h' : List (Spec.Event K V)} {S S' : Sys K V}, finish cfg t n (h, S) = some (h', S') →
    Run cfg S₀ h.reverse S → Run cfg S₀ h'.reverse S'
  | 0, h, h', S, S', e, hr => by cases e; exact hr
  | n + 1, h, h', S, S', e, hr => by
    simp only [finish] at e
    split at e
    · exact finish_sound e (hr.tau (exec_sound ‹_›))
    · cases e; exact hr

/-- Commands of a scenario. -/
inductive Cmd (K V : Type) where
  /-- single actions -/
  | acts (as : List (Act K V))
  /-- `n` steps of a thread -/
  | steps (t n : Nat)
  /-- a whole call, with at most `n` steps -/
  | call (t n : Nat) (o : Spec.Op K V)
  /-- let a thread finish its call -/
  | fin (t n : Nat)

/-- One command. -/
def cexec (cfg : Cfg K) (x : List (Spec.Event K V) × Sys K V) : Cmd K V →
    Option (List (Spec.Event K V) × Sys K V)
  | .acts as => execs cfg as x
  | .steps t n => execs cfg (List.replicate n (.step t true)) x
  | .call t n o => ((execs cfg [.op t n o] x).bind (finish cfg t n)).bind (execs cfg [.ret t])
  | .fin t n => (finish cfg t n x).bind (execs cfg [.ret t])

/-- A scenario. -/
def cexecs (cfg : Cfg K) : List (Cmd K V) → List (Spec.Event K V) × Sys K V →
    Option (List (Spec.Event K V) × Sys K V)
  | [], x => some x
  | c :: cs, x => (cexec cfg x c).bind (cexecs cfg cs)

theorem cexec_sound {cfg : Cfg K} {S₀ : Sys K V} {c : Cmd K V} {h h' : List (Spec.Event K V)}
    {S S' : Sys K V} (e : cexec cfg (h, S) c = some (h', S')) (hr : Run cfg S₀ h.reverse S) :
    Run cfg S₀ h'.reverse S' := by
  cases c with
  | acts as => exact execs_sound e hr
  | steps t n => exact execs_sound e hr
  | call t n o =>
    simp only [cexec, Option.bind_eq_some_iff] at e
    obtain ⟨⟨h2, S2⟩, ⟨⟨h1, S1⟩, e1, e2⟩, e3⟩ := e
    exact execs_sound e3 (finish_sound e2 (execs_sound e1 hr))
  | fin t n =>
    simp only [cexec, Option.bind_eq_some_iff] at e
    obtain ⟨⟨h1, S1⟩, e1, e2⟩ := e
    exact execs_sound e2 (finish_sound e1 hr)

theorem cexecs_sound {cfg : Cfg K} {S₀ : Sys K V} : ∀ {cs : List (Cmd K V)}
    {h h' : List (Spec.Event K V)} {S S' : Sys K V}, cexecs cfg cs (h, S) = some (h', S') →
    Run cfg S₀ h.reverse S → Run cfg S₀ h'.reverse S'
  | [], h, h', S, S', e, hr => by cases e; exact hr
  | c :: cs, h, h', S, S', e, hr => by
    simp only [cexecs, Option.bind_eq_some_iff] at e
    obtain ⟨⟨h1, S1⟩, e1, e2⟩ := e
    exact cexecs_sound e2 (cexec_sound e1 hr)

/-- A scenario on the empty tree: the history and the final state. -/
def scenario (cfg : Cfg K) (cs : List (Cmd K V)) : Option (List (Spec.Event K V) × Sys K V) :=
  (cexecs cfg cs ([], Sys.start (initSh cfg))).map fun x => (x.1.reverse, x.2)

theorem scenario_sound {cfg : Cfg K} {cs : List (Cmd K V)} {h : List (Spec.Event K V)} {S : Sys K V}
    (e : scenario cfg cs = some (h, S)) : Run cfg (Sys.start (initSh cfg)) h S := by
  simp only [scenario, Option.map_eq_some_iff] at e
  obtain ⟨⟨h1, S1⟩, e1, e2⟩ := e
  cases e2
  exact cexecs_sound e1 .nil

theorem scenario_reachable {cfg : Cfg K} {cs : List (Cmd K V)} {h : List (Spec.Event K V)}
    {S : Sys K V} (e : scenario cfg cs = some (h, S)) : Reachable cfg (fun _ => none) S :=
  ⟨_, h, .empty, scenario_sound e⟩

theorem scenario_witness {cfg : Cfg K} {cs : List (Cmd K V)} {α : Type} {x : α}
    (f : List (Spec.Event K V) → Sys K V → α)
    (e : ((scenario cfg cs).map fun y => f y.1 y.2) = some x) :
    ∃ h S, Run cfg (Sys.start (initSh cfg)) h S ∧ Reachable cfg (fun _ => none) S ∧ f h S = x := by
  rw [Option.map_eq_some_iff] at e
  obtain ⟨⟨h, S⟩, e1, e2⟩ := e
  exact ⟨h, S, scenario_sound e1, scenario_reachable e1, e2⟩

/-- The store a thread is about to make. -/
def storeAt (S : Sys K V) (t : Nat) : Option (PID × Chain K V) :=
  match S.th t with
  | .run _ (.store p c _) => some (p, c)
  | _ => none

theorem storeAt_some {S : Sys K V} {t : Nat} {p : PID} {c : Chain K V}
    (h : storeAt S t = some (p, c)) : ∃ call k, S.th t = .run call (.store p c k) := by
  unfold storeAt at h
  split at h
  · cases h; exact ⟨_, _, ‹_›⟩
  · cases h

/-- The flag at which a thread is stopped. -/
def flagAt (S : Sys K V) (t : Nat) : Option Flag :=
  match S.th t with
  | .run _ (.flag k) => some k
  | _ => none

/-- The thread of an event. -/
def evThread : Spec.Event K V → Nat
  | .inv t _ => t
  | .ret t _ _ => t

/-- A thread that is not mentioned in the history is idle. -/
theorem Run.idle {cfg : Cfg K} {sh : Sh K V} {h : List (Spec.Event K V)} {S : Sys K V}
    (hr : Run cfg (Sys.start sh) h S) {t : Nat} (ht : ∀ e ∈ h, evThread e ≠ t) : S.th t = .idle := by
  induction hr with
  | nil => rfl
  | tau hr hs ih =>
    have hi := ih ht
    cases hs with
    | step t' c p p' sh' h1 h2 =>
      have hne : t ≠ t' := by
        intro e; subst e; rw [hi] at h1; cases h1
      exact (upd_ne _ _ hne).trans hi
  | event hr hs ih =>
    have hi := ih fun e he => ht e (List.mem_append_left _ he)
    have hne := ht _ (List.mem_append_right _ (List.mem_singleton.2 rfl))
    cases hs <;> exact (upd_ne _ _ (Ne.symm hne)).trans hi

/-- Is a thread idle? -/
def idleAt (S : Sys K V) (t : Nat) : Bool :=
  match S.th t with
  | .idle => true
  | _ => false

theorem idleAt_spec {S : Sys K V} {t : Nat} (h : idleAt S t = true) : S.th t = .idle := by
  unfold idleAt at h
  split at h
  · assumption
  · cases h

/-- Threads `0` and `1` are idle and no other thread occurs in the history. -/
def quietAt (h : List (Spec.Event K V)) (S : Sys K V) : Bool :=
  idleAt S 0 && idleAt S 1 && h.all fun e => decide (evThread e < 2)

theorem quietAt_spec {cfg : Cfg K} {sh : Sh K V} {h : List (Spec.Event K V)} {S : Sys K V}
    (hr : Run cfg (Sys.start sh) h S) (hq : quietAt h S = true) (t : Nat) : S.th t = .idle := by
  simp only [quietAt, Bool.and_eq_true, List.all_eq_true, decide_eq_true_eq] at hq
  obtain ⟨⟨h0, h1⟩, h2⟩ := hq
  match t with
  | 0 => exact idleAt_spec h0
  | 1 => exact idleAt_spec h1
  | t + 2 =>
    refine hr.idle fun e he => ?_
    have := h2 e he
    omega

end BwTree
