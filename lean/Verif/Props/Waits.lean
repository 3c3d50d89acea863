import Verif.Conc.Waits
import Verif.Props.Roots
import Verif.Props.Spurious
import Verif.Props.SeqFull

/-!
# C72: whoever waits, waits for a thread inside its call

A visitor waits in two places: at a page whose chain is too long (`NeedWaitSMOs` in `LoadValidHead`,
`bw_tree.hpp` 904-918) and at the unset word of an index-delete record (`GetPayloadAtomically`,
`fixlen/delta_record.hpp` 404-418).
-/

namespace BwTree.Props

open BwTree

set_option linter.unusedSectionVars false

variable {K V : Type} [LinearOrder K] {cfg : Cfg K}

/-! ## Waiting at a page -/

theorem Meanwhile.slot {p : PID} {c : Chain K V} {t n : Nat} {S S' : Sys K V}
    (h : Meanwhile cfg p c t S n S') : S'.sh.mt p = some c := by
  cases h <;> assumption

theorem Meanwhile.run {p : PID} {c : Chain K V} {t n : Nat} {S₀ S S' : Sys K V}
    {h : List (Spec.Event K V)} (hr : SureRun cfg S₀ h S) (hm : Meanwhile cfg p c t S n S') :
    ∃ h', SureRun cfg S₀ h' S' := by
  induction hm with
  | refl => exact ⟨h, hr⟩
  | own _ h1 h2 _ ih =>
    obtain ⟨h', ih⟩ := ih
    exact ⟨h', ih.tau (.access _ _ _ _ _ _ h1 h2)⟩
  | @other n S' S'' l _ h1 _ _ ih =>
    obtain ⟨h', ih⟩ := ih
    cases l with
    | none => exact ⟨h', ih.tau h1⟩
    | some e => exact ⟨_, ih.event h1⟩

theorem Meanwhile.rel (hp : 0 < cfg.maxDelta) {p : PID} {c : Chain K V} (hw : c.needWait cfg = true)
    {t n : Nat} {S S' : Sys K V} {call : Spec.Call K V}
    (h : Meanwhile cfg p c t S n S') (h0 : ∃ x, S.th t = .run call x ∧ Releases p 5 c x) :
    ∃ x m, S'.th t = .run call x ∧ Releases p m c x ∧ n + m = 5 := by
  induction h with
  | refl =>
    obtain ⟨x, h1, h2⟩ := h0
    exact ⟨x, 5, h1, h2, rfl⟩
  | own h' h1 h2 h3 ih =>
    obtain ⟨y, m, i1, i2, i3⟩ := ih
    rw [h1] at i1; cases i1
    rcases i2.step (Meanwhile.slot h') h2 with ⟨c', e1, e2⟩ | ⟨_, m', rfl, e2⟩
    · rw [h3] at e1; cases e1
      rw [Chain.bare_needWait hp e2] at hw; cases hw
    · exact ⟨_, m', upd_same .., e2, by omega⟩
  | other h' h1 h2 h3 ih =>
    obtain ⟨y, m, i1, i2, i3⟩ := ih
    exact ⟨y, m, h2.trans i1, i2, i3⟩

/-- The program that releases a page can move, unless its fuel is used up. -/
theorem Releases.moves {p : PID} {n : Nat} {c : Chain K V} {α : Type} {x : Prog K V α} {sh : Sh K V}
    (h : Releases p n c x) (hm : sh.mt p = some c) (hu : x ≠ .ub) :
    x = .stuck ∨ ∃ sh' x', Sure sh x sh' x' := by
  cases h with
  | ub => exact absurd rfl hu
  | stuck => exact Or.inl rfl
  | check _ =>
    refine Or.inr ⟨_, _, .firm (.mk (.casOk _ _ _ _ _ hm) ?_)⟩
    intro q o n k e _; cases e; exact ⟨rfl, rfl⟩
  | swap _ =>
    refine Or.inr ⟨_, _, .firm (.mk (.casOk _ _ _ _ _ hm) ?_)⟩
    intro q o n k e _; cases e; exact ⟨rfl, rfl⟩
  | newPid _ => exact Or.inr ⟨_, _, .firm (.mk (.newPid ..) fun q o n k e => by cases e)⟩
  | put _ => exact Or.inr ⟨_, _, .firm (.mk (.store ..) fun q o n k e => by cases e)⟩
  | other _ _ => exact Or.inr ⟨_, _, .firm (.mk (.store ..) fun q o n k e => by cases e)⟩
  | word _ => exact Or.inr ⟨_, _, .firm (.mk (.storeCell ..) fun q o n k e => by cases e)⟩

/-- **C72, pages.**  Whenever the chain of a page makes its visitors wait, there is a thread inside a
call that releases the page: whatever the other threads do, it makes at most four accesses during
which the page keeps the chain, so its fifth access replaces the chain; and it never waits itself, it
can always move (unless the bound on its loops, an artefact of the model, is used up). -/
theorem C72_released (ht : cfg.thr ≤ cfg.maxDelta) (hc : CfgOK2 cfg) {m : K → Option V} {sh : Sh K V}
    (hi : Init cfg m sh) {h : List (Spec.Event K V)} {S : Sys K V}
    (hr : SureRun cfg (Sys.start sh) h S) {p : PID} {c : Chain K V} (hm : S.sh.mt p = some c)
    (hw : c.needWait cfg = true) :
    ∃ t call x, S.th t = .run call x ∧ ∀ n S', Meanwhile cfg p c t S n S' → n ≤ 4 ∧
      ∃ x', S'.th t = .run call x' ∧ (x' = .stuck ∨ ∃ sh'' x'', Sure S'.sh x' sh'' x'') := by
  obtain ⟨t, call, x, h1, h2⟩ := hi.releases ht hc hr hm hw
  refine ⟨t, call, x, h1, fun n S' hw' => ?_⟩
  obtain ⟨x', m', e1, e2, e3⟩ := Meanwhile.rel hc.maxPos hw hw' ⟨x, h1, h2⟩
  have hm' : m' ≠ 0 := by rintro rfl; cases e2
  refine ⟨by omega, x', e1, Releases.moves e2 (Meanwhile.slot hw') ?_⟩
  rintro rfl
  obtain ⟨h', hr'⟩ := Meanwhile.run hr hw'
  obtain ⟨s, hs, _⟩ := hi.run hc hr'.run
  have := hs.th t
  rw [e1] at this
  exact this

/-! ## Waiting for a word -/

theorem dcSearchChild_word {key : K} {closed : Bool} : ∀ {c : Chain K V} {smo : Bool} {w : Nat},
    dcSearchChild key closed smo c = .cell w → w ∈ c.words := by
  intro c
  induction c with
  | base n => intro smo w e; simp only [dcSearchChild] at e; split at e <;> cases e
  | removed b => intro smo w e; simp [dcSearchChild] at e
  | delta d nx ih =>
    intro smo w e
    have sub : w ∈ nx.words → w ∈ (Chain.delta d nx).words := by
      intro h; unfold Chain.words; split
      · exact List.mem_cons_of_mem _ h
      · exact h
    simp only [dcSearchChild] at e
    split at e
    · split at e
      · split at e <;> cases e
      · exact sub (ih e)
    · split at e
      · cases hp : d.pay with
        | cell c => simp [hp] at e; subst e; simp [Chain.words, hp]
        | _ => simp [hp] at e
      · exact sub (ih e)
    · split at e
      · split at e
        · split at e <;> cases e
        · cases e
      · exact sub (ih e)
    · cases e

theorem childStep_word {key : K} {closed : Bool} {c : Chain K V} {w : Nat}
    (h : childStep key closed c = .cell w) : w ∈ c.words := by
  unfold childStep at h
  split at h
  · cases h
  · next hd => cases h; exact dcSearchChild_word hd
  · cases h
  · cases h
  · split at h <;> cases h
  · cases h

/-- **C72, words.**  If a chain in the table contains an index-delete record whose word is not set,
there is a thread inside a call that does not return before the word is set, however the execution
goes on.  (Here every compare-and-swap may fail spuriously.)  The thread may be one that waits for
this very word itself, see `C42_false`, or one halted at an event of `Flag`. -/
theorem C72_word (ht : cfg.thr ≤ cfg.maxDelta) (hc : CfgOK2 cfg) {m : K → Option V} {sh : Sh K V}
    (hi : Init cfg m sh) {h : List (Spec.Event K V)} {S : Sys K V}
    (hr : Run cfg (Sys.start sh) h S) {p : PID} {c : Chain K V} {w : Nat} (hm : S.sh.mt p = some c)
    (hw : w ∈ c.words) (h0 : S.sh.cells w = 0) :
    ∃ t call, ∀ h' S', Run cfg S h' S' → S'.sh.cells w = 0 →
      ∃ x, S'.th t = .run call x ∧ ∀ r, x ≠ .ret r := by
  have hD := hi.duty ht hc hr
  rcases hD.words p c w hm hw with e | ⟨t, call, x, h1, h2⟩
  · exact absurd h0 e
  refine ⟨t, call, fun h' S' hr' h0' => ?_⟩
  obtain ⟨s0, hs0, _⟩ := hi.run hc hr
  have hlt : w < S.sh.ncell := by
    rw [← hs0.sh]
    exact hs0.inv.word_lt (by
      rw [show s0.mt p = S.sh.mt p from congrFun (congrArg Sh.mt hs0.sh) p]; exact hm) hw
  have key : ∃ g, Run cfg (Sys.start sh) g S' ∧ w < S'.sh.ncell ∧ (S'.sh.cells w ≠ 0 ∨
      ∃ x, S'.th t = .run call x ∧ Sets w (fun _ => False) x) := by
    have step : ∀ {S1 S2 : Sys K V} {l : Option (Spec.Event K V)}, SysStep cfg S1 l S2 →
        (∃ g, Run cfg (Sys.start sh) g S1 ∧ w < S1.sh.ncell ∧ (S1.sh.cells w ≠ 0 ∨
          ∃ x, S1.th t = .run call x ∧ Sets w (fun _ => False) x)) →
        ∃ g, Run cfg (Sys.start sh) g S2 ∧ w < S2.sh.ncell ∧ (S2.sh.cells w ≠ 0 ∨
          ∃ x, S2.th t = .run call x ∧ Sets w (fun _ => False) x) := by
      rintro S1 S2 l hs ⟨g, g1, g2, g3⟩
      obtain ⟨s1, hs1, _⟩ := hi.run hc g1
      have hD1 := hi.duty ht hc g1
      have hrun : ∃ g, Run cfg (Sys.start sh) g S2 := by
        cases l with
        | none => exact ⟨_, g1.tau hs⟩
        | some e => exact ⟨_, g1.event hs⟩
      have hpar : w < S2.sh.ncell ∧ (S1.sh.cells w ≠ 0 → S2.sh.cells w ≠ 0) := by
        cases l with
        | some e =>
          obtain ⟨q1, _⟩ := hs.quiet ht hc.maxPos
          rw [q1]; exact ⟨g2, id⟩
        | none =>
          cases hs with
          | step u c y y' sh' q1 q2 =>
            exact ⟨Nat.lt_of_lt_of_le g2 q2.ncell_mono, (hD1.tidy u c y q1).cells q2 g2⟩
      obtain ⟨g', g1'⟩ := hrun
      refine ⟨g', g1', hpar.1, ?_⟩
      rcases g3 with g3 | ⟨x, g3, g4⟩
      · exact Or.inl (hpar.2 g3)
      · exact g4.sys ht hc.maxPos hs1.inv hs1.sh hs g3
    clear h0'
    induction hr' with
    | nil => exact ⟨h, hr, hlt, Or.inr ⟨x, h1, h2⟩⟩
    | tau _ hs ih => exact step hs ih
    | event _ hs ih => exact step hs ih
  obtain ⟨_, _, _, e | ⟨x', e1, e2⟩⟩ := key
  · exact absurd h0' e
  · exact ⟨x', e1, fun r e => by subst e; exact e2⟩

/-! ## Quiet states -/

/-- **C72, quiet states.**  When all threads are idle, no page makes its visitors wait, and the word of
every index-delete record in the table is set. -/
theorem C72_quiet (ht : cfg.thr ≤ cfg.maxDelta) (hc : CfgOK2 cfg) {m : K → Option V} {sh : Sh K V}
    (hi : Init cfg m sh) {h : List (Spec.Event K V)} {S : Sys K V}
    (hr : SureRun cfg (Sys.start sh) h S) (hq : ∀ t, S.th t = .idle) {p : PID} {c : Chain K V}
    (hm : S.sh.mt p = some c) : c.needWait cfg = false ∧ ∀ w ∈ c.words, S.sh.cells w ≠ 0 := by
  refine ⟨?_, fun w hw e => ?_⟩
  · cases hw : c.needWait cfg with
    | false => rfl
    | true =>
      obtain ⟨t, call, x, h1, _⟩ := C72_released ht hc hi hr hm hw
      rw [hq t] at h1; cases h1
  · obtain ⟨t, call, h1⟩ := C72_word ht hc hi hr.run hm hw e
    obtain ⟨x, h2, _⟩ := h1 [] S .nil e
    rw [hq t] at h2; cases h2

/-- C47 for quiet states: when all threads are idle, a `Read` that runs alone ends and returns what the
map holds after the history, provided that its route meets no removal mark.  (The proviso is needed:
`C47_false`.) -/
theorem C72_quiet_read_partial (ht : cfg.thr ≤ cfg.maxDelta) (hc : CfgOK2 cfg) {m : K → Option V}
    {sh : Sh K V} (hi : Init cfg m sh) {h : List (Spec.Event K V)} {S : Sys K V}
    (hr : Run cfg (Sys.start sh) h S) (hq : ∀ t, S.th t = .idle) :
    ∃ mS ops, Spec.Accepts ⟨m, fun _ => .idle⟩ h ⟨mS, ops⟩ ∧ ∀ key,
      (∀ p b, Spec.Route S.sh key true p → S.sh.mt p ≠ some (.removed b)) →
      ∃ N, ∀ f, N ≤ f → ∃ n, Alone n S.sh (runOp cfg f (.read key)) S.sh
        (.ret (.payload (mS key))) := by
  obtain ⟨mS, ops, h1, h2⟩ := C47_quiet_read_partial hc hi hr
  refine ⟨mS, ops, h1, fun key hk => h2 key ⟨hk, fun p c w _ hm _ hw e => ?_⟩⟩
  obtain ⟨t, call, h3⟩ := C72_word ht hc hi hr hm (childStep_word hw) e
  obtain ⟨x, h4, _⟩ := h3 [] S .nil e
  rw [hq t] at h4; cases h4

/-! ## Examples -/

section
variable [DecidableEq V]

/-- The action lets no compare-and-swap fail spuriously. -/
def Act.sure : Act K V → Bool
  | .step _ ok => ok
  | _ => true

theorem exec_sure {S S' : Sys K V} {a : Act K V} {l : Option (Spec.Event K V)}
    (h : exec cfg S a = some (l, S')) (ha : Act.sure a = true) : SureStep cfg S l S' := by
  have h' := exec_sound h
  cases l with
  | some e => exact .event h'
  | none =>
    cases a with
    | step t ok =>
      cases ha
      simp only [exec] at h
      split at h
      · cases h
      · split at h
        · cases h
        · cases h; exact .access _ _ _ _ _ _ ‹_› (.firm (aexec_firm ‹_›))
    | op t f o => simp only [exec] at h; split at h <;> cases h
    | scan t f b e => simp only [exec] at h; split at h <;> cases h
    | next t f => simp only [exec] at h; split at h <;> cases h
    | ret t => simp only [exec] at h; split at h <;> cases h

theorem execs_sure {S₀ : Sys K V} : ∀ {as : List (Act K V)}
    {h h' : List (Spec.Event K V)} {S S' : Sys K V}, execs cfg as (h, S) = some (h', S') →
    as.all Act.sure = true → SureRun cfg S₀ h.reverse S → SureRun cfg S₀ h'.reverse S'
  | [], h, h', S, S', e, _, hr => by cases e; exact hr
  | a :: as, h, h', S, S', e, ha, hr => by
    rw [List.all_cons, Bool.and_eq_true] at ha
    simp only [execs] at e
    split at e
    · cases e
    · exact execs_sure e ha.2 (hr.tau (exec_sure ‹_› ha.1))
    · refine execs_sure e ha.2 ?_
      rw [List.reverse_cons]
      exact hr.event (exec_sure ‹_› ha.1)

theorem finish_sure {S₀ : Sys K V} {t : Nat} : ∀ {n : Nat}
    {h h' : List (Spec.Event K V)} {S S' : Sys K V}, finish cfg t n (h, S) = some (h', S') →
    SureRun cfg S₀ h.reverse S → SureRun cfg S₀ h'.reverse S'
  | 0, h, h', S, S', e, hr => by cases e; exact hr
  | n + 1, h, h', S, S', e, hr => by
    simp only [finish] at e
    split at e
    · exact finish_sure e (hr.tau (exec_sure ‹_› rfl))
    · cases e; exact hr

/-- The command lets no compare-and-swap fail spuriously. -/
def Cmd.sure : Cmd K V → Bool
  | .acts as => as.all Act.sure
  | _ => true

theorem cexec_sure {S₀ : Sys K V} {c : Cmd K V} {h h' : List (Spec.Event K V)}
    {S S' : Sys K V} (e : cexec cfg (h, S) c = some (h', S')) (hc : Cmd.sure c = true)
    (hr : SureRun cfg S₀ h.reverse S) : SureRun cfg S₀ h'.reverse S' := by
  cases c with
  | acts as => exact execs_sure e hc hr
  | steps t n => exact execs_sure e (by simp [Act.sure]) hr
  | call t n o =>
    simp only [cexec, Option.bind_eq_some_iff] at e
    obtain ⟨⟨h2, S2⟩, ⟨⟨h1, S1⟩, e1, e2⟩, e3⟩ := e
    exact execs_sure e3 rfl (finish_sure e2 (execs_sure e1 rfl hr))
  | fin t n =>
    simp only [cexec, Option.bind_eq_some_iff] at e
    obtain ⟨⟨h1, S1⟩, e1, e2⟩ := e
    exact execs_sure e2 rfl (finish_sure e1 hr)

theorem cexecs_sure {S₀ : Sys K V} : ∀ {cs : List (Cmd K V)}
    {h h' : List (Spec.Event K V)} {S S' : Sys K V}, cexecs cfg cs (h, S) = some (h', S') →
    cs.all Cmd.sure = true → SureRun cfg S₀ h.reverse S → SureRun cfg S₀ h'.reverse S'
  | [], h, h', S, S', e, _, hr => by cases e; exact hr
  | c :: cs, h, h', S, S', e, hc, hr => by
    rw [List.all_cons, Bool.and_eq_true] at hc
    simp only [cexecs, Option.bind_eq_some_iff] at e
    obtain ⟨⟨h1, S1⟩, e1, e2⟩ := e
    exact cexecs_sure e2 hc.2 (cexec_sure e1 hc.1 hr)

theorem scenario_sure {cs : List (Cmd K V)} {α : Type} {x : α}
    (f : List (Spec.Event K V) → Sys K V → α)
    (e : ((scenario cfg cs).map fun y => f y.1 y.2) = some x) (hc : cs.all Cmd.sure = true) :
    ∃ h S, SureRun cfg (Sys.start (initSh cfg)) h S ∧ f h S = x := by
  rw [Option.map_eq_some_iff] at e
  obtain ⟨⟨h, S⟩, e1, e2⟩ := e
  simp only [scenario, Option.map_eq_some_iff] at e1
  obtain ⟨⟨h1, S1⟩, e1, e3⟩ := e1
  cases e3
  exact ⟨_, _, cexecs_sure e1 hc .nil, e2⟩

end

/-- Thread 0 inserts 1 and appends the record of a second insertion; thread 1 waits. -/
def exWaiting : List (Cmd Nat Nat) :=
  [.call 0 9 (.insert 1 1), .acts [.op 0 9 (.insert 2 2)], .steps 0 4, .acts [.op 1 9 (.insert 3 3)],
    .steps 1 4]

/-- The load a thread is about to make. -/
def loadAt (S : Sys K V) (t : Nat) : Option PID :=
  match S.th t with
  | .run _ (.load p _) => some p
  | _ => none

/-- The theorem about pages speaks about states that occur: page 1 waits for thread 0, and thread 1
reads it again and again; `C72_released` yields the thread that ends this. -/
example : ∃ (h : List (Spec.Event Nat Nat)) (S : Sys Nat Nat) (c : Chain Nat Nat),
    SureRun waitCfg (Sys.start (initSh waitCfg)) h S ∧ S.sh.mt 1 = some c ∧
    c.needWait waitCfg = true ∧ loadAt S 1 = some 1 ∧ ∃ t call x, S.th t = .run call x ∧
      ∀ n S', Meanwhile waitCfg 1 c t S n S' → n ≤ 4 ∧ ∃ x', S'.th t = .run call x' ∧
        (x' = .stuck ∨ ∃ sh'' x'', Sure S'.sh x' sh'' x'') := by
  obtain ⟨h, S, h1, h2⟩ := scenario_sure (cfg := waitCfg) (cs := exWaiting)
    (fun _ S => ((S.sh.mt 1).map fun c => c.needWait waitCfg, loadAt S 1))
    (x := (some true, some 1)) (by decide +kernel) (by decide)
  simp only [Prod.mk.injEq, Option.map_eq_some_iff] at h2
  obtain ⟨⟨c, h2, h3⟩, h4⟩ := h2
  exact ⟨h, S, c, h1, h2, h3, h4, C72_released (by decide) waitCfg_ok .empty h1 h2 h3⟩

set_option maxRecDepth 100000 in
/-- An unset word in the table: the state of `C42_false`. -/
example : ∃ (h : List (Spec.Event Nat Nat)) (S : Sys Nat Nat) (c : Chain Nat Nat),
    Run mixCfg (Sys.start (initSh mixCfg)) h S ∧ S.sh.mt 16 = some c ∧ 0 ∈ c.words ∧
    S.sh.cells 0 = 0 ∧ ∃ t call, ∀ h' S', Run mixCfg S h' S' → S'.sh.cells 0 = 0 →
      ∃ x, S'.th t = .run call x ∧ ∀ r, x ≠ .ret r := by
  obtain ⟨h, S, h1, _, h2⟩ := scenario_witness (cfg := mixCfg) (cs := exSelfWait)
    (fun _ S => ((S.sh.mt 16).map fun c => c.words, S.sh.cells 0))
    (x := (some [0], 0)) (by decide)
  simp only [Prod.mk.injEq, Option.map_eq_some_iff] at h2
  obtain ⟨⟨c, h2, h3⟩, h4⟩ := h2
  have h5 : 0 ∈ c.words := by rw [h3]; exact List.mem_singleton.2 rfl
  exact ⟨h, S, c, h1, h2, h5, h4, C72_word (by decide) mixCfg_ok .empty h1 h2 h5 h4⟩

/-- A quiet state after a merge, with an index-delete record in the table. -/
example : ∃ (h : List (Spec.Event Nat Nat)) (S : Sys Nat Nat) (c : Chain Nat Nat),
    SureRun smallCfg (Sys.start (initSh smallCfg)) h S ∧ (∀ t, S.th t = .idle) ∧
    S.sh.mt 3 = some c ∧ c.words = [0] ∧ S.sh.cells 0 = 1 ∧ c.needWait smallCfg = false := by
  obtain ⟨h, S, h1, h2⟩ := scenario_sure (cfg := smallCfg)
    (cs := exIns ((List.range 12).map fun i => 100 * (i + 1)) ++ exDel [100, 200, 300, 400])
    (fun h S => (quietAt h S, (S.sh.mt 3).map fun c => c.words, S.sh.cells 0))
    (x := (true, some [0], 1)) (by decide +kernel) (by decide)
  simp only [Prod.mk.injEq, Option.map_eq_some_iff] at h2
  obtain ⟨hq, ⟨c, h2, h3⟩, h4⟩ := h2
  have hq' := quietAt_spec h1.run hq
  exact ⟨h, S, c, h1, hq', h2, h3, h4,
    (C72_quiet (by decide) smallCfg_ok .empty h1 hq' h2).1⟩

/-- The condition of `C72_quiet_read_partial` in the same state, which has a removal mark elsewhere. -/
example : ∃ (h : List (Spec.Event Nat Nat)) (S : Sys Nat Nat),
    Run smallCfg (Sys.start (initSh smallCfg)) h S ∧ (∀ t, S.th t = .idle) ∧
    (∃ p b, S.sh.mt p = some (.removed b)) ∧
    ∀ key p b, Spec.Route S.sh key true p → S.sh.mt p ≠ some (.removed b) := by
  obtain ⟨h, S, h1, h2⟩ := scenario_sure (cfg := smallCfg)
    (cs := exIns ((List.range 12).map fun i => 100 * (i + 1)) ++ exDel [100, 200, 300, 400])
    (fun h S => (quietAt h S, h.all fun e => decide (e.thread = 0),
      (List.range S.sh.npid).any fun p => isMark (S.sh.mt p)))
    (x := (true, true, true)) (by decide +kernel) (by decide)
  simp only [Prod.mk.injEq, List.all_eq_true, decide_eq_true_eq, List.any_eq_true] at h2
  obtain ⟨hq, ht, p, _, hp⟩ := h2
  have hq' := quietAt_spec h1.run hq
  refine ⟨h, S, h1.run, hq', ⟨p, ?_⟩, fun key =>
    (C47_one_thread_calm smallCfg_ok .empty h1.run ht (hq' 0) key true).1⟩
  unfold isMark at hp
  split at hp
  · next c hc =>
    cases c with
    | removed b => exact ⟨b, hc⟩
    | base n => cases hp
    | delta d nx => cases hp
  · cases hp

/-! ## What the assumptions are for -/

/-- A configuration in which visitors wait before anyone consolidates. -/
def lateCfg : Cfg Nat := { roomyCfg with thr := 3, maxDelta := 2 }

theorem lateCfg_ok : CfgOK2 lateCfg :=
  { leaf := by decide, idx := by decide, leafPos := by decide, idxPos := by decide,
    hdrPos := by decide, maxPos := by decide, rootFits := by decide, min := by decide,
    minVar := by decide, keys := fun _ => Nat.le_refl _, var := Or.inl rfl }

/-- That `DELTA_RECORD_NUM_THRESHOLD` does not exceed `MAX_DELTA_RECORD_NUM` (`CMakeLists.txt` 25-26,
both can be set by the user, nothing checks them) is needed: otherwise two insertions by one thread
leave a quiet tree whose only page makes every writer wait, forever. -/
theorem C72_threshold_needed : ∃ (h : List (Spec.Event Nat Nat)) (S : Sys Nat Nat) (c : Chain Nat Nat),
    CfgOK2 lateCfg ∧ SureRun lateCfg (Sys.start (initSh lateCfg)) h S ∧ (∀ t, S.th t = .idle) ∧
    S.sh.mt 1 = some c ∧ c.needWait lateCfg = true := by
  obtain ⟨h, S, h1, h2⟩ := scenario_sure (cfg := lateCfg) (cs := exIns [1, 2])
    (fun h S => (quietAt h S, (S.sh.mt 1).map fun c => c.needWait lateCfg))
    (x := (true, some true)) (by decide +kernel) (by decide)
  simp only [Prod.mk.injEq, Option.map_eq_some_iff] at h2
  obtain ⟨hq, c, h2, h3⟩ := h2
  exact ⟨h, S, c, lateCfg_ok, h1, quietAt_spec h1.run hq, h2, h3⟩

end BwTree.Props
