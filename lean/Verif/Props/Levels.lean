import Verif.Props.Races
import Verif.Conc.Flags

/-!
# When the events of `Flag` do not happen (C08, C09, C10)

`C08_false`, `C09_false` and `C10_false` need a removal mark, and those of C08 need the root to be
replaced while the call runs.  Both are necessary.
-/

namespace BwTree.Props

open BwTree

set_option linter.unusedSectionVars false

variable {K V : Type} [LinearOrder K] {cfg : Cfg K}

/-- Which events belong to which calls: only `Read` can use an empty stack, only a scan without a
begin key can follow a null pointer, only a writing operation can miss a target, and a scan without
a begin key never confuses levels. -/
theorem C08_C10_events_partial {m : K → Option V} {S : Sys K V} (hr : Reachable cfg m S) {t : Nat}
    {c : Spec.Call K V} {k : Flag} (ht : S.th t = .run c (.flag k)) :
    (k = .emptyStack → ∃ key, c = .op (.read key)) ∧
    (k = .nullNext → ∃ e, c = .visit none e) ∧
    (k = .targetMissed → ∃ o, c = .op o ∧ ∀ key, o ≠ .read key) ∧
    (k = .leafAsInner ∨ k = .innerAsLeaf → ∀ e, c ≠ .visit none e) := by
  have h := hr.flagsOK t c _ ht
  change c.flags k at h
  cases c with
  | op o =>
    cases o <;> rcases h with h | h | h <;> subst h <;> simp
  | visit b e =>
    cases b with
    | none => cases h; simp
    | some x => rcases h with h | h <;> subst h <;> simp

/-- The root pointer stays what it is in `S₀`. -/
def SameRoot (S₀ S : Sys K V) : Prop := S.sh.root = S₀.sh.root

/-- No slot of the mapping table carries a removal mark. -/
def NoMark (S : Sys K V) : Prop := ∀ p b, S.sh.mt p ≠ some (.removed b)

/-- While the root pointer does not change, a call that begins in `S₀` never confuses levels,
`Read` uses an empty stack only if the root is a leaf, and a scan with a begin key meets no event at
all.  (Full statement of C08: without the assumption on the root.) -/
theorem C08_same_root_partial (hc : CfgOK2 cfg) {m : K → Option V} {S₀ S : Sys K V}
    (h₀ : Reachable cfg m S₀) {t : Nat} (hi : S₀.th t = .idle)
    (hr : RunIn cfg (SameRoot S₀) S₀ S) {k : Flag} (hk : flagAt S t = some k) :
    k = .targetMissed ∨ k = .nullNext ∨
      (k = .emptyStack ∧ ∃ c, S₀.sh.mt S₀.sh.root = some c ∧ c.isLeaf = true) := by
  obtain ⟨s, hS⟩ := h₀.sound hc
  obtain ⟨G, hG⟩ := hS.inv.p.root
  have hroot : s.root = S₀.sh.root := congrArg Sh.root hS.sh
  obtain ⟨s', hS', _⟩ := (hS.assume hi (.fixed s.root G)).runIn hc (P := SameRoot S₀) (by
    intro s1 S1 hm hs hp u
    by_cases e : u = t
    · simp only [e, if_true]
      refine ⟨?_, hm.info _ _ hG⟩
      rw [hroot, ← hp, ← hs]
    · simp only [e, if_false]; trivial) hr
  have := hS'.flag hk
  simp only [if_true] at this
  rcases this with h | h | ⟨h1, h2⟩
  · exact Or.inl h
  · exact Or.inr (Or.inl h)
  · refine Or.inr (Or.inr ⟨h1, ?_⟩)
    subst h2
    obtain ⟨c, e1, e2⟩ := hS.inv.slot_leaf hG
    refine ⟨c, ?_, by simpa using e2⟩
    rw [← hS.sh]; exact e1

/-- While there is no removal mark, a call that begins in `S₀` meets none of the events, except that
the search of a writing operation for the parent of a split index node may miss its target. -/
theorem C08_no_mark_partial (hc : CfgOK2 cfg) {m : K → Option V} {S₀ S : Sys K V}
    (h₀ : Reachable cfg m S₀) {t : Nat} (hi : S₀.th t = .idle) (hr : RunIn cfg NoMark S₀ S)
    {k : Flag} (hk : flagAt S t = some k) : k = .targetMissed := by
  obtain ⟨s, hS⟩ := h₀.sound hc
  obtain ⟨s', hS', _⟩ := (hS.assume hi .nomark).runIn hc (P := NoMark) (by
    intro s1 S1 hm hs hp u
    by_cases e : u = t
    · simp only [e, if_true]
      intro p b h
      refine hp p b ?_
      rw [← hs]; exact h
    · simp only [e, if_false]; trivial) hr
  have := hS'.flag hk
  simp only [if_true] at this
  exact this

theorem flagAt_run {S : Sys K V} {t : Nat} {k : Flag} (h : flagAt S t = some k) :
    ∃ c, S.th t = .run c (.flag k) := by
  unfold flagAt at h
  split at h
  · cases h; exact ⟨_, ‹_›⟩
  · cases h

/-- While there is no removal mark, a `Read` or a node visit meets no event: it never uses an empty
stack, never follows a null pointer and never confuses levels.  (Full statements of C09 and C10:
without the assumption on marks.) -/
theorem C09_C10_no_mark_partial (hc : CfgOK2 cfg) {m : K → Option V} {S₀ S : Sys K V}
    (h₀ : Reachable cfg m S₀) {t : Nat} (hi : S₀.th t = .idle) (hr : RunIn cfg NoMark S₀ S)
    {c : Spec.Call K V} {p : Prog K V (Out K V)} (ht : S.th t = .run c p)
    (hcall : (∃ key, c = .op (.read key)) ∨ ∃ b e, c = .visit b e) : flagAt S t = none := by
  cases hk : flagAt S t with
  | none => rfl
  | some k =>
    exfalso
    have hm := C08_no_mark_partial hc h₀ hi hr hk
    obtain ⟨c', h1⟩ := flagAt_run hk
    obtain ⟨o, h2, h3⟩ := (C08_C10_events_partial (hr.reachable h₀) h1).2.2.1 hm
    rw [ht] at h1
    have : c = c' := by cases h1; rfl
    subst this
    rcases hcall with ⟨key, e⟩ | ⟨b, e, e'⟩
    · rw [e] at h2; exact h3 key (by cases h2; rfl)
    · rw [e'] at h2; cases h2

/-- While the root pointer does not change and is not a leaf, a `Read`, and a scan with a begin key,
meets no event. -/
theorem C09_same_root_partial (hc : CfgOK2 cfg) {m : K → Option V} {S₀ S : Sys K V}
    (h₀ : Reachable cfg m S₀) {t : Nat} (hi : S₀.th t = .idle)
    (hr : RunIn cfg (SameRoot S₀) S₀ S)
    (hl : ∀ c, S₀.sh.mt S₀.sh.root = some c → c.isLeaf = false)
    {c : Spec.Call K V} {p : Prog K V (Out K V)} (ht : S.th t = .run c p)
    (hcall : (∃ key, c = .op (.read key)) ∨ ∃ b e, c = .visit (some b) e) : flagAt S t = none := by
  cases hk : flagAt S t with
  | none => rfl
  | some k =>
    exfalso
    obtain ⟨c', h1⟩ := flagAt_run hk
    have hcc : c = c' := by rw [ht] at h1; cases h1; rfl
    subst hcc
    obtain ⟨e1, e2, e3, _⟩ := C08_C10_events_partial (hr.reachable h₀) h1
    rcases C08_same_root_partial hc h₀ hi hr hk with hm | hm | ⟨_, x, h3, h4⟩
    · obtain ⟨o, h2, h3⟩ := e3 hm
      rcases hcall with ⟨key, e⟩ | ⟨b, e, e'⟩
      · rw [e] at h2; exact h3 key (by cases h2; rfl)
      · rw [e'] at h2; cases h2
    · obtain ⟨e, h2⟩ := e2 hm
      rcases hcall with ⟨key, e⟩ | ⟨b, e, e'⟩
      · rw [e] at h2; cases h2
      · rw [e'] at h2; cases h2
    · rw [hl x h3] at h4; cases h4

/-! ### Examples -/

section
variable [DecidableEq V]

/-- A schedule that checks every state it leaves. -/
def execsIn (cfg : Cfg K) (P : Sys K V → Bool) : List (Act K V) → Sys K V → Option (Sys K V)
  | [], S => some S
  | a :: as, S => if P S then (exec cfg S a).bind fun x => execsIn cfg P as x.2 else none

theorem execsIn_sound {P : Sys K V → Bool} {Q : Sys K V → Prop} {m : K → Option V} {S₀ : Sys K V}
    (h₀ : Reachable cfg m S₀) (hQ : ∀ S, Reachable cfg m S → P S = true → Q S) :
    ∀ {as : List (Act K V)} {S S' : Sys K V}, execsIn cfg P as S = some S' → RunIn cfg Q S₀ S →
      RunIn cfg Q S₀ S'
  | [], S, S', e, hr => by cases e; exact hr
  | a :: as, S, S', e, hr => by
    simp only [execsIn] at e
    split at e
    · next hp =>
      rw [Option.bind_eq_some_iff] at e
      obtain ⟨⟨l, S1⟩, e1, e2⟩ := e
      exact execsIn_sound h₀ hQ e2 (.step hr (hQ S (hr.reachable h₀) hp) (exec_sound e1))
    · cases e

/-- As `finish`, with the check. -/
def finishIn (cfg : Cfg K) (P : Sys K V → Bool) (t : Nat) : Nat → Sys K V → Option (Sys K V)
  | 0, S => some S
  | n + 1, S => if P S then match exec cfg S (.step t true) with
      | some (none, S') => finishIn cfg P t n S'
      | _ => some S
    else none

theorem finishIn_sound {P : Sys K V → Bool} {Q : Sys K V → Prop} {m : K → Option V} {S₀ : Sys K V}
    (h₀ : Reachable cfg m S₀) (hQ : ∀ S, Reachable cfg m S → P S = true → Q S) {t : Nat} :
    ∀ {n : Nat} {S S' : Sys K V}, finishIn cfg P t n S = some S' → RunIn cfg Q S₀ S →
      RunIn cfg Q S₀ S'
  | 0, S, S', e, hr => by cases e; exact hr
  | n + 1, S, S', e, hr => by
    simp only [finishIn] at e
    split at e
    · next hp =>
      split at e
      · next S1 e1 =>
        exact finishIn_sound h₀ hQ e (.step hr (hQ S (hr.reachable h₀) hp) (exec_sound e1))
      · cases e; exact hr
    · cases e

/-- Scenarios that check every state they leave. -/
def cexecsIn (cfg : Cfg K) (P : Sys K V → Bool) : List (Cmd K V) → Sys K V → Option (Sys K V)
  | [], S => some S
  | .acts as :: cs, S => (execsIn cfg P as S).bind (cexecsIn cfg P cs)
  | .steps t n :: cs, S =>
    (execsIn cfg P (List.replicate n (.step t true)) S).bind (cexecsIn cfg P cs)
  | .call t n o :: cs, S => (((execsIn cfg P [.op t n o] S).bind (finishIn cfg P t n)).bind
      (execsIn cfg P [.ret t])).bind (cexecsIn cfg P cs)
  | .fin t n :: cs, S =>
    ((finishIn cfg P t n S).bind (execsIn cfg P [.ret t])).bind (cexecsIn cfg P cs)

theorem cexecsIn_sound {P : Sys K V → Bool} {Q : Sys K V → Prop} {m : K → Option V} {S₀ : Sys K V}
    (h₀ : Reachable cfg m S₀) (hQ : ∀ S, Reachable cfg m S → P S = true → Q S) :
    ∀ {cs : List (Cmd K V)} {S S' : Sys K V}, cexecsIn cfg P cs S = some S' → RunIn cfg Q S₀ S →
      RunIn cfg Q S₀ S' := by
  intro cs
  induction cs with
  | nil => intro S S' e hr; cases e; exact hr
  | cons c cs ih =>
    intro S S' e hr
    cases c with
    | acts as =>
      simp only [cexecsIn, Option.bind_eq_some_iff] at e
      obtain ⟨S1, e1, e2⟩ := e
      exact ih e2 (execsIn_sound h₀ hQ e1 hr)
    | steps t n =>
      simp only [cexecsIn, Option.bind_eq_some_iff] at e
      obtain ⟨S1, e1, e2⟩ := e
      exact ih e2 (execsIn_sound h₀ hQ e1 hr)
    | call t n o =>
      simp only [cexecsIn, Option.bind_eq_some_iff] at e
      obtain ⟨S1, ⟨S2, ⟨S3, e1, e2⟩, e3⟩, e4⟩ := e
      exact ih e4 (execsIn_sound h₀ hQ e3 (finishIn_sound h₀ hQ e2 (execsIn_sound h₀ hQ e1 hr)))
    | fin t n =>
      simp only [cexecsIn, Option.bind_eq_some_iff] at e
      obtain ⟨S1, ⟨S2, e1, e2⟩, e4⟩ := e
      exact ih e4 (execsIn_sound h₀ hQ e2 (finishIn_sound h₀ hQ e1 hr))

end

/-- Is there no mark?  (Decidable.) -/
def noMarkAt (S : Sys K V) : Bool := (List.range S.sh.npid).all fun p => !isMark (S.sh.mt p)

theorem noMarkAt_spec (hc : CfgOK2 cfg) {m : K → Option V} {S : Sys K V} (hr : Reachable cfg m S)
    (h : noMarkAt S = true) : NoMark S := by
  intro p b hp
  obtain ⟨s, hS⟩ := hr.sound hc
  by_cases e : p < S.sh.npid
  · have := List.all_eq_true.mp h p (List.mem_range.mpr e)
    rw [hp] at this; cases this
  · have hn : s.npid ≤ p := by
      have : s.npid = S.sh.npid := congrArg Sh.npid hS.sh
      rw [this]; exact Nat.le_of_not_lt e
    have := (hS.inv.p.fresh p (Or.inl hn)).1
    have hmt : s.mt p = S.sh.mt p := congrFun (congrArg Sh.mt hS.sh) p
    rw [hmt, hp] at this; cases this

/-- A reader sleeps before its leaf, the leaf is merged into its left sibling, and the reader backs
out of the removal mark; the root stays. -/
example : ∃ S₀ S : Sys Nat Nat, Reachable smallCfg (fun _ => none) S₀ ∧ S₀.th 1 = .idle ∧
    RunIn smallCfg (SameRoot S₀) S₀ S ∧ S.sh.mt 2 = some (.removed true) ∧
    S.th 1 = .run (.op (.read 30)) (.ret (.res (.payload (some 2)), none)) := by
  have h : ((scenario smallCfg (exMerge 0)).bind fun x => (execsIn smallCfg
      (fun S => S.sh.root == x.2.sh.root)
      ([.op 1 60 (.read 30)] ++ List.replicate 4 (.step 1 true) ++ List.replicate 15 (.step 0 true) ++
        List.replicate 4 (.step 1 true)) x.2).map fun S =>
      (idleAt x.2 1, S.sh.mt 2, (match S.th 1 with
        | .run (.op (.read 30)) (.ret (.res (.payload (some 2)), none)) => true
        | _ => false))) = some (true, some (.removed true), true) := by decide
  rw [Option.bind_eq_some_iff] at h
  obtain ⟨⟨a, S₀⟩, h1, h2⟩ := h
  rw [Option.map_eq_some_iff] at h2
  obtain ⟨S, h3, h4⟩ := h2
  simp only [Prod.mk.injEq] at h4
  obtain ⟨e1, e2, e3⟩ := h4
  have hr : Reachable smallCfg (fun _ => none) S₀ := ⟨_, a, .empty, scenario_sound h1⟩
  refine ⟨S₀, S, hr, idleAt_spec e1, execsIn_sound hr (fun S _ hp => eq_of_beq hp) h3 .nil, e2, ?_⟩
  split at e3
  · assumption
  · cases e3

/-- A reader sleeps before the root leaf, the leaf is split under a new root, and the reader goes on
to the right sibling; there is no mark. -/
example : ∃ S₀ S : Sys Nat Nat, Reachable smallCfg (fun _ => none) S₀ ∧ S₀.th 1 = .idle ∧
    RunIn smallCfg NoMark S₀ S ∧ S₀.sh.root ≠ S.sh.root ∧
    S.th 1 = .run (.op (.read 70)) (.ret (.res (.payload (some 6)), none)) := by
  have h : ((scenario smallCfg (exSplit 0)).bind fun x => (execsIn smallCfg noMarkAt
      ([.op 1 60 (.read 70)] ++ List.replicate 2 (.step 1 true) ++ List.replicate 12 (.step 0 true) ++
        List.replicate 2 (.step 1 true)) x.2).map fun S =>
      (idleAt x.2 1, decide (x.2.sh.root ≠ S.sh.root), (match S.th 1 with
        | .run (.op (.read 70)) (.ret (.res (.payload (some 6)), none)) => true
        | _ => false))) = some (true, true, true) := by decide
  rw [Option.bind_eq_some_iff] at h
  obtain ⟨⟨a, S₀⟩, h1, h2⟩ := h
  rw [Option.map_eq_some_iff] at h2
  obtain ⟨S, h3, h4⟩ := h2
  simp only [Prod.mk.injEq] at h4
  obtain ⟨e1, e2, e3⟩ := h4
  have hr : Reachable smallCfg (fun _ => none) S₀ := ⟨_, a, .empty, scenario_sound h1⟩
  refine ⟨S₀, S, hr, idleAt_spec e1, execsIn_sound hr (fun S hS hp =>
    noMarkAt_spec smallCfg_ok hS hp) h3 .nil, of_decide_eq_true e2, ?_⟩
  split at e3
  · assumption
  · cases e3

/-! ### The event that is left -/

/-- Inserts of keys by thread 0. -/
def exKeys (ks : List Nat) : List (Cmd Nat Nat) := ks.map fun k => .call 0 100 (.insert k k)

/-- Page 3 is the root when thread 1 begins.  It is split under a new root.  Thread 2 splits leaf 1
at 1100 into leaf 8, up to 2000, and sleeps before it posts leaf 8; thread 0 splits leaf 8 at 1200
and posts the right part; thread 1 splits page 3 at 1200 into page 12 and, as its stack ends there,
must search for the parent; now thread 2 posts leaf 8 in page 3, as covering [1100, 2000). -/
def exHidden : List (Cmd Nat Nat) :=
  [.acts [.op 1 100 (.insert 1600 1)], .steps 1 1] ++ exKeys [6000, 1100, 1200] ++
    [.acts [.op 2 100 (.insert 1300 1)], .steps 2 12] ++ exKeys [1400, 1500] ++
    [.steps 1 15, .steps 2 2, .steps 1 7]

set_option maxRecDepth 100000 in
/-- The exception in `C08_no_mark_partial` is real: there is a call and an execution without any
removal mark in which the call's search for the parent of the index node it has split goes past the
node, because an index record of the left node reaches beyond its upper bound and so hides the right
node.  The code then takes the node it finds for the parent. -/
theorem C08_target_missed : ∃ S₀ S : Sys Nat Nat, Reachable tinyCfg (fun _ => none) S₀ ∧
    S₀.th 1 = .idle ∧ RunIn tinyCfg NoMark S₀ S ∧ flagAt S 1 = some .targetMissed := by
  have h : ((scenario tinyCfg (exKeys [1000, 2000, 3000, 4000, 5000])).bind fun x =>
      (cexecsIn tinyCfg noMarkAt exHidden x.2).map fun S => (idleAt x.2 1, flagAt S 1)) =
      some (true, some .targetMissed) := by decide
  rw [Option.bind_eq_some_iff] at h
  obtain ⟨⟨a, S₀⟩, h1, h2⟩ := h
  rw [Option.map_eq_some_iff] at h2
  obtain ⟨S, h3, h4⟩ := h2
  simp only [Prod.mk.injEq] at h4
  have hr : Reachable tinyCfg (fun _ => none) S₀ := ⟨_, a, .empty, scenario_sound h1⟩
  exact ⟨S₀, S, hr, idleAt_spec h4.1, cexecsIn_sound hr (fun S hS hp =>
    noMarkAt_spec tinyCfg_ok hS hp) h3 .nil, h4.2⟩

end BwTree.Props
