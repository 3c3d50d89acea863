import Verif.Props.Structure
import Verif.Conc.Solo

/-!
# Where the code is not robust against concurrent structure modifications (C08, C09, C10, C47)

Each negation is witnessed by one schedule, executed by the interpreter of `Conc/Exec.lean`.
-/

namespace BwTree.Props

open BwTree

set_option linter.unusedSectionVars false

/-- Pages of 128 bytes with 16-byte keys and 8-byte payloads: three records per node.  Every delta
triggers consolidation. -/
def tinyCfg : Cfg Nat :=
  { page := 128, hdr := 48, leafLen := 24, idxLen := 24, minSize := 72, thr := 1, maxDelta := 64 }

theorem tinyCfg_ok : CfgOK2 tinyCfg := by
  refine ⟨⟨?_, ?_, ?_, ?_, ?_, fun _ => Nat.le_refl _, Or.inl rfl⟩, ?_, ?_, ?_, Or.inl rfl⟩ <;> decide

/-- As `smallCfg`, but chains may hold three deltas. -/
def lazyCfg : Cfg Nat :=
  { page := 128, hdr := 32, leafLen := 16, idxLen := 16, minSize := 48, thr := 4, maxDelta := 64 }

theorem lazyCfg_ok : CfgOK2 lazyCfg := by
  refine ⟨⟨?_, ?_, ?_, ?_, ?_, fun _ => Nat.le_refl _, Or.inl rfl⟩, ?_, ?_, ?_, Or.inl rfl⟩ <;> decide

/-- Inserts of the keys `10, 20, …` by thread 0. -/
def exFill (n : Nat) : List (Cmd Nat Nat) :=
  (List.range n).map fun i => .call 0 100 (.insert (10 * (i + 1)) i)

/-! ## C08: levels -/

/-- Thread 1 reads key 40 in a tree of height three and sleeps before it loads the leaf; thread 0
removes keys until the tree has height two. -/
def exShrink : List (Cmd Nat Nat) :=
  exFill 7 ++ [.acts [.op 1 100 (.read 40)], .steps 1 6, .call 0 100 (.update 40 1),
    .call 0 100 (.delete 70), .call 0 100 (.delete 60), .call 0 100 (.delete 50),
    .call 0 100 (.delete 40), .steps 1 6]

/-- C08 does not hold: a reader whose ancestors have all been removed restarts at the new root,
one level lower, and takes the leaf it reaches for an index node (its payloads are then used as page
IDs). -/
theorem C08_false : ∃ S : Sys Nat Nat, Reachable tinyCfg (fun _ => none) S ∧
    flagAt S 1 = some .leafAsInner ∧ S.th 0 = .idle := by
  obtain ⟨h, S, _, h2, h3⟩ := scenario_witness (cfg := tinyCfg) (cs := exShrink)
    (fun _ S => (flagAt S 1, idleAt S 0)) (x := (some .leafAsInner, true)) (by decide)
  simp only [Prod.mk.injEq] at h3
  exact ⟨S, h2, h3.1, idleAt_spec h3.2⟩

/-! ## C09: the ancestor stack of `Read` -/

/-- Thread 0 has put the removal mark on the (small) root leaf, thread 1 reads. -/
def exReadRoot : List (Cmd Nat Nat) := exMark ++ [.steps 0 1, .acts [.op 1 10 (.read 1)], .steps 1 3]

/-- C09 does not hold, with the default parameters: a reader that loads the root leaf while it
carries the temporary removal mark pops its only stack entry and then uses `stack.back()`. -/
theorem C09_false : ∃ S : Sys Nat Nat, Reachable defCfg (fun _ => none) S ∧
    flagAt S 1 = some .emptyStack := by
  obtain ⟨h, S, _, h2, h3⟩ := scenario_witness (cfg := defCfg) (cs := exReadRoot)
    (fun _ S => flagAt S 1) (x := some .emptyStack) (by decide)
  exact ⟨S, h2, h3⟩

/-! ## C10: `Scan` without a begin key -/

/-- The root is an index node with one child; thread 0 has put the removal mark on it; thread 1
scans. -/
def exScanRoot : List (Cmd Nat Nat) :=
  exFill 4 ++ [.call 0 100 (.delete 40), .acts [.op 0 100 (.delete 30)], .steps 0 13,
    .acts [.scan 1 100 none none], .steps 1 2]

/-- C10 does not hold: `GetLeftmostChild` follows the null pointer of a removal mark. -/
theorem C10_false : ∃ S : Sys Nat Nat, Reachable tinyCfg (fun _ => none) S ∧
    flagAt S 1 = some .nullNext := by
  obtain ⟨h, S, _, h2, h3⟩ := scenario_witness (cfg := tinyCfg) (cs := exScanRoot)
    (fun _ S => flagAt S 1) (x := some .nullNext) (by decide)
  exact ⟨S, h2, h3⟩

/-! ## C47: a quiet tree -/

/-- Thread 0 splits leaf 2 and sleeps before it posts leaf 4; thread 1 splits leaf 4 and posts leaf
5; thread 0 posts leaf 4; thread 1 merges leaf 4 into leaf 2.  All calls have returned. -/
def exLate : List (Cmd Nat Nat) :=
  exFill 8 ++ [.acts [.op 0 100 (.insert 90 8)], .steps 0 10, .call 1 100 (.insert 100 9),
    .call 1 100 (.insert 110 10), .fin 0 60, .call 1 100 (.delete 60), .call 1 100 (.update 50 1),
    .call 1 100 (.update 50 2), .call 1 100 (.update 50 3)]

/-- The root sends `key` to a removed leaf. -/
structure DeadEnd (sh : Sh Nat Nat) (key : Nat) (r p : PID) : Prop where
  root : sh.root = r
  inner : ∃ c, sh.mt r = some c ∧ c.isLeaf = false ∧ childStep key true c = .child p
  leaf : sh.mt p = some (.removed true)

/-- After `n` steps the program has fuel left and goes on, or its fuel `f` is used up. -/
def GoesOn {α : Type} (f n : Nat) : Prog Nat Nat α → Prop
  | .load _ _ => True
  | .loadRoot _ => True
  | .stuck => f ≤ n
  | _ => False

theorem GoesOn.mono {α : Type} {f n f' n' : Nat} (h : f ≤ n → f' ≤ n') {q : Prog Nat Nat α}
    (hq : GoesOn f n q) : GoesOn f' n' q := by
  cases q <;> first | trivial | exact h hq

theorem Alone.stuck {α : Type} {n : Nat} {s s' : Sh Nat Nat} {q : Prog Nat Nat α}
    (h : Alone n s .stuck s' q) : GoesOn 0 n q := by
  cases h with
  | refl => exact Nat.le_refl 0
  | step h _ => cases h

theorem Alone.loadInv {α : Type} {n : Nat} {s s' : Sh Nat Nat} {p : PID} {c : Chain Nat Nat}
    {k : Chain Nat Nat → Prog Nat Nat α} {q : Prog Nat Nat α} (hm : s.mt p = some c)
    (h : Alone n s (.load p k) s' q) :
    (∀ f m, GoesOn f m q) ∨ ∃ m, n = m + 1 ∧ Alone m s (k c) s' q := by
  cases h with
  | refl => exact Or.inl fun _ _ => trivial
  | step h1 h2 =>
    cases h1 with
    | load _ _ c' hm' =>
      rw [hm] at hm'; cases hm'
      exact Or.inr ⟨_, rfl, h2⟩
    | loadNull _ _ hm' => rw [hm] at hm'; cases hm'

theorem DeadEnd.readLoop {sh sh' : Sh Nat Nat} {key : Nat} {r p : PID} (h : DeadEnd sh key r p)
    {β : Type} {g : Option Nat → Prog Nat Nat β} : ∀ (f n : Nat) {q : Prog Nat Nat β},
    Alone n sh ((readLoop key f [p, r]).bind g) sh' q → GoesOn f n q
  | 0, n, q, hq => Alone.stuck hq
  | f + 1, n, q, hq => by
    obtain ⟨c, h1, h2, h4⟩ := h.inner
    rcases Alone.loadInv h.leaf hq with h' | ⟨m, rfl, hr⟩
    · exact h' _ _
    replace hq := hr; clear hr
    change Alone m sh
      (((searchChild key true 0 f [r]).bind fun x => BwTree.readLoop key f x.2).bind g) sh' q at hq
    cases f with
    | zero => exact (Alone.stuck hq).mono (fun _ => by omega)
    | succ f =>
      rcases Alone.loadInv h1 hq with h' | ⟨m, rfl, hr⟩
      · exact h' _ _
      replace hq := hr; clear hr
      have hl : c.liveLeaf = false := by simp [Chain.liveLeaf, h2]
      simp only [hl, Bool.false_eq_true, if_false, h4, Prog.bind] at hq
      exact (h.readLoop (f + 1) _ hq).mono (fun _ => by omega)

theorem DeadEnd.read {sh sh' : Sh Nat Nat} {cfg : Cfg Nat} {key : Nat} {r p : PID}
    (h : DeadEnd sh key r p) (f n : Nat) {q : Prog Nat Nat (Spec.Res Nat)}
    (hq : Alone n sh (runOp cfg f (.read key)) sh' q) : GoesOn f n q := by
  obtain ⟨c, h1, h2, h4⟩ := h.inner
  cases hq with
  | refl => trivial
  | step e1 e2 =>
    cases e1
    rw [h.root] at e2
    cases f with
    | zero => exact (Alone.stuck e2).mono (fun _ => by omega)
    | succ f =>
      rcases Alone.loadInv h1 e2 with h' | ⟨m, rfl, hr⟩
      · exact h' _ _
      replace hq := hr; clear hr
      simp only [h2, Bool.false_eq_true, if_false] at hq
      cases f with
      | zero => exact (Alone.stuck hq).mono (fun _ => by omega)
      | succ f =>
        rcases Alone.loadInv h1 hq with h' | ⟨m, rfl, hr⟩
        · exact h' _ _
        replace hq := hr; clear hr
        have hl : c.liveLeaf = false := by simp [Chain.liveLeaf, h2]
        simp only [hl, Bool.false_eq_true, if_false, opKey, h4, Prog.bind] at hq
        rcases Alone.loadInv h.leaf hq with h' | ⟨m, rfl, hr⟩
        · exact h' _ _
        replace hq := hr; clear hr
        exact (h.readLoop (f + 1 + 1) _ hq).mono (fun _ => by omega)

/-- Is `DeadEnd` the case, for a removed leaf?  (Decidable.) -/
def deadEndAt (sh : Sh Nat Nat) (key : Nat) (p : PID) : Bool :=
  (match sh.mt sh.root with
    | some c => !c.isLeaf && (match childStep key true c with | .child q => q == p | _ => false)
    | none => false) &&
  (match sh.mt p with | some (.removed true) => true | _ => false)

theorem deadEndAt_spec {sh : Sh Nat Nat} {key : Nat} {p : PID} (h : deadEndAt sh key p = true) :
    DeadEnd sh key sh.root p := by
  unfold deadEndAt at h
  rw [Bool.and_eq_true] at h
  obtain ⟨h1, h2⟩ := h
  refine ⟨rfl, ?_, ?_⟩
  · split at h1
    · next c hc =>
      rw [Bool.and_eq_true] at h1
      obtain ⟨h3, h4⟩ := h1
      refine ⟨c, hc, by simpa using h3, ?_⟩
      split at h4
      · next q hq => rw [hq, eq_of_beq h4]
      · cases h4
    · cases h1
  · split at h2
    · next c hc => exact hc
    · cases h2

/-- C47 does not hold: there is a reachable state in which every call has returned and in which a
`Read(80)` that runs alone, with any amount of fuel, never returns: it never takes a step other than
loading the root or a page, until its fuel is used up. -/
theorem C47_false : ∃ S : Sys Nat Nat, Reachable lazyCfg (fun _ => none) S ∧
    (∀ t, S.th t = .idle) ∧
    ∀ (f n : Nat) (sh' : Sh Nat Nat) (q : Prog Nat Nat (Spec.Res Nat)),
      Alone n S.sh (runOp lazyCfg f (.read 80)) sh' q → GoesOn f n q := by
  obtain ⟨h, S, h1, h2, h3⟩ := scenario_witness (cfg := lazyCfg) (cs := exLate)
    (fun h S => (quietAt h S, deadEndAt S.sh 80 4)) (x := (true, true)) (by decide)
  simp only [Prod.mk.injEq] at h3
  exact ⟨S, h2, quietAt_spec h1 h3.1, fun f n sh' q => (deadEndAt_spec h3.2).read f n⟩

/-! ### What holds -/

/-- A partial positive answer to C47: in any reachable state, a `Read` that runs alone ends and
returns what the map holds after the history, provided its route meets neither a removal mark nor an
unset word of an index-delete record.  (`C47_false` is a quiet state in which the first proviso
fails.) -/
theorem C47_quiet_read_partial {K V : Type} [LinearOrder K] {cfg : Cfg K} (hc : CfgOK2 cfg)
    {m : K → Option V} {sh : Sh K V} (hi : Init cfg m sh) {h : List (Spec.Event K V)} {S : Sys K V}
    (hr : Run cfg (Sys.start sh) h S) :
    ∃ mS ops, Spec.Accepts ⟨m, fun _ => .idle⟩ h ⟨mS, ops⟩ ∧ ∀ key, Spec.Calm S.sh key true →
      ∃ N, ∀ f, N ≤ f → ∃ n, Alone n S.sh (runOp cfg f (.read key)) S.sh
        (.ret (.payload (mS key))) := by
  obtain ⟨s, h1, h2⟩ := hi.run hc hr
  refine ⟨s.m, s.ops, h2, fun key hk => ?_⟩
  have hsh := h1.sh
  rw [← hsh] at hk ⊢
  obtain ⟨N, h3⟩ := read_yields h1.inv hk
  exact ⟨N, fun f hf => (h3 f hf).alone⟩

/-- Follow the route of `key`; the number is the fuel.  (Decidable.) -/
def routeCheck (sh : Sh Nat Nat) (key : Nat) : Nat → PID → Bool
  | 0, _ => false
  | f + 1, p =>
    match sh.mt p with
    | none => false
    | some c =>
      !c.isRemoved && (if c.isLeaf then
        match c.high with
        | none => true
        | some h => if h ≤ key then routeCheck sh key f c.nextPid else true
      else match childStep key true c with
        | .child q => routeCheck sh key f q
        | .cell w => decide (sh.cells w ≠ 0) && routeCheck sh key f (sh.cells w)
        | .sibling q => routeCheck sh key f q
        | _ => false)

theorem routeCheck_spec {sh : Sh Nat Nat} {key f : Nat} (h : routeCheck sh key f sh.root = true) :
    Spec.Calm sh key true := by
  have hgood : ∀ p, Spec.Route sh key true p → ∃ f, routeCheck sh key f p = true := by
    intro p hp
    induction hp with
    | root => exact ⟨f, h⟩
    | child _ hm hl hc ih =>
      obtain ⟨g, hg⟩ := ih
      cases g with
      | zero => cases hg
      | succ g => simp [routeCheck, hm, hl, hc] at hg; exact ⟨g, hg.2⟩
    | cell _ hm hl hc ih =>
      obtain ⟨g, hg⟩ := ih
      cases g with
      | zero => cases hg
      | succ g => simp [routeCheck, hm, hl, hc] at hg; exact ⟨g, hg.2.2⟩
    | sibling _ hm hl hc ih =>
      obtain ⟨g, hg⟩ := ih
      cases g with
      | zero => cases hg
      | succ g => simp [routeCheck, hm, hl, hc] at hg; exact ⟨g, hg.2⟩
    | leaf _ hm hl hh hk ih =>
      obtain ⟨g, hg⟩ := ih
      simp only [if_true] at hk
      cases g with
      | zero => cases hg
      | succ g => simp [routeCheck, hm, hl, hh, hk] at hg; exact ⟨g, hg.2⟩
  refine ⟨fun p b hp hm => ?_, fun p c w hp hm hl hw => ?_⟩
  · obtain ⟨g, hg⟩ := hgood p hp
    cases g with
    | zero => cases hg
    | succ g => simp [routeCheck, hm, Chain.isRemoved] at hg
  · obtain ⟨g, hg⟩ := hgood p hp
    cases g with
    | zero => cases hg
    | succ g => simp [routeCheck, hm, hl, hw] at hg; exact hg.2.1

/-- A calm route through a stale index record, in a state in which a page has been removed. -/
example : ∃ S : Sys Nat Nat, Reachable smallCfg (fun _ => none) S ∧ Spec.Calm S.sh 35 true ∧
    S.sh.mt 2 = some (.removed true) := by
  obtain ⟨h, S, _, h2, h3⟩ := scenario_witness (cfg := smallCfg) (cs := exMerge 15)
    (fun _ S => (routeCheck S.sh 35 10 S.sh.root, S.sh.mt 2)) (x := (true, some (.removed true)))
    (by decide)
  simp only [Prod.mk.injEq] at h3
  exact ⟨S, h2, routeCheck_spec h3.1, h3.2⟩

end BwTree.Props
