import Verif.Props.Races

/-!
# Racing root splits (C41) and a merge that waits for itself (C42)
-/

namespace BwTree.Props

open BwTree

set_option linter.unusedSectionVars false

/-! ## C41: two threads split the root at the same time -/

/-- A chain without removal mark and without index-delete record. -/
def Unmerged {K V : Type} : Chain K V → Prop
  | .base _ => True
  | .removed _ => False
  | .delta d nx => (∀ w, d.pay ≠ .cell w) ∧ Unmerged nx

theorem Unmerged.no_cell {K V : Type} [LinearOrder K] {key : K} {closed : Bool} :
    ∀ {c : Chain K V} {smo : Bool} {w : Nat}, Unmerged c →
      dcSearchChild key closed smo c ≠ .cell w := by
  intro c
  induction c with
  | base n => intro smo w _ e; simp only [dcSearchChild] at e; split at e <;> cases e
  | removed b => intro smo w h; exact h.elim
  | delta d nx ih =>
    intro smo w h e
    obtain ⟨h1, h2⟩ := h
    simp only [dcSearchChild] at e
    split at e
    · split at e
      · split at e <;> cases e
      · exact ih h2 e
    · split at e
      · cases hp : d.pay with
        | cell c => exact h1 c hp
        | _ => simp at e
      · exact ih h2 e
    · split at e
      · split at e
        · split at e <;> cases e
        · cases e
      · exact ih h2 e
    · cases e

theorem unmerged_calm {K V : Type} [LinearOrder K] {sh : Sh K V}
    (h : ∀ p c, sh.mt p = some c → Unmerged c) (key : K) (closed : Bool) :
    Spec.Calm sh key closed := by
  refine ⟨fun p b _ hm => h p _ hm, fun p c w _ hm _ hw => ?_⟩
  exfalso
  have hu := h p c hm
  unfold childStep at hw
  split at hw
  · cases hw
  · next hd => exact hu.no_cell hd
  · cases hw
  · cases hw
  · split at hw <;> cases hw
  · cases hw

/-- As long as no page has been removed (the table holds neither a removal mark nor an index-delete
record), every key is found from the current root, whatever splits of the root and of other pages
have raced: a `Read` that runs alone ends with the value of the map.  In particular the root may
have been overwritten by a thread that checked it earlier, so that a root is no longer reachable.
(Threads halt at the events of `Flag`; with removed pages see `C47_false`.) -/
theorem C41_root_splits_partial {K V : Type} [LinearOrder K] {cfg : Cfg K} (hc : CfgOK2 cfg)
    {m : K → Option V} {sh : Sh K V} (hi : Init cfg m sh) {h : List (Spec.Event K V)} {S : Sys K V}
    (hr : Run cfg (Sys.start sh) h S) (hu : ∀ p c, S.sh.mt p = some c → Unmerged c) :
    ∃ mS ops, Spec.Accepts ⟨m, fun _ => .idle⟩ h ⟨mS, ops⟩ ∧ ∀ key,
      ∃ N, ∀ f, N ≤ f → ∃ n, Alone n S.sh (runOp cfg f (.read key)) S.sh
        (.ret (.payload (mS key))) := by
  obtain ⟨mS, ops, h1, h2⟩ := C47_quiet_read_partial hc hi hr
  exact ⟨mS, ops, h1, fun key => h2 key (unmerged_calm hu key true)⟩

/-- Thread 0 splits the root leaf 1 and sleeps after it found that 1 is still the root; thread 1
splits leaf 1 again and installs root 5; thread 0 installs root 3. -/
def exTwoRoots : List (Cmd Nat Nat) :=
  exFill 6 ++ [.acts [.op 0 100 (.insert 70 6)], .steps 0 10, .call 1 100 (.insert 1 1),
    .call 1 100 (.insert 2 2), .call 1 100 (.insert 3 3), .call 1 100 (.insert 4 4),
    .call 1 100 (.insert 5 5), .fin 0 10]

/-- Is a chain unmerged?  (Decidable.) -/
def unmergedB {K V : Type} : Chain K V → Bool
  | .base _ => true
  | .removed _ => false
  | .delta d nx => (match d.pay with | .cell _ => false | _ => true) && unmergedB nx

theorem unmergedB_spec {K V : Type} {c : Chain K V} (h : unmergedB c = true) : Unmerged c := by
  induction c with
  | base n => trivial
  | removed b => cases h
  | delta d nx ih =>
    simp only [unmergedB, Bool.and_eq_true] at h
    refine ⟨fun w e => ?_, ih h.2⟩
    rw [e] at h
    exact absurd h.1 (by simp)

/-- The root 5 has been overwritten by the root 3, and page 4 has no entry below root 3. -/
example : ∃ S : Sys Nat Nat, Reachable smallCfg (fun _ => none) S ∧
    (∀ p c, S.sh.mt p = some c → Unmerged c) ∧ S.sh.root = 3 ∧
    S.sh.mt 5 = some (.base (newRoot smallCfg 3 1 4)) ∧
    S.sh.mt 3 = some (.base (newRoot smallCfg 30 1 2)) := by
  obtain ⟨h, S, h1, h2, h3⟩ := scenario_witness (cfg := smallCfg) (cs := exTwoRoots)
    (fun _ S => (S.sh.npid, (List.range 6).all fun p => match S.sh.mt p with
      | some c => unmergedB c
      | none => true, S.sh.root, decide (S.sh.mt 5 = some (.base (newRoot smallCfg 3 1 4))) &&
        decide (S.sh.mt 3 = some (.base (newRoot smallCfg 30 1 2)))))
    (x := (6, true, 3, true)) (by decide)
  simp only [Prod.mk.injEq, Bool.and_eq_true, decide_eq_true_eq] at h3
  obtain ⟨e1, e2, e3, e4, e5⟩ := h3
  refine ⟨S, h2, fun p c hm => ?_, e3, e4, e5⟩
  obtain ⟨s, hS⟩ := h2.sound smallCfg_ok
  have hp : p < 6 := by
    by_contra hp
    have hsh : s.toSh = S.sh := hS.sh
    have := (hS.inv.p.fresh p (Or.inl (by
      have : s.npid = 6 := by rw [← e1]; exact congrArg Sh.npid hsh
      rw [this]; exact Nat.le_of_not_lt hp))).1
    rw [show s.mt = S.sh.mt from congrArg Sh.mt hsh, hm] at this
    cases this
  rw [List.all_eq_true] at e2
  have := e2 p (List.mem_range.2 hp)
  rw [hm] at this
  exact unmergedB_spec this

/-! ## C42: a merge that waits for itself -/

/-- Pages of 160 bytes: leaves hold four records, index nodes eight; nodes of at most 64 bytes are
merged. -/
def mixCfg : Cfg Nat :=
  { page := 160, hdr := 32, leafLen := 32, idxLen := 16, minSize := 64, thr := 3, maxDelta := 64 }

theorem mixCfg_ok : CfgOK2 mixCfg := by
  refine ⟨⟨?_, ?_, ?_, ?_, ?_, fun _ => Nat.le_refl _, Or.inl rfl⟩, ?_, ?_, ?_, Or.inl rfl⟩ <;> decide

/-- Calls of thread 0. -/
def exIns (l : List Nat) : List (Cmd Nat Nat) := l.map fun i => .call 0 100 (.insert i i)
def exUpd (l : List Nat) : List (Cmd Nat Nat) := l.map fun i => .call 0 100 (.update i i)
def exDel (l : List Nat) : List (Cmd Nat Nat) := l.map fun i => .call 0 100 (.delete i)

/-- Thread 0 splits the root 3 into 3 and 11; before it installs the new root 12, thread 1 searches
key 1500 (its ancestors: only 11, found through the sibling link) and sleeps.  Index node 11 splits
into 11 and 16.  Thread 1 wakes up, starts to merge leaf 9 and deletes its entry in 16.  Thread 0
then merges 11 into 3. -/
def exSelfWait : List (Cmd Nat Nat) :=
  exIns ((List.range 18).map fun i => 100 * (i + 1)) ++
  [.acts [.op 0 100 (.insert 1900 18)], .steps 0 16, .acts [.op 1 300 (.update 1500 1)],
    .steps 1 5, .fin 0 10] ++
  exIns [2000, 2100, 2200, 2300, 2400, 2500, 1010, 1020, 1030] ++ exUpd [1500] ++ exDel [1600] ++
  [.steps 1 8] ++ exDel [1000] ++ exUpd [900, 900] ++ exDel [1010, 1020] ++ exUpd [1030] ++
  [.steps 1 6]

/-- Reads of an unset word until the fuel is used up. -/
inductive Spins (w : Nat) {α : Type} : Prog Nat Nat α → Prop
  | stuck : Spins w .stuck
  | load {k : PID → Prog Nat Nat α} : Spins w (k 0) → Spins w (.loadCell w k)

/-- `Spins`, with a bound.  (Decidable.) -/
def spinsB (w : Nat) {α : Type} : Nat → Prog Nat Nat α → Bool
  | _, .stuck => true
  | n + 1, .loadCell w' k => w' == w && spinsB w n (k 0)
  | _, _ => false

theorem spinsB_spec {w : Nat} {α : Type} : ∀ {n : Nat} {p : Prog Nat Nat α},
    spinsB w n p = true → Spins w p := by
  intro n
  induction n with
  | zero => intro p h; cases p <;> first | exact .stuck | cases h
  | succ n ih =>
    intro p h
    cases p with
    | stuck => exact .stuck
    | loadCell w' k =>
      simp only [spinsB, Bool.and_eq_true, beq_iff_eq] at h
      obtain ⟨rfl, h⟩ := h
      exact .load (ih h)
    | _ => cases h

/-- A program that spins on an unset word does nothing else, and never ends. -/
theorem Spins.alone {w : Nat} {α : Type} {n : Nat} {s s' : Sh Nat Nat} {p q : Prog Nat Nat α}
    (h : Spins w p) (hw : s.cells w = 0) (ha : Alone n s p s' q) : Spins w q ∧ s' = s := by
  induction ha with
  | refl => exact ⟨h, rfl⟩
  | step h1 _ ih =>
    cases h with
    | stuck => cases h1
    | load hk =>
      cases h1
      exact ih (by rw [hw]; exact hk) hw

/-- The program of a thread that spins on word `w`. -/
def spinsAt (S : Sys Nat Nat) (t w : Nat) : Bool :=
  match S.th t with
  | .run _ p => (match p with | .loadCell _ _ => true | _ => false) && spinsB w 400 p
  | .idle => false

set_option maxRecDepth 100000 in
/-- C42 does not hold: there is a reachable state in which thread 1 waits for the word of an
index-delete record, and every other thread is idle.  The word is the one thread 1 has to set itself
once it has installed its merge; running alone, it does nothing but read the unset word. -/
theorem C42_false : ∃ (S : Sys Nat Nat) (c : Spec.Call Nat Nat) (w : Nat)
    (k : PID → Prog Nat Nat (Out Nat Nat)), Reachable mixCfg (fun _ => none) S ∧
    (∀ t, t ≠ 1 → S.th t = .idle) ∧ S.th 1 = .run c (.loadCell w k) ∧ S.sh.cells w = 0 ∧
    ∀ n sh' q, Alone n S.sh (.loadCell w k) sh' q → Spins w q ∧ sh' = S.sh := by
  obtain ⟨h, S, h1, h2, h3⟩ := scenario_witness (cfg := mixCfg) (cs := exSelfWait)
    (fun h S => (idleAt S 0 && h.all fun e => decide (evThread e < 2), spinsAt S 1 0, S.sh.cells 0))
    (x := (true, true, 0)) (by decide)
  simp only [Prod.mk.injEq] at h3
  obtain ⟨h3, h4, h5⟩ := h3
  simp only [Bool.and_eq_true, List.all_eq_true, decide_eq_true_eq] at h3
  have hidle : ∀ t, t ≠ 1 → S.th t = .idle := by
    intro t ht
    match t, ht with
    | 0, _ => exact idleAt_spec h3.1
    | 1, ht => exact absurd rfl ht
    | t + 2, _ => exact h1.idle fun e he => by have := h3.2 e he; omega
  unfold spinsAt at h4
  split at h4
  · next c p hp =>
    rw [Bool.and_eq_true] at h4
    have hs := spinsB_spec h4.2
    split at h4
    · next w k =>
      cases hs with
      | load hk =>
        exact ⟨S, c, 0, k, h2, hidle, hp, h5, fun n sh' q ha => Spins.alone (.load hk) h5 ha⟩
    · cases h4.1
  · cases h4

end BwTree.Props
