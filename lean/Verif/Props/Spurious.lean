import Verif.Props.SeqTotal

/-!
# C71: spurious failures of the weak compare-and-swap

`CASWeak` may fail although the slot holds the expected value.  The sources use it where a delta
record is pushed on the head that was read, in a loop (`Weak`, in `Conc/TotLogic.lean`).  `Loose n j`
are the runs of `n` steps of a thread that runs alone with `j` such failures.
-/

namespace BwTree.Props

open BwTree

set_option linter.unusedSectionVars false

variable {K V : Type} [LinearOrder K] {cfg : Cfg K}

/-- **C71.**  After any session, for any number `j` of spurious failures: if the bound on the loops is
large enough, no run of a point operation with at most `j` failures has more than `n` steps.  At any
time the operation can go on, or it has returned what the map returns, and the session goes on with
it. -/
theorem C71_spurious (hR : Roomy cfg) (hc : CfgOK2 cfg) {m : K → Option V} {sh0 sh : Sh K V}
    (hi : Init cfg m sh0) {l : List (Spec.Call K V × Spec.Ret K V)}
    {it : Option (PID × K × Spec.Bound K)} (h : Session cfg sh0 l sh it) (o : Spec.Op K V) (j : Nat) :
    ∃ n N, ∀ f, N ≤ f → ∀ n' j' sh' p, j' ≤ j → Loose n' j' sh (runOp cfg f o) sh' p → n' ≤ n ∧
      ((∃ sh'' p', Firm sh' p sh'' p') ∨
        p = .ret (Spec.apply (Spec.mapAfterAll m (l.map Prod.fst)) o).2 ∧
        Session cfg sh0
          (l ++ [(.op o, .res (Spec.apply (Spec.mapAfterAll m (l.map Prod.fst)) o).2)]) sh' it) := by
  obtain ⟨n, N, h1⟩ := h.op_closes hR hc hi o j
  refine ⟨n, N, fun f hf n' j' sh' p hj hr => ?_⟩
  obtain ⟨g1, ⟨r, rfl⟩ | g2⟩ := h1 f hf n' j' sh' p hj hr
  · have h2 := h.op hr
    have h3 := (Spec.Meets.append.mp (h2.meets hc hi)).2.1
    have h4 : r = (Spec.apply (Spec.mapAfterAll m (l.map Prod.fst)) o).2 := by
      generalize he : (Spec.Call.op o : Spec.Call K V) = c at h3
      generalize hr : (Spec.Ret.res r : Spec.Ret K V) = r' at h3
      change Spec.Step _ c _ r' at h3
      cases h3 with
      | op o' => cases he; cases hr; rfl
      | visit => cases he
    subst h4
    exact ⟨g1, Or.inr ⟨rfl, h2⟩⟩
  · exact ⟨g1, Or.inl g2⟩

/-- The visits of a scan use no compare-and-swap at all: after any session, their runs have no
failures, change nothing and are not longer than `n` steps. -/
theorem C71_scan (hR : Roomy cfg) (hc : CfgOK2 cfg) {m : K → Option V} {sh0 sh : Sh K V}
    (hi : Init cfg m sh0) {l : List (Spec.Call K V × Spec.Ret K V)}
    {it : Option (PID × K × Spec.Bound K)} (h : Session cfg sh0 l sh it) (b e : Spec.Bound K) :
    ∃ n x N, ∀ f, N ≤ f → FirmRun n sh (scanFirst cfg f b e) sh (.ret x) ∧
      ∀ n' j sh' p, Loose n' j sh (scanFirst cfg f b e) sh' p → n' ≤ n ∧ j = 0 ∧ sh' = sh := by
  obtain ⟨s, rfl, ⟨fl, h2⟩, h3, h4⟩ := h.rested hR hc hi
  have h5 := fun f (hf : s.nfam + np s + 5 ≤ f) => scanFirst_tot hc h2 h3 (b := b) (e := e) hf
  obtain ⟨n, x, h6, _⟩ := rt_run (h5 _ (Nat.le_refl _))
  refine ⟨n, x, _, fun f hf => ⟨(scanFirst_ext hf).firmRet h6, fun n' j sh' p hr => ?_⟩⟩
  obtain ⟨e1, e2, e3⟩ := rt_loose (h5 f hf) hr
  subst e1 e2
  exact ⟨(((scanFirst_ext hf).firmRet h6).unique e3).1, rfl, rfl⟩

/-- The same for the further visits of an iterator. -/
theorem C71_next (hR : Roomy cfg) (hc : CfgOK2 cfg) {m : K → Option V} {sh0 sh : Sh K V}
    (hi : Init cfg m sh0) {l : List (Spec.Call K V × Spec.Ret K V)} {q : PID} {k : K}
    {e : Spec.Bound K} (h : Session cfg sh0 l sh (some (q, k, e))) :
    ∃ n x N, ∀ f, N ≤ f → FirmRun n sh (scanNext cfg f q k e) sh (.ret x) ∧
      ∀ n' j sh' p, Loose n' j sh (scanNext cfg f q k e) sh' p → n' ≤ n ∧ j = 0 ∧ sh' = sh := by
  obtain ⟨s, rfl, ⟨fl, h2⟩, h3, h4⟩ := h.rested hR hc hi
  have h5 := fun f (hf : s.nfam + np s + 5 ≤ f) => scanNext_tot hc h2 h3 (e := e) hf (h4 q k e rfl)
  obtain ⟨n, x, h6, _⟩ := rt_run (h5 _ (Nat.le_refl _))
  refine ⟨n, x, _, fun f hf => ⟨(scanNext_ext hf).firmRet h6, fun n' j sh' p hr => ?_⟩⟩
  obtain ⟨e1, e2, e3⟩ := rt_loose (h5 f hf) hr
  subst e1 e2
  exact ⟨(((scanNext_ext hf).firmRet h6).unique e3).1, rfl, rfl⟩

/-! ## Failures at each weak compare-and-swap -/

/-- Here each weak compare-and-swap of the calls of `exCalls` fails three times before it succeeds.
The 33rd call merges two pages: it fails 12 times and returns success.  At the end the map's answers
have been given. -/
example : ∃ (l1 : List (Spec.Op Nat Nat × Spec.Res Nat × Nat)) (sh1 sh2 : Sh Nat Nat) (n : Nat),
    Session roomyCfg (initSh roomyCfg) (l1.map fun x => (.op x.1, .res x.2.1)) sh1 none ∧
    l1.map Prod.fst = exCalls.take 32 ∧ (∀ x ∈ l1, 3 ≤ x.2.2) ∧
    Loose n 12 sh1 (runOp roomyCfg 80 (.delete 11)) sh2 (.ret .success) ∧
    ((List.range sh1.npid).any fun p => isMark (sh1.mt p)) = false ∧
    ((List.range sh2.npid).any fun p => isMark (sh2.mt p)) = true ∧
    ∃ (l2 : List (Spec.Op Nat Nat × Spec.Res Nat × Nat)) (sh3 : Sh Nat Nat),
      Session roomyCfg (initSh roomyCfg) (((l1.map fun x => (.op x.1, .res x.2.1)) ++
        [(.op (.delete 11), .res .success)]) ++ l2.map fun x => (.op x.1, .res x.2.1)) sh3 none ∧
      l2.length = 15 ∧ l2.getLast? = some (.read 21, .payload (some 7), 0) := by
  have h : ((looseSession roomyCfg 80 400 3 (exCalls.take 32) (initSh roomyCfg)).bind fun y =>
      (looseExec 3 400 3 y.2 (runOp roomyCfg 80 (.delete 11))).bind fun z =>
        (looseSession roomyCfg 80 400 3 (exCalls.drop 33) z.1).map fun w => (y, z, w)).map
      (fun x => decide (x.1.1.map Prod.fst = exCalls.take 32) && (x.1.1.all fun x => decide (3 ≤ x.2.2)) &&
        !((List.range x.1.2.npid).any fun p => isMark (x.1.2.mt p)) &&
        ((List.range x.2.1.1.npid).any fun p => isMark (x.2.1.1.mt p)) &&
        decide (x.2.1.2.1 = .success) && decide (x.2.1.2.2 = 12) && decide (x.2.2.1.length = 15) &&
        decide (x.2.2.1.getLast? = some (.read 21, .payload (some 7), 0))) = some true := by
    decide +kernel
  rw [Option.map_eq_some_iff] at h
  obtain ⟨⟨y, z, w⟩, h1, h2⟩ := h
  rw [Option.bind_eq_some_iff] at h1
  obtain ⟨y', h3, h1⟩ := h1
  rw [Option.bind_eq_some_iff] at h1
  obtain ⟨z', h4, h1⟩ := h1
  rw [Option.map_eq_some_iff] at h1
  obtain ⟨w', h5, e⟩ := h1
  simp only [Prod.mk.injEq] at e
  obtain ⟨rfl, rfl, rfl⟩ := e
  simp only [Bool.and_eq_true, decide_eq_true_eq, List.all_eq_true, Bool.not_eq_true'] at h2
  obtain ⟨⟨⟨⟨⟨⟨⟨g1, g2⟩, g3⟩, g4⟩, g5⟩, g5'⟩, g6⟩, g7⟩ := h2
  obtain ⟨l1, sh1⟩ := y'
  obtain ⟨sh2, r, i⟩ := z'
  obtain ⟨l2, sh3⟩ := w'
  simp only at h3 h4 h5 g1 g2 g3 g4 g5 g5' g6 g7
  subst g5 g5'
  obtain ⟨n, h6⟩ := looseExec_sound h4
  have h7 := looseSession_sound h3 (Session.start (cfg := roomyCfg) (sh0 := initSh roomyCfg))
  exact ⟨l1, sh1, sh2, n, h7, g1, g2, h6, g3, g4, l2, sh3, looseSession_sound h5 (h7.op h6), g6, g7⟩

/-! ## What is needed -/

/-- Without a bound on the number of failures, no call that writes need end: it may fail any number of
times. -/
theorem C71_unbounded (cfg : Cfg K) (k : K) (v : V) (j : Nat) :
    ∃ f n p, Loose n j (initSh (V := V) cfg) (runOp cfg f (.insert k v)) (initSh cfg) p := by
  have hm : (initSh (V := V) cfg).mt 1 = some (.base (emptyLeaf cfg)) := by simp [initSh]
  suffices H : ∀ j, ∃ n p, Loose n j (initSh (V := V) cfg)
      (writeLoop cfg (.insert k v) k (j + 3) [1]) (initSh cfg) p by
    obtain ⟨n, p, h⟩ := H j
    exact ⟨j + 3, _, p, .step (.mk (.loadRoot _ _) (by intros; contradiction))
      (.step (.mk (.load _ _ _ _ hm) (by intros; contradiction)) h)⟩
  intro j
  induction j with
  | zero => exact ⟨_, _, .refl _ _⟩
  | succ j ih =>
    obtain ⟨n, p, h⟩ := ih
    exact ⟨_, p, .step (.mk (.load _ _ _ _ hm) (by intros; contradiction))
      (.fail hm ⟨_, rfl⟩ h)⟩

/-- A configuration in which a page with two delta records makes others wait. -/
def waitCfg : Cfg Nat := { roomyCfg with maxDelta := 2 }

theorem waitCfg_roomy : Roomy waitCfg := ⟨by decide, by decide⟩

theorem waitCfg_ok : CfgOK2 waitCfg :=
  { leaf := by decide, idx := by decide, leafPos := by decide, idxPos := by decide,
    hdrPos := by decide, maxPos := by decide, rootFits := by decide, min := by decide,
    keys := fun _ => Nat.le_refl _, var := Or.inl rfl, minVar := Or.inl rfl }

theorem bind_assoc {α β γ : Type} (p : Prog K V α) (g : α → Prog K V β) (h : β → Prog K V γ) :
    (p.bind g).bind h = p.bind fun a => (g a).bind h := by
  induction p <;> simp_all only [Prog.bind]

theorem wait_forever {p : PID} {c : Chain K V} {sh : Sh K V} (hm : sh.mt p = some c)
    (hw : c.needWait cfg = true) {α : Type} {g : Chain K V → Prog K V α} : ∀ {f n : Nat} {sh' : Sh K V}
    {q : Prog K V α}, Alone n sh ((loadValidHead cfg f p).bind g) sh' q → ∀ r, q ≠ .ret r := by
  intro f
  induction f with
  | zero =>
    intro n sh' q h r
    cases h with
    | refl => intro e; cases e
    | step a _ => cases a
  | succ f ih =>
    intro n sh' q h r
    cases h with
    | refl => intro e; cases e
    | step a h =>
      cases a with
      | load _ _ c' e =>
        rw [hm] at e; cases e
        simp only [hw, if_true] at h
        exact ih h r
      | loadNull _ _ e => rw [hm] at e; cases e

/-- Runs a program; a compare-and-swap with a consolidated node fails. -/
def failBase {α : Type} : Nat → Sh Nat Nat → Prog Nat Nat α → Option (Sh Nat Nat × α)
  | _, s, .ret a => some (s, a)
  | 0, _, _ => none
  | n + 1, s, .cas q o (.base b) k => match aexec false s (.cas q o (.base b) k) with
    | none => none
    | some (s', p') => failBase n s' p'
  | n + 1, s, p => match aexec true s p with
    | none => none
    | some (s', p') => failBase n s' p'

theorem failBase_sound {α : Type} {s' : Sh Nat Nat} {a : α} : ∀ {n : Nat} {s : Sh Nat Nat}
    {p : Prog Nat Nat α}, failBase n s p = some (s', a) → ∃ n', Alone n' s p s' (.ret a) := by
  intro n
  induction n with
  | zero =>
    intro s p h
    cases p with
    | ret b => simp only [failBase, Option.some.injEq, Prod.mk.injEq] at h
               obtain ⟨rfl, rfl⟩ := h
               exact ⟨0, .refl _ _⟩
    | _ => simp [failBase] at h
  | succ n ih =>
    intro s p h
    rw [failBase.eq_def] at h
    split at h
    · simp only [Option.some.injEq, Prod.mk.injEq] at h
      obtain ⟨rfl, rfl⟩ := h
      exact ⟨0, .refl _ _⟩
    · cases ‹_ + 1 = 0›
    · rename_i e
      cases e
      split at h
      · cases h
      · rename_i h1
        obtain ⟨n', h2⟩ := ih h
        exact ⟨n' + 1, .step (aexec_sound h1) h2⟩
    · rename_i n0 e _ _
      cases e
      split at h
      · cases h
      · rename_i h1
        obtain ⟨n', h2⟩ := ih h
        exact ⟨n' + 1, .step (aexec_sound h1) h2⟩

/-- That only the weak compare-and-swap fails spuriously is needed.  Here the second call replaces the
head by a consolidated node (`CASStrong`, `bw_tree.hpp` 1209).  If this failed spuriously once, the
call would return success, and no later call that writes would ever return. -/
theorem C71_strong_needed : ∃ (sh1 sh2 : Sh Nat Nat) (n1 n2 : Nat),
    FirmRun n1 (initSh waitCfg) (runOp waitCfg 9 (.insert 1 1)) sh1 (.ret .success) ∧
    Alone n2 sh1 (runOp waitCfg 9 (.insert 2 2)) sh2 (.ret .success) ∧
    ∀ f n k v sh p, Alone n sh2 (runOp waitCfg f (.insert k v)) sh p → ∀ r, p ≠ .ret r := by
  have h : (firmExec 20 (initSh waitCfg) (runOp waitCfg 9 (.insert 1 1))).bind (fun y =>
      (failBase 20 y.1 (runOp waitCfg 9 (.insert 2 2))).map fun z =>
        (y.2, z.2, z.1.root, (z.1.mt 1).map fun c => c.isLeaf && c.needWait waitCfg)) =
      some (Spec.Res.success, Spec.Res.success, 1, some true) := by decide +kernel
  rw [Option.bind_eq_some_iff] at h
  obtain ⟨⟨sh1, r1⟩, h1, h⟩ := h
  rw [Option.map_eq_some_iff] at h
  obtain ⟨⟨sh2, r2⟩, h2, h⟩ := h
  simp only [Prod.mk.injEq] at h
  obtain ⟨rfl, rfl, hroot, hmt⟩ := h
  rw [Option.map_eq_some_iff] at hmt
  obtain ⟨c, hm, hcw⟩ := hmt
  rw [Bool.and_eq_true] at hcw
  obtain ⟨n1, g1⟩ := firmExec_sound h1
  obtain ⟨n2, g2⟩ := failBase_sound h2
  refine ⟨sh1, sh2, n1, n2, g1, g2, fun f n k v sh p ha r => ?_⟩
  cases f with
  | zero =>
    cases ha with
    | refl => intro e; cases e
    | step a ha =>
      cases a with
      | loadRoot _ =>
        cases ha with
        | refl => intro e; cases e
        | step a _ => cases a
  | succ f =>
    cases ha with
    | refl => intro e; cases e
    | step a ha =>
      cases a with
      | loadRoot _ =>
        cases ha with
        | refl => intro e; cases e
        | step a ha =>
          cases a with
          | load _ _ c' e =>
            rw [hroot, hm] at e; cases e
            simp only [hcw.1, if_true, hroot] at ha
            change Alone _ sh2 (writeLoop waitCfg (.insert k v) k (f + 1) [1]) sh p at ha
            cases f with
            | zero =>
              cases ha with
              | refl => intro e; cases e
              | step a _ => cases a
            | succ f =>
              rw [writeLoop, getHeadKC, bind_assoc] at ha
              exact wait_forever hm hcw.2 ha r
          | loadNull _ _ e => rw [hroot, hm] at e; cases e

end BwTree.Props
