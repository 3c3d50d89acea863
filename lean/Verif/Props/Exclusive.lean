import Verif.Conc.Exclusive
import Verif.Props.WritesApart

/-!
# C81: writes that overlap with no other call

The threads hold a reader-writer lock: reads and scans may overlap with each other, a write overlaps with
nothing.  An iterator may be used across writes (between two of its visits).
-/

namespace BwTree.Props

open BwTree

set_option linter.unusedSectionVars false

variable {K V : Type} [LinearOrder K] {cfg : Cfg K}

/-- **C81, safety.**  No thread ever runs into undefined behaviour or one of the events of `Flag`
(C08-C10). -/
theorem C81_safe (hR : Roomy cfg) (hc : CfgOK2 cfg) {m : K → Option V} {sh : Sh K V}
    (hi : Init cfg m sh) {h : List (Spec.Event K V)} {S : Sys K V}
    (hr : SureRun cfg (Sys.start sh) h S) (he : Spec.Exclusive h) {t : Nat} {c : Spec.Call K V}
    {p : Prog K V (Out K V)} (ht : S.th t = .run c p) : p ≠ .ub ∧ ∀ k, p ≠ .flag k :=
  (hr.excl hR hc hi he).fine hR hc ht

/-- **C81, results.**  The history is linearizable.  (Together with `C81_safe` this has no proviso on the
events of `Flag`.) -/
theorem C81_linearizable (hc : CfgOK2 cfg) {m : K → Option V} {sh : Sh K V} (hi : Init cfg m sh)
    {h : List (Spec.Event K V)} {S : Sys K V} (hr : SureRun cfg (Sys.start sh) h S) :
    ∃ x, Spec.Accepts ⟨m, fun _ => .idle⟩ h x := by
  obtain ⟨s, _, h1⟩ := hi.run hc hr.run
  exact ⟨_, h1⟩

/-- **C81, operations end.**  As `C80_op_ends`. -/
theorem C81_op_ends (hR : Roomy cfg) (hc : CfgOK2 cfg) {m : K → Option V} {sh : Sh K V}
    (hi : Init cfg m sh) {h : List (Spec.Event K V)} {S : Sys K V}
    (hr : SureRun cfg (Sys.start sh) h S) (he : Spec.Exclusive h) (hn : NoWrite S) (t : Nat)
    (o : Spec.Op K V) (j : Nat) :
    ∃ n N, ∀ f, N ≤ f → ∀ n' j' S', j' ≤ j →
      During cfg t
        { S with th := upd S.th t (.run (.op o) ((runOp cfg f o).bind fun r => .ret (.res r, none))) }
        n' j' S' →
      n' ≤ n ∧ ∃ p, S'.th t = .run (.op o) p ∧
        (p = .ret (.res (Spec.apply (Spec.mapAfterAll m ((Spec.writesDone h).map Prod.fst)) o).2, none) ∨
          ∃ sh'' p', Firm S'.sh p sh'' p') :=
  C80_op_ends hR hc hi hr he.apart hn t o j

/-- **C81, iterators.**  The next visit of an iterator makes a bounded number of accesses, although writes
may have split, merged and removed pages since the iterator was obtained; its result `x` does not depend
on the readers. -/
theorem C81_next_ends (hR : Roomy cfg) (hc : CfgOK2 cfg) {m : K → Option V} {sh : Sh K V}
    (hi : Init cfg m sh) {h : List (Spec.Event K V)} {S : Sys K V}
    (hr : SureRun cfg (Sys.start sh) h S) (he : Spec.Exclusive h) (hn : NoWrite S) {t : Nat} {q : PID}
    {k : K} {e : Spec.Bound K} (hit : S.it t = some (q, k, e)) :
    ∃ n x N, ∀ f, N ≤ f → ∀ n' j S',
      During cfg t
        { S with th := upd S.th t (.run (.visit (some (k, true)) e)
            ((scanNext cfg f q k e).bind fun x => .ret (visitOut e x))) } n' j S' →
      n' ≤ n ∧ j = 0 ∧ S'.sh = S.sh ∧ ∃ p, S'.th t = .run (.visit (some (k, true)) e) p ∧
        (p = .ret (visitOut e x) ∨ ∃ sh'' p', Firm S'.sh p sh'' p') := by
  obtain ⟨s, g1, g2, g3⟩ := hr.excl hR hc hi he
  have hs : S.sh = s.toSh := by
    rcases g3 with g3 | ⟨w, o, g3, ⟨f, n, j, p, e1, _⟩, _⟩
    · exact g3.1
    · have := hn w _ _ e1
      rw [Spec.Call.isWrite, g3] at this
      cases this
  obtain ⟨⟨fl, r2⟩, r3, _⟩ := g1
  have hrt := fun f hf => scanNext_tot hc r2 r3 (e := e) (f := f) hf (g2 t _ _ _ hit)
  obtain ⟨n, x, h5, _⟩ := rt_run (hrt _ (Nat.le_refl _))
  have h6 : ∀ f, _ → FirmRun n S.sh (scanNext cfg f q k e) S.sh (.ret x) :=
    fun f hf => (scanNext_ext hf).firmRet (hs ▸ h5)
  refine ⟨n, x, s.nfam + np s + 5, fun f hf n' j S' hd => ?_⟩
  obtain ⟨_, p, g4, g5⟩ := hd.loose (fun a => ⟨_, rfl⟩) (upd_same _ _ _) (fun u hu => by
    simp only [upd_ne _ _ hu]; exact noWrite_reader hr he.apart hn u)
  obtain ⟨e1, e2, e3⟩ := rt_loose (hs ▸ hrt f hf) g5
  obtain ⟨e4, e5⟩ := (h6 f hf).prefix e3
  refine ⟨e4, e1, e2, _, g4, ?_⟩
  rcases firmRun_next e5 with rfl | ⟨_, _, e6⟩
  · exact Or.inl rfl
  · exact Or.inr ⟨_, _, e6.bind _⟩

/-- **C81, executions.**  When no write is active, an idle thread can go on with its iterator to the end of
the visit, and the history stays exclusive. -/
theorem C81_next_run (hR : Roomy cfg) (hc : CfgOK2 cfg) {m : K → Option V} {sh : Sh K V}
    (hi : Init cfg m sh) {h : List (Spec.Event K V)} {S : Sys K V}
    (hr : SureRun cfg (Sys.start sh) h S) (he : Spec.Exclusive h) (hn : NoWrite S) {t : Nat} {q : PID}
    {k : K} {e : Spec.Bound K} (ht : S.th t = .idle) (hit : S.it t = some (q, k, e)) :
    ∃ (o : Out K V) (S' : Sys K V), SureRun cfg (Sys.start sh) (h ++ [.inv t (.visit (some (k, true)) e),
        .ret t (.visit (some (k, true)) e) o.1]) S' ∧
      (∀ u, S'.th u = S.th u) ∧ S'.it = upd S.it t o.2 ∧ S'.sh = S.sh := by
  obtain ⟨s, g1, g2, g3⟩ := hr.excl hR hc hi he
  have hs : S.sh = s.toSh := by
    rcases g3 with g3 | ⟨w, o, g3, ⟨f, n, j, p, e1, _⟩, _⟩
    · exact g3.1
    · have := hn w _ _ e1
      rw [Spec.Call.isWrite, g3] at this
      cases this
  obtain ⟨⟨fl, r2⟩, r3, _⟩ := g1
  obtain ⟨n, x, h5, _⟩ := rt_run (scanNext_tot hc r2 r3 (e := e) (Nat.le_refl _) (g2 t _ _ _ hit))
  obtain ⟨S1, e1, e2, e3, e4, e5⟩ := firmRun_sure (t := t) h5
    (hr.event (.event (.next S t _ q k e ht hit))) hs (upd_same _ _ _)
  refine ⟨visitOut e x, { S1 with th := upd S1.th t .idle, it := upd S1.it t (visitOut e x).2 }, ?_,
    fun u => ?_, by rw [e5], by rw [hs]; exact e2⟩
  · have := e1.event (.event (.retVisit S1 t (some (k, true)) e _ e3))
    simpa using this
  · by_cases hu : u = t
    · subst hu; exact (upd_same _ _ _).trans ht.symm
    · exact (upd_ne _ _ hu).trans ((e4 u hu).trans (upd_ne _ _ hu))

/-! ## Checks -/

section
variable {A B : Type} [DecidableEq A] [DecidableEq B]

/-- Until the call `c` of thread `t` returns, nothing is called.  (Decidable.) -/
def silentUntil (t : Nat) (c : Spec.Call A B) : List (Spec.Event A B) → Bool
  | [] => true
  | .inv _ _ :: _ => false
  | .ret u c' _ :: h => (decide (u = t) && decide (c' = c)) || silentUntil t c h

/-- Is `Spec.Exclusive` true?  (Decidable.) -/
def exclusiveCheck : List (Spec.Event A B) → Bool
  | [] => true
  | .inv t c :: h => (if c.isWrite then silentUntil t c h else aloneUntil t c h) && exclusiveCheck h
  | .ret _ _ _ :: h => exclusiveCheck h

theorem silentUntil_spec {t u : Nat} {c c' : Spec.Call A B} {h2 h3 : List (Spec.Event A B)}
    (h : silentUntil t c (h2 ++ .inv u c' :: h3) = true) : ∃ r, .ret t c r ∈ h2 := by
  induction h2 with
  | nil => simp [silentUntil] at h
  | cons e h2 ih =>
    cases e with
    | inv v d => simp [silentUntil] at h
    | ret v d r =>
      simp only [List.cons_append, silentUntil, Bool.or_eq_true, Bool.and_eq_true, decide_eq_true_eq] at h
      rcases h with ⟨rfl, rfl⟩ | h
      · exact ⟨r, List.mem_cons_self⟩
      · obtain ⟨r, hr⟩ := ih h
        exact ⟨r, List.mem_cons_of_mem _ hr⟩

theorem exclusiveCheck_spec {h : List (Spec.Event A B)} (hc : exclusiveCheck h = true) :
    Spec.Exclusive h := by
  induction h with
  | nil => intro h1 h2 h3 t u c c' e; simp at e
  | cons e h ih =>
    intro h1 h2 h3 t u c c' he hw
    cases h1 with
    | nil =>
      simp only [List.nil_append, List.cons.injEq] at he
      obtain ⟨rfl, rfl⟩ := he
      simp only [exclusiveCheck, Bool.and_eq_true] at hc
      obtain ⟨hc, _⟩ := hc
      split at hc
      · exact silentUntil_spec hc
      · rename_i hne
        exact aloneUntil_spec (hw.resolve_left hne) hc
    | cons e' h1 =>
      simp only [List.cons_append, List.cons.injEq] at he
      obtain ⟨rfl, he⟩ := he
      refine ih ?_ h1 h2 h3 t u c c' he hw
      cases e with
      | inv t c => simp only [exclusiveCheck, Bool.and_eq_true] at hc; exact hc.2
      | ret t c r => exact hc

end

/-- Thread 1 visits the leaf of key 50 and keeps the iterator, while thread 0 splits leaves and merges the
iterator's leaf away.  Then both threads read at the same time. -/
def exLocked : List (Cmd Nat Nat) :=
  exIns ((List.range 17).map (· * 10)) ++ [.acts [.scan 1 100 (some (50, true)) none], .fin 1 100] ++
  exIns [170, 180, 175] ++ exDel ((List.range 7).map fun i => 10 * i + 50) ++
  [.acts [.op 0 100 (.read 160)], .steps 0 1]

/-- The iterator of thread 1 refers to page 4, which is removed: its next visit ends nevertheless. -/
example : ∃ (h : List (Spec.Event Nat Nat)) (S : Sys Nat Nat) (k : Nat) (e : Spec.Bound Nat),
    SureRun roomyCfg (Sys.start (initSh roomyCfg)) h S ∧ Spec.Exclusive h ∧ NoWrite S ∧
    S.it 1 = some (4, k, e) ∧ (∃ b, S.sh.mt 4 = some (.removed b)) ∧
    (∃ p, S.th 0 = .run (.op (.read 160)) p) ∧ ∃ (o : Out Nat Nat) (S' : Sys Nat Nat),
      SureRun roomyCfg (Sys.start (initSh roomyCfg)) (h ++ [.inv 1 (.visit (some (k, true)) e),
        .ret 1 (.visit (some (k, true)) e) o.1]) S' := by
  obtain ⟨h, S, h1, h2⟩ := scenario_sure (cfg := roomyCfg) (cs := exLocked)
    (fun h S => (exclusiveCheck h, noWriteAt h S && idleAt S 1,
      (match S.th 0 with | .run c _ => decide (c = .op (.read 160)) | .idle => false),
      isMark (S.sh.mt 4), (S.it 1).map fun x : PID × Nat × Spec.Bound Nat => x.1))
    (x := (true, true, true, true, some 4)) (by decide +kernel) (by decide)
  simp only [Prod.mk.injEq, Bool.and_eq_true] at h2
  obtain ⟨ha, ⟨hn, hi⟩, ht, hm, hl⟩ := h2
  have ha' := exclusiveCheck_spec ha
  have hn' := noWriteAt_spec h1.run hn
  obtain ⟨⟨q, k, e⟩, hit, hq⟩ := Option.map_eq_some_iff.mp hl
  cases hq
  refine ⟨h, S, k, e, h1, ha', hn', hit, ?_, ?_, ?_⟩
  · cases hc : S.sh.mt 4 with
    | none => rw [hc] at hm; cases hm
    | some c =>
      cases c with
      | removed b => exact ⟨b, rfl⟩
      | base n => rw [hc] at hm; cases hm
      | delta d nx => rw [hc] at hm; cases hm
  · cases hs : S.th 0 with
    | idle => rw [hs] at ht; cases ht
    | run c p => rw [hs] at ht; simp at ht; subst ht; exact ⟨p, rfl⟩
  · obtain ⟨o, S', g, _⟩ :=
      C81_next_run roomyCfg_roomy roomyCfg_ok .empty h1 ha' hn' (idleAt_spec hi) hit
    exact ⟨o, S', g⟩

end BwTree.Props
