import Verif.Conc.Readers
import Verif.Conc.QuietOrder
import Verif.Props.QuietOrder
import Verif.Props.StatRest

/-!
# C80: writes that do not overlap

The threads take turns in writing, for example because they hold a mutex during `Write`, `Insert`,
`Update` and `Delete`; reads and scans go on at any time.  Reads and scans only load from shared memory
(`TrySMOs` is called in the four writing operations only, `bw_tree.hpp` 293, 343, 396, 445, and by
itself), so the tree is that of a single thread.
-/

namespace BwTree.Props

open BwTree

set_option linter.unusedSectionVars false

variable {K V : Type} [LinearOrder K] {cfg : Cfg K}

/-- No thread is in a call of a writing operation. -/
def NoWrite (S : Sys K V) : Prop := ∀ t c p, S.th t = .run c p → Spec.Call.isWrite c = false

/-- **C80, the shared memory.**  If writes do not overlap, then, whenever no write is active, the shared
memory is as if a single thread had issued the writes one after the other, without any readers. -/
theorem C80_as_if_alone {sh : Sh K V} {h : List (Spec.Event K V)} {S : Sys K V}
    (hr : SureRun cfg (Sys.start sh) h S) (ha : Spec.Apart h) :
    ∃ sh', Session cfg sh (Spec.writesDone h) sh' none ∧ (NoWrite S → S.sh = sh') := by
  obtain ⟨sh1, h1, h2⟩ := hr.serial ha
  refine ⟨sh1, h1, fun hn => ?_⟩
  rcases h2 with ⟨_, h2⟩ | ⟨t, o, h2, ⟨f, n, j, p, h3, _⟩, _⟩
  · exact h2
  · have := hn t _ _ h3
    rw [Spec.Call.isWrite, h2] at this
    cases this

/-- **C80, results.**  The writes return what the map returns when they are applied one after the
other. -/
theorem C80_answers (hc : CfgOK2 cfg) {m : K → Option V} {sh : Sh K V} (hi : Init cfg m sh)
    {h : List (Spec.Event K V)} {S : Sys K V} (hr : SureRun cfg (Sys.start sh) h S)
    (ha : Spec.Apart h) : Spec.Meets m (Spec.writesDone h) := by
  obtain ⟨_, h1, _⟩ := C80_as_if_alone hr ha
  exact h1.meets hc hi

theorem noWrite_reader {sh : Sh K V} {h : List (Spec.Event K V)} {S : Sys K V}
    (hr : SureRun cfg (Sys.start sh) h S) (ha : Spec.Apart h) (hn : NoWrite S) (t : Nat) :
    (S.th t).Reader := by
  obtain ⟨sh1, h1, h2⟩ := hr.serial ha
  rcases h2 with ⟨h2, _⟩ | ⟨t, o, h2, ⟨f, n, j, p, h3, _⟩, _⟩
  · exact h2 t
  · have := hn t _ _ h3
    rw [Spec.Call.isWrite, h2] at this
    cases this

/-- **C80, operations end.**  Thread `t` calls any operation when no write is active, and until it
returns no write is called.  For any number `j` of spurious failures there is a bound `n` on the number
of its own accesses, whatever the other threads do; at any time the operation can go on, or it is about
to return what the map returns. -/
theorem C80_op_ends (hR : Roomy cfg) (hc : CfgOK2 cfg) {m : K → Option V} {sh : Sh K V}
    (hi : Init cfg m sh) {h : List (Spec.Event K V)} {S : Sys K V}
    (hr : SureRun cfg (Sys.start sh) h S) (ha : Spec.Apart h) (hn : NoWrite S) (t : Nat)
    (o : Spec.Op K V) (j : Nat) :
    ∃ n N, ∀ f, N ≤ f → ∀ n' j' S', j' ≤ j →
      During cfg t
        { S with th := upd S.th t (.run (.op o) ((runOp cfg f o).bind fun r => .ret (.res r, none))) }
        n' j' S' →
      n' ≤ n ∧ ∃ p, S'.th t = .run (.op o) p ∧
        (p = .ret (.res (Spec.apply (Spec.mapAfterAll m ((Spec.writesDone h).map Prod.fst)) o).2, none) ∨
          ∃ sh'' p', Firm S'.sh p sh'' p') := by
  obtain ⟨sh1, h1, h2⟩ := C80_as_if_alone hr ha
  have h2 := h2 hn
  subst h2
  obtain ⟨n, N, h3⟩ := h1.op_closes hR hc hi o j
  refine ⟨n, N, fun f hf n' j' S' hj hd => ?_⟩
  obtain ⟨_, p, g1, g2⟩ := hd.loose (fun a => ⟨_, rfl⟩) (upd_same _ _ _) (fun u hu => by
    simp only [upd_ne _ _ hu]; exact noWrite_reader hr ha hn u)
  obtain ⟨e1, ⟨r, rfl⟩ | ⟨sh'', p', e2⟩⟩ := h3 f hf _ _ _ _ hj g2
  · refine ⟨e1, _, g1, Or.inl ?_⟩
    have g8 := (Spec.Meets.append.mp ((h1.op g2).meets hc hi)).2.1
    generalize he : (Spec.Call.op o : Spec.Call K V) = c at g8
    generalize hr : (Spec.Ret.res r : Spec.Ret K V) = r' at g8
    change Spec.Step _ c _ r' at g8
    cases g8 with
    | op o' => cases he; cases hr; rfl
    | visit => cases he
  · exact ⟨e1, _, g1, Or.inr ⟨_, _, e2.bind _⟩⟩

theorem firmRun_sure {α : Type} {S₀ : Sys K V} {h : List (Spec.Event K V)} {t : Nat} {c : Spec.Call K V}
    {g : α → Prog K V (Out K V)} {n : Nat} {sh sh' : Sh K V} {p p' : Prog K V α}
    (hf : FirmRun n sh p sh' p') : ∀ {S : Sys K V}, SureRun cfg S₀ h S → S.sh = sh →
    S.th t = .run c (p.bind g) → ∃ S', SureRun cfg S₀ h S' ∧ S'.sh = sh' ∧
      S'.th t = .run c (p'.bind g) ∧ (∀ u, u ≠ t → S'.th u = S.th u) ∧ S'.it = S.it := by
  induction hf with
  | refl s p => intro S h1 h2 h3; exact ⟨S, h1, h2, h3, fun _ _ => rfl, rfl⟩
  | step a _ ih =>
    intro S h1 h2 h3
    obtain ⟨S', e1, e2, e3, e4, e5⟩ := ih (h1.tau (.access S t c _ _ _ h3 (.firm (h2 ▸ a.bind g)))) rfl
      (upd_same _ _ _)
    exact ⟨S', e1, e2, e3, fun u hu => (e4 u hu).trans (upd_ne _ _ hu), e5⟩

/-- **C80, executions.**  When no write is active, an idle thread can execute any operation to its end,
with the right result, while the readers stay where they are; then no write is active again. -/
theorem C80_op_run (hR : Roomy cfg) (hc : CfgOK2 cfg) {m : K → Option V} {sh : Sh K V}
    (hi : Init cfg m sh) {h : List (Spec.Event K V)} {S : Sys K V}
    (hr : SureRun cfg (Sys.start sh) h S) (ha : Spec.Apart h) (hn : NoWrite S) {t : Nat}
    (ht : S.th t = .idle) (o : Spec.Op K V) :
    ∃ S', SureRun cfg (Sys.start sh) (h ++ [.inv t (.op o), .ret t (.op o) (.res
        (Spec.apply (Spec.mapAfterAll m ((Spec.writesDone h).map Prod.fst)) o).2)]) S' ∧
      (∀ u, S'.th u = S.th u) ∧ NoWrite S' := by
  obtain ⟨sh1, h1, h2⟩ := C80_as_if_alone hr ha
  obtain ⟨n, sh', r, N, h3⟩ := h1.op_ends hR hc hi o
  have h4 := h3 N (Nat.le_refl _)
  have h5 : r = (Spec.apply (Spec.mapAfterAll m ((Spec.writesDone h).map Prod.fst)) o).2 := by
    have g8 := (Spec.Meets.append.mp ((h1.op h4.loose).meets hc hi)).2.1
    generalize he : (Spec.Call.op o : Spec.Call K V) = c at g8
    generalize hr : (Spec.Ret.res r : Spec.Ret K V) = r' at g8
    change Spec.Step _ c _ r' at g8
    cases g8 with
    | op o' => cases he; cases hr; rfl
    | visit => cases he
  subst h5
  obtain ⟨S1, e1, e2, e3, e4, e5⟩ := firmRun_sure (t := t) h4 (hr.event (.event (.op S t N o ht))) (h2 hn)
    (upd_same _ _ _)
  have e6 : ∀ u, upd S1.th t .idle u = S.th u := by
    intro u
    by_cases hu : u = t
    · subst hu; rw [upd_same, ht]
    · rw [upd_ne _ _ hu, e4 u hu]; exact upd_ne _ _ hu
  refine ⟨{ S1 with th := upd S1.th t .idle }, ?_, e6, fun u c p hu => hn u c p ?_⟩
  · have := e1.event (.event (.retOp S1 t o _ e3))
    simpa using this
  · rw [← e6 u]; exact hu

theorem firmRun_next {α : Type} {n : Nat} {s s' : Sh K V} {p : Prog K V α} {a : α}
    (h : FirmRun n s p s' (.ret a)) : p = .ret a ∨ ∃ s'' p'', Firm s p s'' p'' := by
  cases h with
  | refl => exact Or.inl rfl
  | step f _ => exact Or.inr ⟨_, _, f⟩

/-- **C80, visits of scans end.**  The same for the first visit of a scan.  It has no compare-and-swap
that could fail, and what it returns is right for the map. -/
theorem C80_scan_ends (hR : Roomy cfg) (hc : CfgOK2 cfg) {m : K → Option V} {sh : Sh K V}
    (hi : Init cfg m sh) {h : List (Spec.Event K V)} {S : Sys K V}
    (hr : SureRun cfg (Sys.start sh) h S) (ha : Spec.Apart h) (hn : NoWrite S) (t : Nat)
    (b e : Spec.Bound K) :
    ∃ n x N, Spec.Step (Spec.mapAfterAll m ((Spec.writesDone h).map Prod.fst)) (.visit b e)
        (Spec.mapAfterAll m ((Spec.writesDone h).map Prod.fst)) (visitOut (V := V) e x).1 ∧
      ∀ f, N ≤ f → ∀ n' j S',
      During cfg t
        { S with th := upd S.th t (.run (.visit b e)
            ((scanFirst cfg f b e).bind fun x => .ret (visitOut e x))) } n' j S' →
      n' ≤ n ∧ j = 0 ∧ S'.sh = S.sh ∧ ∃ p, S'.th t = .run (.visit b e) p ∧
        (p = .ret (visitOut e x) ∨ ∃ sh'' p', Firm S'.sh p sh'' p') := by
  obtain ⟨sh1, h1, h2⟩ := C80_as_if_alone hr ha
  have h2 := h2 hn
  subst h2
  obtain ⟨s, hs, ⟨fl, r2⟩, r3, r4⟩ := h1.rested hR hc hi
  have hrt := fun f hf => scanFirst_tot hc r2 r3 (b := b) (e := e) (f := f) hf
  obtain ⟨n, x, h5, _⟩ := rt_run (hrt _ (Nat.le_refl _))
  have h6 : ∀ f, _ → FirmRun n S.sh (scanFirst cfg f b e) S.sh (.ret x) :=
    fun f hf => (scanFirst_ext hf).firmRet (hs ▸ h5)
  refine ⟨n, x, s.nfam + np s + 5, ?_, fun f hf n' j S' hd => ?_⟩
  · exact (Spec.Meets.append.mp ((h1.scan (h6 _ (Nat.le_refl _)).loose).meets hc hi)).2.1
  · obtain ⟨_, p, g1, g2⟩ := hd.loose (fun a => ⟨_, rfl⟩) (upd_same _ _ _) (fun u hu => by
      simp only [upd_ne _ _ hu]; exact noWrite_reader hr ha hn u)
    obtain ⟨e1, e2, e3⟩ := rt_loose (hs ▸ hrt f hf) g2
    obtain ⟨e4, e5⟩ := (h6 f hf).prefix e3
    refine ⟨e4, e1, e2, _, g1, ?_⟩
    rcases firmRun_next e5 with rfl | ⟨_, _, e6⟩
    · exact Or.inl rfl
    · exact Or.inr ⟨_, _, e6.bind _⟩

/-- **C80, the index.**  Whenever no write is active, no page makes a thread wait, and every search goes
from index nodes to their children, meets no removal mark and no word that is not set. -/
theorem C80_index (hR : Roomy cfg) (hc : CfgOK2 cfg) {m : K → Option V} {sh : Sh K V}
    (hi : Init cfg m sh) {h : List (Spec.Event K V)} {S : Sys K V}
    (hr : SureRun cfg (Sys.start sh) h S) (ha : Spec.Apart h) (hn : NoWrite S) :
    (∀ p c, S.sh.mt p = some c → c.needWait cfg = false) ∧
    ∀ key closed, Spec.Calm S.sh key closed ∧ Spec.UpToDate S.sh key closed := by
  obtain ⟨sh1, h1, h2⟩ := C80_as_if_alone hr ha
  rw [h2 hn]
  obtain ⟨s, rfl, g2⟩ := h1.rested hR hc hi
  refine ⟨fun p c hm => g2.no_wait hm, fun key closed => ⟨?_, g2.upToDate key closed⟩⟩
  obtain ⟨⟨fl, g3⟩, _⟩ := g2
  exact g3.calm key closed

/-- **C80, statistics (C49).**  Whenever no write is active, the shared memory is such that
`CollectStatisticalData` counts each live page exactly once. -/
theorem C80_stat (hR : Roomy cfg) (hc : CfgOK2 cfg) {m : K → Option V} {sh : Sh K V}
    (hi : Init cfg m sh) {h : List (Spec.Event K V)} {S : Sys K V}
    (hr : SureRun cfg (Sys.start sh) h S) (ha : Spec.Apart h) (hn : NoWrite S) (recSz : Nat) :
    ∃ st N, (∀ f, N ≤ f → collectStat cfg recSz S.sh f S.sh.root 0 [] = some st) ∧
      ∀ d, ∃ ps : List PID, ps.Nodup ∧
        (∀ p, p ∈ ps ↔ Spec.ReachAt S.sh d p ∧ ∃ c, S.sh.mt p = some c ∧ c.isRemoved = false) ∧
        (d < st.length ↔ ps ≠ []) ∧
        ∀ u, st[d]? = some u → u.1 = ps.length ∧ u.2.1 = (ps.map (usedAt recSz S.sh)).sum ∧
          u.2.1 ≤ u.2.2 := by
  obtain ⟨sh1, h1, h2⟩ := C80_as_if_alone hr ha
  rw [h2 hn]
  exact C49_one_thread hR hc hi h1 recSz

/-! ## Checks -/

section
variable {A B : Type} [DecidableEq A] [DecidableEq B]

/-- Until the call `c` of thread `t` returns, no write is called.  (Decidable.) -/
def aloneUntil (t : Nat) (c : Spec.Call A B) : List (Spec.Event A B) → Bool
  | [] => true
  | .inv _ c' :: h => !c'.isWrite && aloneUntil t c h
  | .ret u c' _ :: h => (decide (u = t) && decide (c' = c)) || aloneUntil t c h

/-- Is `Spec.Apart` true?  (Decidable.) -/
def apartCheck : List (Spec.Event A B) → Bool
  | [] => true
  | .inv t c :: h => (!c.isWrite || aloneUntil t c h) && apartCheck h
  | .ret _ _ _ :: h => apartCheck h

theorem aloneUntil_spec {t u : Nat} {c c' : Spec.Call A B} {h2 h3 : List (Spec.Event A B)}
    (hw : c'.isWrite = true) (h : aloneUntil t c (h2 ++ .inv u c' :: h3) = true) :
    ∃ r, .ret t c r ∈ h2 := by
  induction h2 with
  | nil => simp [aloneUntil, hw] at h
  | cons e h2 ih =>
    cases e with
    | inv v d =>
      simp only [List.cons_append, aloneUntil, Bool.and_eq_true] at h
      obtain ⟨r, hr⟩ := ih h.2
      exact ⟨r, List.mem_cons_of_mem _ hr⟩
    | ret v d r =>
      simp only [List.cons_append, aloneUntil, Bool.or_eq_true, Bool.and_eq_true, decide_eq_true_eq] at h
      rcases h with ⟨rfl, rfl⟩ | h
      · exact ⟨r, List.mem_cons_self⟩
      · obtain ⟨r, hr⟩ := ih h
        exact ⟨r, List.mem_cons_of_mem _ hr⟩

theorem apartCheck_spec {h : List (Spec.Event A B)} (hc : apartCheck h = true) : Spec.Apart h := by
  induction h with
  | nil => intro h1 h2 h3 t u c c' e; simp at e
  | cons e h ih =>
    intro h1 h2 h3 t u c c' he hw hw'
    cases h1 with
    | nil =>
      simp only [List.nil_append, List.cons.injEq] at he
      obtain ⟨rfl, rfl⟩ := he
      simp only [apartCheck, Bool.and_eq_true, Bool.or_eq_true, hw] at hc
      exact aloneUntil_spec hw' (hc.1.resolve_left (by simp))
    | cons e' h1 =>
      simp only [List.cons_append, List.cons.injEq] at he
      obtain ⟨rfl, he⟩ := he
      refine ih ?_ h1 h2 h3 t u c c' he hw hw'
      cases e with
      | inv t c => simp only [apartCheck, Bool.and_eq_true] at hc; exact hc.2
      | ret t c r => exact hc

end

/-- Threads 0 and 1 take part, and neither is in a write.  (Decidable.) -/
def noWriteAt (h : List (Spec.Event Nat Nat)) (S : Sys Nat Nat) : Bool :=
  ([0, 1].all fun t => match S.th t with | .idle => true | .run c _ => !c.isWrite) &&
    h.all fun e => decide (evThread e < 2)

theorem noWriteAt_spec {cfg : Cfg Nat} {sh : Sh Nat Nat} {h : List (Spec.Event Nat Nat)} {S : Sys Nat Nat}
    (hr : Run cfg (Sys.start sh) h S) (hq : noWriteAt h S = true) : NoWrite S := by
  intro t c p ht
  simp only [noWriteAt, Bool.and_eq_true, List.all_eq_true, List.mem_cons, List.not_mem_nil, or_false,
    decide_eq_true_eq] at hq
  obtain ⟨h1, h2⟩ := hq
  by_cases hlt : t < 2
  · have := h1 t (by omega)
    rw [ht] at this
    simpa using this
  · have := hr.idle (t := t) fun e he => by have := h2 e he; omega
    rw [ht] at this; cases this

/-- Thread 1 begins to read key 160 and sleeps on its way.  The threads' writes take turns: thread 0
inserts and splits a leaf and the root, and it deletes and merges the leaf. -/
def exApart : List (Cmd Nat Nat) :=
  exIns ((List.range 17).map (· * 10)) ++ [.call 1 100 (.insert 165 1), .call 1 100 (.update 20 3),
    .acts [.op 1 100 (.read 160)], .steps 1 1] ++
  exIns [170, 180, 175] ++ exDel ((List.range 7).map fun i => 10 * i + 50)

/-- A state in which thread 1 is in the middle of a read that began before the splits and merges. -/
example : ∃ (h : List (Spec.Event Nat Nat)) (S : Sys Nat Nat),
    SureRun roomyCfg (Sys.start (initSh roomyCfg)) h S ∧ Spec.Apart h ∧ NoWrite S ∧
    (∃ p, S.th 1 = .run (.op (.read 160)) p) ∧
    (∃ b, S.sh.mt 4 = some (.removed b)) ∧ (∃ c, S.sh.mt S.sh.root = some c ∧ c.isLeaf = false) ∧
    (∀ key closed, Spec.Calm S.sh key closed ∧ Spec.UpToDate S.sh key closed) ∧
    ∀ (o : Spec.Op Nat Nat) (j : Nat), ∃ n N, ∀ f, N ≤ f → ∀ n' j' S', j' ≤ j →
      During roomyCfg 5 { S with th := upd S.th 5 (.run (.op o) ((runOp roomyCfg f o).bind fun r =>
        .ret (.res r, none))) } n' j' S' → n' ≤ n := by
  obtain ⟨h, S, h1, h2⟩ := scenario_sure (cfg := roomyCfg) (cs := exApart)
    (fun h S => (apartCheck h, noWriteAt h S,
      (match S.th 1 with | .run c _ => decide (c = .op (.read 160)) | .idle => false), isMark (S.sh.mt 4),
      (S.sh.mt S.sh.root).map Chain.isLeaf))
    (x := (true, true, true, true, some false)) (by decide +kernel) (by decide)
  simp only [Prod.mk.injEq] at h2
  obtain ⟨ha, hn, ht, hm, hl⟩ := h2
  have ha' := apartCheck_spec ha
  have hn' := noWriteAt_spec h1.run hn
  refine ⟨h, S, h1, ha', hn', ?_, ?_, ?_,
    (C80_index roomyCfg_roomy roomyCfg_ok .empty h1 ha' hn').2, fun o j => ?_⟩
  · cases hs : S.th 1 with
    | idle => rw [hs] at ht; cases ht
    | run c p => rw [hs] at ht; simp at ht; subst ht; exact ⟨p, rfl⟩
  · cases hc : S.sh.mt 4 with
    | none => rw [hc] at hm; cases hm
    | some c =>
      cases c with
      | removed b => exact ⟨b, rfl⟩
      | base n => rw [hc] at hm; cases hm
      | delta d nx => rw [hc] at hm; cases hm
  · simpa [Option.map_eq_some_iff] using hl
  · obtain ⟨n, N, e⟩ := C80_op_ends roomyCfg_roomy roomyCfg_ok .empty h1 ha' hn' 5 o j
    exact ⟨n, N, fun f hf n' j' S' hj hd => (e f hf n' j' S' hj hd).1⟩

/-- Reads that overlap with a write may still fail, even if only thread 0 writes: the reader of `C08_false`
takes a leaf for an index node, with the default parameters that of `C09_false` uses the top of its empty
stack, and the scan of `C10_false` follows a null pointer. -/
theorem C80_overlap_false :
    (∃ (h : List (Spec.Event Nat Nat)) (S : Sys Nat Nat),
      SureRun tinyCfg (Sys.start (initSh tinyCfg)) h S ∧ Spec.Apart h ∧ flagAt S 1 = some .leafAsInner) ∧
    (∃ (h : List (Spec.Event Nat Nat)) (S : Sys Nat Nat),
      SureRun defCfg (Sys.start (initSh defCfg)) h S ∧ Spec.Apart h ∧ flagAt S 1 = some .emptyStack) ∧
    ∃ (h : List (Spec.Event Nat Nat)) (S : Sys Nat Nat),
      SureRun tinyCfg (Sys.start (initSh tinyCfg)) h S ∧ Spec.Apart h ∧ flagAt S 1 = some .nullNext := by
  refine ⟨?_, ?_, ?_⟩
  · obtain ⟨h, S, h1, h2⟩ := scenario_sure (cfg := tinyCfg) (cs := exShrink)
      (fun h S => (apartCheck h, flagAt S 1)) (x := (true, some .leafAsInner)) (by decide +kernel) (by decide)
    simp only [Prod.mk.injEq] at h2
    exact ⟨h, S, h1, apartCheck_spec h2.1, h2.2⟩
  · obtain ⟨h, S, h1, h2⟩ := scenario_sure (cfg := defCfg) (cs := exReadRoot)
      (fun h S => (apartCheck h, flagAt S 1)) (x := (true, some .emptyStack)) (by decide +kernel) (by decide)
    simp only [Prod.mk.injEq] at h2
    exact ⟨h, S, h1, apartCheck_spec h2.1, h2.2⟩
  · obtain ⟨h, S, h1, h2⟩ := scenario_sure (cfg := tinyCfg) (cs := exScanRoot)
      (fun h S => (apartCheck h, flagAt S 1)) (x := (true, some .nullNext)) (by decide +kernel) (by decide)
    simp only [Prod.mk.injEq] at h2
    exact ⟨h, S, h1, apartCheck_spec h2.1, h2.2⟩

end BwTree.Props
