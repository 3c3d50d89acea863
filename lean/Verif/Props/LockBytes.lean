import Verif.Bytes.ActExec
import Verif.Props.QuietBytes
import Verif.Props.Exclusive

/-!
# Writes that take turns, and reader-writer locks, on bytes

C80 and C81 for the bytes of a tree; compare-and-swaps compare addresses.
-/

namespace BwTree.Props

open Layout (Mem BBound Enc)
open Bytes

set_option linter.unusedSectionVars false

variable {L : Lay} {legal : Spec.Call Str Str → Prop} {lt : Str → Str → Bool} {lim : Nat}
  {M : Str → Option Str} {S₀ S : BSys L} {h : List (Spec.Event Str Str)}

/-- No write is active. -/
def BNoWrite (S : BSys L) : Prop := ∀ t c p, S.th t = .run c p → c.isWrite = false

/-- No call is active, and there are no iterators. -/
def BSys.Quiet (S : BSys L) : Prop := (∀ t, S.th t = .idle) ∧ ∀ t, S.it t = none

theorem bserial_noWrite {b0 : BSh L.C} (hs : BSerial L legal b0 h S) :
    ∃ b, BSession L legal b0 (Spec.writesDone h) b none ∧ b.npid ≤ S.sh.npid ∧
      (BNoWrite S → S.sh = b ∧ ∀ t, (S.th t).Reader) := by
  obtain ⟨b, h1, ⟨h2, h3⟩ | ⟨t, o, h2, _, ⟨f, p, h3, h4⟩, _⟩⟩ := hs
  · exact ⟨b, h1, by rw [h3], fun _ => ⟨h3, h2⟩⟩
  · refine ⟨b, h1, h4.npid, fun hn => ?_⟩
    have := hn t _ _ h3
    rw [Spec.Call.isWrite, h2] at this
    cases this

/-- **C82, as if alone.**  In an execution in which no two writes overlap, the writes that have returned are
calls of one thread, one after the other, with the same results.  Whenever no write is active, the shared
memory is that of this thread. -/
theorem C82_as_if_alone (h0 : ∀ t, S₀.th t = .idle) (hr : BSureRun L legal S₀ h S) (ha : Spec.Apart h) :
    ∃ b, BSession L legal S₀.sh (Spec.writesDone h) b none ∧ (BNoWrite S → S.sh = b) := by
  obtain ⟨b, h1, _, h2⟩ := bserial_noWrite (hr.serial h0 ha)
  exact ⟨b, h1, fun hn => (h2 hn).1⟩

/-- **C82, results.**  The writes return what the map returns when they are applied one after the
other. -/
theorem C82_answers (hw : Works L legal lt lim M S₀.sh) (h0 : ∀ t, S₀.th t = .idle)
    (hr : BSureRun L legal S₀ h S) (ha : Spec.Apart h) (hlim : S.sh.npid ≤ lim) :
    @Spec.Meets Str Str _ (strLT lt) M (Spec.writesDone h) := by
  obtain ⟨b, h1, h2, _⟩ := bserial_noWrite (hr.serial h0 ha)
  exact hw.meets h1 (Nat.le_trans h2 hlim)

theorem bends_goes {α : Type} {stop : BSh L.C → Prop} {Q : α → BSh L.C → Prop} {n : Nat} {b : BSh L.C}
    {p : BProg L.C α} {g : α → BProg L.C BOut} (h : BEnds stop Q n b p) :
    stop b ∨ (∃ a, p = .ret a ∧ Q a b) ∨ ∃ b' p', BFirm b (p.bind g) b' p' := by
  have go : ¬ Halted p → ∃ b' p', BFirm b (p.bind g) b' p' := by
    intro hp
    refine bfirm_exists _ _ fun hh => hp ?_
    cases p <;> trivial
  cases h with
  | ret hq => exact Or.inr (Or.inl ⟨_, rfl, hq⟩)
  | full hs => exact Or.inl hs
  | page _ => exact Or.inr (Or.inr (go fun hh => hh))
  | step hx _ =>
    refine Or.inr (Or.inr (go fun hh => ?_))
    obtain ⟨b', p', hf⟩ := hx
    have := hf.step
    cases this <;> exact hh

/-- **C82, operations end.**  Thread `t` calls any operation when no write is active, and until it returns
no write is called.  There is a bound `n` on the number of its own accesses to shared memory, whatever the
other threads do; at any time the operation can go on, or it is about to return what the map returns.  The
one exception is that the page IDs reach `lim`. -/
theorem C82_op_ends (hw : Works L legal lt lim M S₀.sh) (h0 : ∀ t, S₀.th t = .idle)
    (hr : BSureRun L legal S₀ h S) (ha : Spec.Apart h) (hn : BNoWrite S) (hlim : S.sh.npid ≤ lim) (t : Nat)
    {o : Spec.Op Str Str} (ho : legal (.op o)) :
    ∃ n N, ∀ f, N ≤ f → ∀ n' S',
      BDuring L legal t
        { S with th := upd S.th t (.run (.op o) ((Bytes.runOp L f o).bind fun r => .ret (.res r, none))) }
        n' S' →
      lim < S'.sh.npid ∨ n' ≤ n ∧ ∃ p, S'.th t = .run (.op o) p ∧
        (p = .ret (.res (Spec.apply (Spec.mapAfterAll M ((Spec.writesDone h).map Prod.fst)) o).2, none) ∨
          ∃ b' p', BFirm S'.sh p b' p') := by
  obtain ⟨b, h1, _, h2⟩ := bserial_noWrite (hr.serial h0 ha)
  obtain ⟨rfl, h3⟩ := h2 hn
  obtain ⟨n, N, h4⟩ := hw.ends h1 hlim ho
  refine ⟨n, N, fun f hf n' S' hd => ?_⟩
  obtain ⟨_, p, g1, g2⟩ := hd.ends (stop := fun b => lim < b.npid) (fun a => ⟨_, rfl⟩)
    (fun _ _ e1 e2 => Nat.lt_of_lt_of_le e2 e1) (upd_same _ _ _)
    (fun u hu => by simp only [upd_ne _ _ hu]; exact h3 u) (h4 f hf)
  rcases g2 with g2 | ⟨n1, g2, g3⟩
  · exact Or.inl g2
  · rcases bends_goes (g := fun r => .ret (.res r, none)) g3 with g4 | ⟨a, rfl, g4⟩ | g4
    · exact Or.inl g4
    · exact Or.inr ⟨by omega, _, g1, Or.inl (by rw [← g4]; rfl)⟩
    · exact Or.inr ⟨by omega, _, g1, Or.inr g4⟩

/-- A visit among readers. -/
theorem bvisit_during {t n : Nat} {c : Spec.Call Str Str} {e : BBound} {b : BSh L.C}
    {P : BProg L.C (List (Str × Str) × Option (Str × PID))}
    {Q : List (Str × Str) × Option (Str × PID) → Prop} (hb : S.sh = b) (h3 : ∀ t, (S.th t).Reader)
    (he : BEnds (fun _ => False) (fun x b' => b' = b ∧ Q x) n b P) {n' : Nat} {S' : BSys L}
    (hd : BDuring L legal t { S with th := upd S.th t (.run c (P.bind fun x => .ret (visitOut e x))) } n' S') :
    n' ≤ n ∧ ∃ p, S'.th t = .run c p ∧
      ((∃ x, p = .ret (visitOut e x) ∧ Q x ∧ S'.sh = S.sh) ∨ ∃ b' p', BFirm S'.sh p b' p') := by
  subst hb
  obtain ⟨_, p, g1, g2⟩ := hd.ends (stop := fun _ => False) (fun a => ⟨_, rfl⟩) (fun _ _ _ e2 => e2)
    (upd_same _ _ _) (fun u hu => by simp only [upd_ne _ _ hu]; exact h3 u) he
  rcases g2 with g2 | ⟨n1, g2, g3⟩
  · exact g2.elim
  · rcases bends_goes (g := fun x => .ret (visitOut e x)) g3 with g4 | ⟨a, rfl, g4⟩ | g4
    · exact g4.elim
    · exact ⟨by omega, _, g1, Or.inl ⟨a, rfl, g4.2, g4.1⟩⟩
    · exact ⟨by omega, _, g1, Or.inr g4⟩

/-- **C82, scans end.**  The same for `Scan`, without exception; it returns a page of the map. -/
theorem C82_scan_ends (hw : Works L legal lt lim M S₀.sh) (h0 : ∀ t, S₀.th t = .idle)
    (hr : BSureRun L legal S₀ h S) (ha : Spec.Apart h) (hn : BNoWrite S) (hlim : S.sh.npid ≤ lim) (t : Nat)
    {b e : BBound} (ho : legal (.visit b e)) :
    ∃ n N, ∀ f, N ≤ f → ∀ n' S',
      BDuring L legal t
        { S with th := upd S.th t (.run (.visit b e)
            ((Bytes.scanFirst L f b e).bind fun x => .ret (visitOut e x))) } n' S' →
      n' ≤ n ∧ ∃ p, S'.th t = .run (.visit b e) p ∧
        ((∃ x, p = .ret (visitOut e x) ∧
          @Spec.PageOK Str Str (strLT lt) (Spec.mapAfterAll M ((Spec.writesDone h).map Prod.fst)) b e x.1
            (x.2.map Prod.fst) ∧ S'.sh = S.sh) ∨ ∃ b' p', BFirm S'.sh p b' p') := by
  obtain ⟨b1, h1, _, h2⟩ := bserial_noWrite (hr.serial h0 ha)
  obtain ⟨rfl, h3⟩ := h2 hn
  obtain ⟨n, N, h4⟩ := hw.visits h1 hlim ho
  exact ⟨n, N, fun f hf n' S' hd => bvisit_during rfl h3 (h4 f hf) hd⟩

/-- **C82, safety.**  In an execution in which writes overlap with no other call (as under a reader-writer
lock), no call runs into undefined behaviour or an event of `Flag`. -/
theorem C82_safe (hw : Works L legal lt lim M S₀.sh) (h0 : BSys.Quiet S₀)
    (hr : BSureRun L legal S₀ h S) (he : Spec.Exclusive h) (hlim : S.sh.npid ≤ lim) {t : Nat}
    {c : Spec.Call Str Str} {p : BProg L.C BOut} (ht : S.th t = .run c p) :
    p ≠ .ub ∧ ∀ k, p ≠ .flag k := by
  obtain ⟨b1, g1, g2, g3⟩ := hr.excl h0.1 h0.2 he
  rcases g3 with ⟨rfl, g4⟩ | ⟨w, o, g3, gl, ⟨f, q, e1, e2⟩, g4⟩
  · have hp := g4 t c p ht
    cases hp with
    | op hw' hl hr hq => exact BProg.Fine.bind (hw.opSafe g1 hl hr hlim) fun a => ⟨_, rfl⟩
    | scan hl hr hq => exact BProg.Fine.bind (hw.scanSafe g1 hl hr hlim) fun a => ⟨_, rfl⟩
    | next hl hm hr hq => exact BProg.Fine.bind (hw.nextSafe hl hr hlim) fun a => ⟨_, rfl⟩
  · by_cases hne : t = w
    · subst hne
      rw [e1] at ht
      cases ht
      exact BProg.Fine.bind (hw.opSafe g1 gl e2 hlim) fun a => ⟨_, rfl⟩
    · rw [g4 t hne] at ht; cases ht

/-- **C82, iterators.**  The next visit of an iterator makes a bounded number of accesses and returns a page
of the map, although writes may have split, merged and removed pages since the iterator was obtained. -/
theorem C82_next_ends (hw : Works L legal lt lim M S₀.sh) (h0 : BSys.Quiet S₀)
    (hr : BSureRun L legal S₀ h S) (he : Spec.Exclusive h) (hn : BNoWrite S) (hlim : S.sh.npid ≤ lim)
    {t : Nat} {q : PID} {k : Str} {e : BBound} (hit : S.it t = some (q, k, e)) :
    ∃ n N, ∀ f, N ≤ f → ∀ n' S',
      BDuring L legal t
        { S with th := upd S.th t (.run (.visit (some (k, true)) e)
            ((Bytes.scanNext L f q k e).bind fun x => .ret (visitOut e x))) } n' S' →
      n' ≤ n ∧ ∃ p, S'.th t = .run (.visit (some (k, true)) e) p ∧
        ((∃ x, p = .ret (visitOut e x) ∧
          @Spec.PageOK Str Str (strLT lt) (Spec.mapAfterAll M ((Spec.writesDone h).map Prod.fst))
            (some (k, true)) e x.1 (x.2.map Prod.fst) ∧ S'.sh = S.sh) ∨ ∃ b' p', BFirm S'.sh p b' p') := by
  obtain ⟨_, _, _, h2⟩ := bserial_noWrite (hr.serial h0.1 he.apart)
  obtain ⟨_, h3⟩ := h2 hn
  obtain ⟨b1, g1, g2, g3⟩ := hr.excl h0.1 h0.2 he
  have hs : S.sh = b1 := by
    rcases g3 with g3 | ⟨w, o, g3, _, ⟨f, p, e1, _⟩, _⟩
    · exact g3.1
    · have := hn w _ _ e1
      rw [Spec.Call.isWrite, g3] at this
      cases this
  subst hs
  obtain ⟨l, k1, k2⟩ := g2 t
  rw [hit] at k1
  obtain ⟨n, N, h4⟩ := hw.nexts k1 hlim
  refine ⟨n, N, fun f hf n' S' hd => bvisit_during rfl h3 ?_ hd⟩
  have := h4 f hf
  rw [k2 M] at this
  exact this

/-- **C82, executions.**  When no write is active, an idle thread can run any operation to its end, with
what the map returns, or it takes a page ID beyond `lim`; the other threads may be in calls that read. -/
theorem C82_op_run (hw : Works L legal lt lim M S₀.sh) (h0 : ∀ t, S₀.th t = .idle)
    (hr : BSureRun L legal S₀ h S) (ha : Spec.Apart h) (hn : BNoWrite S) (hlim : S.sh.npid ≤ lim) {t : Nat}
    (ht : S.th t = .idle) {o : Spec.Op Str Str} (ho : legal (.op o)) :
    ∃ S', (BSureRun L legal S₀ (h ++ [.inv t (.op o), .ret t (.op o) (.res
        (Spec.apply (Spec.mapAfterAll M ((Spec.writesDone h).map Prod.fst)) o).2)]) S' ∧
        (∀ u, S'.th u = S.th u) ∧ S'.it = S.it) ∨
      BSureRun L legal S₀ (h ++ [.inv t (.op o)]) S' ∧ lim < S'.sh.npid := by
  obtain ⟨b, h1, _, h2⟩ := bserial_noWrite (hr.serial h0 ha)
  obtain ⟨rfl, _⟩ := h2 hn
  obtain ⟨n, N, h4⟩ := hw.ends h1 hlim ho
  obtain ⟨b', q', g1, g2⟩ := (h4 N (Nat.le_refl _)).exists
  have g3 := BSureRun.firm (t := t) (c := .op o) (bfirmRun_bind g1 _)
    (hr.event (.event (.op S t N o ho ht))) rfl (upd_same _ _ _)
  simp only [bupd_twice] at g3
  rcases g2 with g2 | ⟨a, rfl, rfl⟩
  · exact ⟨_, Or.inr ⟨g3, g2⟩⟩
  · have g4 := g3.event (.event (.retOp _ t o _ (upd_same _ _ _)))
    simp only [bupd_twice] at g4
    refine ⟨{ S with sh := b', th := upd S.th t .idle }, Or.inl ⟨by simpa using g4, fun u => ?_, rfl⟩⟩
    by_cases hu : u = t
    · subst hu; exact (upd_same _ _ _).trans ht.symm
    · exact upd_ne _ _ hu

/-! ## Starts -/

/-- C82 holds from a new tree with variable-length keys. -/
theorem C82_var_start {P : VPar} {mk : Nat} [LinearOrder (KStr mk)] (hP : P.OK mk)
    (hlt : ∀ a b : KStr mk, P.lt a.1 b.1 = decide (a < b)) (hR : Roomy (P.cfg mk)) (m : Mem) :
    Works (varLay P) (okCall P mk) P.lt (256 ^ P.pid) (fun _ => none) (bstart (varLay P) m).sh ∧
      BSys.Quiet (bstart (varLay P) m) :=
  ⟨setup_works (vsetup hP hlt hR m), fun _ => rfl, fun _ => rfl⟩

/-- C82 holds from a new or bulk-loaded tree with fixed-length keys. -/
theorem C82_fix_start {P : Fix.FPar} [LinearOrder (VStr P.c.klen)] (hP : P.OK)
    (hlt : ∀ a b : VStr P.c.klen, P.lt a.1 b.1 = decide (a < b)) (hR : Roomy P.cfg)
    {m : VStr P.c.klen → Option (VStr P.pay)} {B₀ : BSys (Fix.fixLay P)} (hs : Fix.FStart P m B₀) :
    Works (Fix.fixLay P) (Fix.okCall P) P.lt (256 ^ P.pid) (strMap m) B₀.sh ∧ BSys.Quiet B₀ := by
  refine ⟨setup_works (fsetup hP hlt hR hs), ?_⟩
  cases hs <;> exact ⟨fun _ => rfl, fun _ => rfl⟩

/-- **C82, everything.**  Under a reader-writer lock a tree with variable-length keys is linearizable (from
string to string) and safe. -/
theorem C82_var_locked {P : VPar} {mk : Nat} [LinearOrder (KStr mk)] (hP : P.OK mk)
    (hlt : ∀ a b : KStr mk, P.lt a.1 b.1 = decide (a < b)) (hR : Roomy (P.cfg mk)) {m : Mem}
    {S : BSys (varLay P)} (hr : BSureRun (varLay P) (okCall P mk) (bstart (varLay P) m) h S)
    (he : Spec.Exclusive h) (hlim : S.sh.npid ≤ 256 ^ P.pid) :
    (∃ a, @Spec.Accepts Str Str _ (strLT P.lt) ⟨fun _ => none, fun _ => .idle⟩ h a) ∧
      ∀ t c p, S.th t = .run c p → p ≠ .ub ∧ ∀ k, p ≠ .flag k := by
  obtain ⟨w, q⟩ := C82_var_start hP hlt hR m
  exact ⟨C62_bytes_accepted_partial hP hlt hr.run hlim, fun t c p ht => C82_safe w q hr he hlim ht⟩

/-- The same with fixed-length keys, on a new or bulk-loaded tree. -/
theorem C82_fix_locked {P : Fix.FPar} [LinearOrder (VStr P.c.klen)] (hP : P.OK)
    (hlt : ∀ a b : VStr P.c.klen, P.lt a.1 b.1 = decide (a < b)) (hR : Roomy P.cfg)
    {m : VStr P.c.klen → Option (VStr P.pay)} {B₀ S : BSys (Fix.fixLay P)} (hs : Fix.FStart P m B₀)
    (hr : BSureRun (Fix.fixLay P) (Fix.okCall P) B₀ h S) (he : Spec.Exclusive h)
    (hlim : S.sh.npid ≤ 256 ^ P.pid) :
    (∃ a, @Spec.Accepts Str Str _ (strLT P.lt) ⟨strMap m, fun _ => .idle⟩ h a) ∧
      ∀ t c p, S.th t = .run c p → p ≠ .ub ∧ ∀ k, p ≠ .flag k := by
  obtain ⟨w, q⟩ := C82_fix_start hP hlt hR hs
  exact ⟨C65_bytes_accepted_partial hP hlt hs hr.run hlim, fun t c p ht => C82_safe w q hr he hlim ht⟩

/-! ## Examples -/

/-- Thread 0 inserts, thread 1 scans the first page, thread 0 removes most of the records, which merges
pages, and thread 2 calls a read. -/
def lockActs : List BAct :=
  ((List.range 24).reverse.map fun i => .full 0 (.op (.insert (strKey i) (strVal i)))) ++
  [.full 1 (.visit none none)] ++
  ((List.range 20).reverse.map fun i => .full 0 (.op (.delete (strKey i)))) ++
  [.call 2 (.read (strKey 21))]

set_option maxRecDepth 100000 in
/-- The iterator of thread 1 refers to page 4, which is removed. -/
theorem lockActs_run : ∃ (h : List (Spec.Event Str Str)) (S : BSys (varLay exPar)),
    BSureRun (varLay exPar) (okCall exPar 8) (bstart (varLay exPar) fun _ => 7) h S ∧
    Spec.Exclusive h ∧ BNoWrite S ∧ S.sh.npid = 5 ∧ S.it 1 = some (4, strKey 8, none) ∧
    (∃ hd, S.sh.mt 4 = some hd ∧ (varLay exPar).isRemoved hd.ch = true) ∧
    (∃ p, S.th 2 = .run (.op (.read (strKey 21))) p) ∧ (∀ t, t ≠ 2 → S.th t = .idle) ∧
    Spec.mapAfterAll (fun _ => none) ((Spec.writesDone h).map Prod.fst) (strKey 21) = some (strVal 21) ∧
    (Spec.writesDone h).length = 44 := by
  have hx : ((execActs (L := varLay exPar) 60 1000 [] (bstart (varLay exPar) fun _ => 7) lockActs).elim
      false fun x => exclusiveCheck x.1 && decide (x.2.sh.npid = 5) &&
        decide (x.2.it 1 = some (4, strKey 8, none)) &&
        ((x.2.sh.mt 4).elim false fun h => (varLay exPar).isRemoved h.ch) &&
        (match x.2.th 2 with | .run c _ => decide (c = .op (.read (strKey 21))) | .idle => false) &&
        decide ((Spec.writesDone x.1).length = 44) &&
        decide (Spec.mapAfterAll (fun _ => none) ((Spec.writesDone x.1).map Prod.fst) (strKey 21) =
          some (strVal 21))) = true := by decide +kernel
  cases he : execActs (L := varLay exPar) 60 1000 [] (bstart (varLay exPar) fun _ => 7) lockActs with
  | none => rw [he] at hx; cases hx
  | some x =>
    rw [he] at hx
    obtain ⟨h, S⟩ := x
    simp only [Option.elim_some, Bool.and_eq_true, decide_eq_true_eq] at hx
    obtain ⟨⟨⟨⟨⟨⟨h1, h2⟩, h3⟩, h4⟩, h5⟩, h6⟩, h7⟩ := hx
    refine ⟨h, S, execActs_sound (legal := okCall exPar 8) .nil (by decide +kernel) he,
      exclusiveCheck_spec h1, ?_, h2, h3, ?_, ?_, ?_, h7, h6⟩
    · intro t c p ht
      rcases execActs_open he ht with h8 | ⟨o, h8, rfl⟩
      · cases h8
      · simp [lockActs] at h8
        rw [h8.2]; rfl
    · cases hm : S.sh.mt 4 with
      | none => rw [hm] at h4; cases h4
      | some hd => rw [hm] at h4; exact ⟨hd, rfl, h4⟩
    · cases hm : S.th 2 with
      | idle => rw [hm] at h5; cases h5
      | run c p => rw [hm] at h5; simp at h5; subst h5; exact ⟨p, rfl⟩
    · intro t ht
      cases hm : S.th t with
      | idle => rfl
      | run c p =>
        rcases execActs_open he hm with h8 | ⟨o, h8, rfl⟩
        · cases h8
        · simp [lockActs] at h8
          exact absurd h8.1 ht

/-- All of C82 applies: thread 1 goes on with its iterator, thread 3 reads and writes, and the read of
thread 2 is safe. -/
example : ∃ (h : List (Spec.Event Str Str)) (S : BSys (varLay exPar)) (k : Str),
    BSureRun (varLay exPar) (okCall exPar 8) (bstart (varLay exPar) fun _ => 7) h S ∧
    S.it 1 = some (4, k, none) ∧ (∃ hd, S.sh.mt 4 = some hd ∧ (varLay exPar).isRemoved hd.ch = true) ∧
    (∃ p, S.th 2 = .run (.op (.read (strKey 21))) p ∧ p ≠ .ub ∧ ∀ k, p ≠ .flag k) ∧
    @Spec.Meets Str Str _ (strLT exPar.lt) (fun _ => none) (Spec.writesDone h) ∧
    (Spec.writesDone h).length = 44 ∧
    (∃ n N, ∀ f, N ≤ f → ∀ n' S',
      BDuring (varLay exPar) (okCall exPar 8) 1 { S with th := upd S.th 1 (.run (.visit (some (k, true)) none)
        ((Bytes.scanNext (varLay exPar) f 4 k none).bind fun x => .ret (visitOut none x))) } n' S' → n' ≤ n) ∧
    ∃ S', BSureRun (varLay exPar) (okCall exPar 8) (bstart (varLay exPar) fun _ => 7)
      (h ++ [.inv 3 (.op (.read (strKey 21))),
        .ret 3 (.op (.read (strKey 21))) (.res (.payload (some (strVal 21))))]) S' ∨
      BSureRun (varLay exPar) (okCall exPar 8) (bstart (varLay exPar) fun _ => 7)
        (h ++ [.inv 3 (.op (.read (strKey 21)))]) S' ∧ 256 ^ exPar.pid < S'.sh.npid := by
  obtain ⟨h, S, h1, h2, h3, h4, h5, h6, ⟨p, h7⟩, h8, h9, h10⟩ := lockActs_run
  obtain ⟨w, q⟩ := C82_var_start exPar_ok exPar_lt exPar_roomy fun _ => 7
  have hl : S.sh.npid ≤ 256 ^ exPar.pid := by rw [h4]; decide
  refine ⟨h, S, strKey 8, h1, h5, h6, ⟨p, h7, C82_safe w q h1 h2 hl h7⟩, C82_answers w q.1 h1 h2.apart hl,
    h10, ?_, ?_⟩
  · obtain ⟨n, N, g⟩ := C82_next_ends w q h1 h2 h3 hl h5
    exact ⟨n, N, fun f hf n' S' hd => (g f hf n' S' hd).1⟩
  · obtain ⟨S', g⟩ := C82_op_run w q.1 h1 h2.apart h3 hl (h8 3 (by decide)) (o := .read (strKey 21)) (by decide)
    simp only [Spec.apply, h9] at g
    exact ⟨S', g.imp And.left id⟩

end BwTree.Props
