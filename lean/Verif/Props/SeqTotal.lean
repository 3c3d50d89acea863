import Verif.Conc.SessionExec
import Verif.Props.SeqFull
import Verif.Props.Scan

/-!
# C07, C11 - C14, C42, C47: a thread that runs alone, total correctness

`Session` (in `Conc/Session.lean`): one thread issues complete calls one after the other, on the
empty tree or on a bulkloaded one; in a call a weak compare-and-swap may fail spuriously any number of
times.  `FirmRun` are the runs without spurious failures; for the others see `Props/Spurious.lean`.

The programs of the model carry a bound on the number of loop iterations, which the source does not
have.  The bound is arbitrary in an execution; "for all sufficiently large bounds" says that the
call ends.
-/

namespace BwTree.Props

open BwTree

set_option linter.unusedSectionVars false

variable {K V : Type} [LinearOrder K] {cfg : Cfg K}

theorem defCfg_roomy : Roomy defCfg := ⟨by decide, by decide⟩

/-- Small pages that leave room after a split: 10 records per page. -/
def roomyCfg : Cfg Nat :=
  { page := 192, hdr := 32, leafLen := 16, idxLen := 16, minSize := 48, thr := 2, maxDelta := 64 }

theorem roomyCfg_roomy : Roomy roomyCfg := ⟨by decide, by decide⟩

theorem roomyCfg_ok : CfgOK2 roomyCfg :=
  { leaf := by decide, idx := by decide, leafPos := by decide, idxPos := by decide,
    hdrPos := by decide, maxPos := by decide, rootFits := by decide, min := by decide,
    keys := fun _ => Nat.le_refl _, var := Or.inl rfl, minVar := Or.inl rfl }

/-! ## Sessions are executions -/

/-- A session is an execution of the system, by any thread. -/
theorem C07_session_run {sh0 sh : Sh K V} {l : List (Spec.Call K V × Spec.Ret K V)}
    {it : Option (PID × K × Spec.Bound K)} (h : Session cfg sh0 l sh it) (t : Nat) :
    ∃ S, Run cfg (Sys.start sh0) (Spec.callHist t l) S ∧ S.sh = sh ∧ S.th t = .idle ∧
      S.it t = it := by
  obtain ⟨S, h1, h2, h3, h4⟩ := h.run t
  exact ⟨S, h1, h2, h3 t, h4⟩

/-! ## C07: point operations -/

/-- After any session, every point operation ends, whatever the bound on its loops as long as it is
large enough: it takes `n` steps, no run of it is longer, it returns what the map returns after the
calls so far, and the session goes on with it. -/
theorem C07_call_ends (hR : Roomy cfg) (hc : CfgOK2 cfg) {m : K → Option V} {sh0 sh : Sh K V}
    (hi : Init cfg m sh0) {l : List (Spec.Call K V × Spec.Ret K V)}
    {it : Option (PID × K × Spec.Bound K)} (h : Session cfg sh0 l sh it) (o : Spec.Op K V) :
    ∃ n sh' N, (∀ f, N ≤ f → FirmRun n sh (runOp cfg f o) sh'
        (.ret (Spec.apply (Spec.mapAfterAll m (l.map Prod.fst)) o).2)) ∧
      (∀ f n' sh'' p, N ≤ f → FirmRun n' sh (runOp cfg f o) sh'' p → n' ≤ n) ∧
      Session cfg sh0
        (l ++ [(.op o, .res (Spec.apply (Spec.mapAfterAll m (l.map Prod.fst)) o).2)]) sh' it := by
  obtain ⟨n, sh', r, N, h1⟩ := h.op_ends hR hc hi o
  have h2 := h.op (h1 N (Nat.le_refl _)).loose
  have h3 := (Spec.Meets.append.mp (h2.meets hc hi)).2.1
  have h4 : r = (Spec.apply (Spec.mapAfterAll m (l.map Prod.fst)) o).2 := by
    generalize he : (Spec.Call.op o : Spec.Call K V) = c at h3
    generalize hr : (Spec.Ret.res r : Spec.Ret K V) = r' at h3
    change Spec.Step _ c _ r' at h3
    cases h3 with
    | op o' => cases he; cases hr; rfl
    | visit => cases he
  subst h4
  exact ⟨n, sh', N, h1, fun f n' sh'' p hf hr => ((h1 f hf).unique hr).1, h2⟩

/-- **C07.**  Every finite sequence of point operations issued by one thread runs to its end and
returns exactly what the abstract map returns. -/
theorem C07_total (hR : Roomy cfg) (hc : CfgOK2 cfg) {m : K → Option V} {sh0 : Sh K V}
    (hi : Init cfg m sh0) (ops : List (Spec.Op K V)) :
    ∃ (l : List (Spec.Op K V × Spec.Res V)) (sh : Sh K V),
      Session cfg sh0 (l.map fun x => (.op x.1, .res x.2)) sh none ∧
      l.map Prod.fst = ops ∧ l.map Prod.snd = Spec.answers m ops := by
  suffices H : ∀ (ops : List (Spec.Op K V)) (pre : List (Spec.Call K V × Spec.Ret K V)) (sh : Sh K V),
      Session cfg sh0 pre sh none → ∃ (l : List (Spec.Op K V × Spec.Res V)) (sh' : Sh K V),
        Session cfg sh0 (pre ++ l.map fun x => (.op x.1, .res x.2)) sh' none ∧ l.map Prod.fst = ops ∧
        l.map Prod.snd = Spec.answers (Spec.mapAfterAll m (pre.map Prod.fst)) ops by
    obtain ⟨l, sh, h1, h2⟩ := H ops [] sh0 .start
    exact ⟨l, sh, h1, h2⟩
  intro ops
  induction ops with
  | nil => intro pre sh h; exact ⟨[], sh, by simpa using h, rfl, rfl⟩
  | cons o ops ih =>
    intro pre sh h
    obtain ⟨n, sh', N, _, _, h2⟩ := C07_call_ends hR hc hi h o
    obtain ⟨l, sh'', h3, h4, h5⟩ := ih _ _ h2
    refine ⟨(o, (Spec.apply (Spec.mapAfterAll m (pre.map Prod.fst)) o).2) :: l, sh'', ?_, ?_, ?_⟩
    · rw [List.map_cons, List.append_cons]; exact h3
    · rw [List.map_cons, h4]
    · rw [List.map_cons, h5, List.map_append, Spec.mapAfterAll_append]; rfl

/-- Every session of point operations returns what the abstract map returns (so those of `C07_total`
are the only ones). -/
theorem C07_answers (hc : CfgOK2 cfg) {m : K → Option V} {sh0 sh : Sh K V} (hi : Init cfg m sh0)
    {l : List (Spec.Op K V × Spec.Res V)} {it : Option (PID × K × Spec.Bound K)}
    (h : Session cfg sh0 (l.map fun x => (.op x.1, .res x.2)) sh it) :
    l.map Prod.snd = Spec.answers m (l.map Prod.fst) := by
  obtain ⟨S, h1, _⟩ := h.run 0
  rw [Spec.callHist_op] at h1
  exact C07_sequential_partial hc hi h1

/-- 24 inserts in descending order, deletes of most of the records, and reads. -/
def exCalls : List (Spec.Op Nat Nat) :=
  ((List.range 24).reverse.map fun k => .insert k (k + 100)) ++
  ((List.range 20).reverse.map fun k => .delete k) ++ [.read 3, .read 21, .update 21 7, .read 21]

/-- The sequence makes pages split and merge. -/
example : ∃ (l : List (Spec.Op Nat Nat × Spec.Res Nat)) (sh : Sh Nat Nat),
    Session roomyCfg (initSh roomyCfg) (l.map fun x => (.op x.1, .res x.2)) sh none ∧
    l.length = 48 ∧ l.getLast? = some (.read 21, .payload (some 7)) ∧
    2 < sh.npid ∧ ((List.range sh.npid).any fun p => isMark (sh.mt p)) = true := by
  obtain ⟨l, sh, h1, h2⟩ := session_witness (cfg := roomyCfg) (f := 60) (n := 200) (os := exCalls)
    (sh0 := initSh roomyCfg)
    (g := fun l sh => (l.length, l.getLast?, decide (2 < sh.npid) &&
      ((List.range sh.npid).any fun p => isMark (sh.mt p))))
    (x := (48, some (.read 21, .payload (some 7)), true)) (by decide +kernel)
  simp only [Prod.mk.injEq, Bool.and_eq_true, decide_eq_true_eq] at h2
  exact ⟨l, sh, h1, h2.1, h2.2.1, h2.2.2⟩

/-- The configuration of the sources. -/
example (ops : List (Spec.Op Nat Nat)) : ∃ (l : List (Spec.Op Nat Nat × Spec.Res Nat)) (sh : Sh Nat Nat),
    Session defCfg (initSh defCfg) (l.map fun x => (.op x.1, .res x.2)) sh none ∧
      l.map Prod.fst = ops ∧ l.map Prod.snd = Spec.answers (fun _ => none) ops :=
  C07_total defCfg_roomy defCfg_ok .empty ops

/-! ## Scans -/

theorem _root_.BwTree.Spec.Meets.pages {m : K → Option V} {e : Spec.Bound K} :
    ∀ {vs : List (Spec.Visit K V)}, Spec.Meets m (vs.map (visitCall e)) →
      ∀ v ∈ vs, Spec.PageOK m v.b e v.recs v.next
  | [], _, v, hv => by cases hv
  | w :: vs, h, v, hv => by
    obtain ⟨h1, h2⟩ := h
    rcases List.mem_cons.mp hv with rfl | hv
    · cases h1 with
      | visit _ _ _ _ ok => exact ok
    · exact Spec.Meets.pages h2 v hv

/-- What the visits of a whole scan yield. -/
theorem scan_facts {m : K → Option V} {l : List (Spec.Call K V × Spec.Ret K V)} {b e : Spec.Bound K}
    {vs : List (Spec.Visit K V)} (h1 : Spec.Meets m (l ++ vs.map (visitCall e)))
    (h2 : Spec.Linked b vs) (h3 : Spec.Finished vs) :
    ((Spec.allRecs vs).Pairwise fun x y => x.1 < y.1) ∧
    (∀ k v, (k, v) ∈ Spec.allRecs vs → Spec.mapAfterAll m (l.map Prod.fst) k = some v ∧
      Spec.toB e k ∧ (Spec.fromB b k ∨ b = some (k, false))) ∧
    (∀ k v, Spec.mapAfterAll m (l.map Prod.fst) k = some v → Spec.toB e k → Spec.fromB b k →
      (k, v) ∈ Spec.allRecs vs) := by
  have hp := (Spec.Meets.append.mp h1).2.pages
  have hpp : Spec.Pages e vs := fun v hv => ⟨_, hp v hv⟩
  refine ⟨h2.increasing hpp, fun k v hk => ?_, fun k v hk he hb => ?_⟩
  · obtain ⟨w, hw, hk⟩ := List.mem_flatMap.mp hk
    obtain ⟨g1, g2⟩ := ((hp w hw).mem k v).mp hk
    refine ⟨g1, g2.2.1, ?_⟩
    cases vs with
    | nil => cases hw
    | cons a vs =>
      rcases h2.from_begin hpp hw g2 with g | ⟨g, _⟩
      · exact Or.inl g
      · exact Or.inr g
  · obtain ⟨w, hw, g⟩ := h2.complete h3 k hb he
    exact List.mem_flatMap.mpr ⟨w, hw, ((hp w hw).mem k v).mpr ⟨hk, g⟩⟩

/-- **C11 - C14 for one thread.**  After any session, a scan of any range, with the visits the
iterator makes one after the other, runs to its end and leaves the shared memory as it is.  Its
records have strictly increasing keys.  They are the records of the map in the range.  The one
exception is that of `C13_false`: the begin key itself may be among them if the range is open at the
begin. -/
theorem C12_scan_total (hR : Roomy cfg) (hc : CfgOK2 cfg) {m : K → Option V} {sh0 sh : Sh K V}
    (hi : Init cfg m sh0) {l : List (Spec.Call K V × Spec.Ret K V)}
    {it : Option (PID × K × Spec.Bound K)} (h : Session cfg sh0 l sh it) (b e : Spec.Bound K) :
    ∃ vs : List (Spec.Visit K V), Session cfg sh0 (l ++ vs.map (visitCall e)) sh none ∧
      Spec.Linked b vs ∧ Spec.Finished vs ∧
      ((Spec.allRecs vs).Pairwise fun x y => x.1 < y.1) ∧
      (∀ k v, (k, v) ∈ Spec.allRecs vs → Spec.mapAfterAll m (l.map Prod.fst) k = some v ∧
        Spec.toB e k ∧ (Spec.fromB b k ∨ b = some (k, false))) ∧
      (∀ k v, Spec.mapAfterAll m (l.map Prod.fst) k = some v → Spec.toB e k → Spec.fromB b k →
        (k, v) ∈ Spec.allRecs vs) := by
  obtain ⟨vs, h1, h2, h3⟩ := h.scan_all hR hc hi b e
  exact ⟨vs, h1, h2, h3, scan_facts (h1.meets hc hi) h2 h3⟩

/-- With a closed or absent begin, the records are exactly those of the map in the range. -/
theorem C12_scan_exact (hR : Roomy cfg) (hc : CfgOK2 cfg) {m : K → Option V} {sh0 sh : Sh K V}
    (hi : Init cfg m sh0) {l : List (Spec.Call K V × Spec.Ret K V)}
    {it : Option (PID × K × Spec.Bound K)} (h : Session cfg sh0 l sh it) (b e : Spec.Bound K)
    (hb : ∀ k, b ≠ some (k, false)) :
    ∃ vs : List (Spec.Visit K V), Session cfg sh0 (l ++ vs.map (visitCall e)) sh none ∧
      ((Spec.allRecs vs).Pairwise fun x y => x.1 < y.1) ∧
      ∀ k v, (k, v) ∈ Spec.allRecs vs ↔
        Spec.mapAfterAll m (l.map Prod.fst) k = some v ∧ Spec.fromB b k ∧ Spec.toB e k := by
  obtain ⟨vs, h1, _, _, h2, h3, h4⟩ := C12_scan_total hR hc hi h b e
  refine ⟨vs, h1, h2, fun k v => ⟨fun hk => ?_, fun ⟨g1, g2, g3⟩ => h4 k v g1 g3 g2⟩⟩
  obtain ⟨g1, g2, g3⟩ := h3 k v hk
  exact ⟨g1, g3.resolve_right (hb k), g2⟩

/-- A scan of the upper half after the sequence above. -/
example : ∃ (l : List (Spec.Op Nat Nat × Spec.Res Nat)) (sh : Sh Nat Nat)
    (vs : List (Spec.Visit Nat Nat)), l.map Prod.fst = exCalls ∧
    Session roomyCfg (initSh roomyCfg)
      ((l.map fun x => (.op x.1, .res x.2)) ++ vs.map (visitCall none)) sh none ∧
    (21, 7) ∈ Spec.allRecs vs ∧ (∀ v, (19, v) ∉ Spec.allRecs vs) ∧ ∀ v, (3, v) ∉ Spec.allRecs vs := by
  obtain ⟨l, sh, h1, h2, h3⟩ := C07_total roomyCfg_roomy roomyCfg_ok .empty exCalls
  obtain ⟨vs, h4, _, h5⟩ := C12_scan_exact roomyCfg_roomy roomyCfg_ok .empty h1 (some (12, true)) none
    (by simp)
  have hm : Spec.mapAfterAll (fun _ => none) ((l.map fun x =>
      ((.op x.1, .res x.2) : Spec.Call Nat Nat × Spec.Ret Nat Nat)).map Prod.fst) =
      Spec.mapAfterAll (fun _ => none) (exCalls.map Spec.Call.op) := by
    rw [← h2, List.map_map, List.map_map]; rfl
  rw [hm] at h5
  have e1 : Spec.mapAfterAll (fun _ => none) (exCalls.map Spec.Call.op) 21 = some 7 := by decide +kernel
  have e2 : Spec.mapAfterAll (fun _ => none) (exCalls.map Spec.Call.op) 19 = none := by decide +kernel
  have e3 : Spec.mapAfterAll (fun _ => none) (exCalls.map Spec.Call.op) 3 = none := by decide +kernel
  refine ⟨l, sh, vs, h2, h4, (h5 21 7).mpr ⟨e1, ?_, ?_⟩, fun v hv => ?_, fun v hv => ?_⟩
  · intro x c h; cases h; exact Or.inl (by decide)
  · intro x c h; cases h
  · have := ((h5 19 v).mp hv).1; rw [e2] at this; cases this
  · have := ((h5 3 v).mp hv).1; rw [e3] at this; cases this

/-! ## Nothing is left behind -/

/-- **C42, C47 for one thread.**  Between the calls of a session no page makes the threads that visit
it wait for a structure modification: each has been carried out by the call that caused it.  No
search meets a removal mark or an unset word. -/
theorem C42_no_wait (hR : Roomy cfg) (hc : CfgOK2 cfg) {m : K → Option V} {sh0 sh : Sh K V}
    (hi : Init cfg m sh0) {l : List (Spec.Call K V × Spec.Ret K V)}
    {it : Option (PID × K × Spec.Bound K)} (h : Session cfg sh0 l sh it) :
    (∀ p c, sh.mt p = some c → c.needWait cfg = false) ∧
    ∀ key closed, Spec.Calm sh key closed := by
  refine ⟨fun p c hm => h.no_wait hR hc hi hm, fun key closed => ?_⟩
  obtain ⟨s, rfl, ⟨fl, h2⟩, _⟩ := h.rested hR hc hi
  exact h2.calm key closed

end BwTree.Props
