import Verif.Conc.QuietOrder
import Verif.Props.QuietWrite
import Verif.Props.SeqTotal
import Verif.Props.StatRest

/-!
# C77: calls on a quiet tree in order

After any execution, when no call is active and no race has left the index in disorder, the tree is as
good as one that was built by a single thread: all operations end with the right answers, with all the
splits and merges they make (`bw_tree.hpp` 148-476, 1178-1579).
-/

namespace BwTree.Props

open BwTree

set_option linter.unusedSectionVars false

variable {K V : Type} [LinearOrder K] {cfg : Cfg K}

theorem in_order_rested (hT : cfg.thr ≤ cfg.maxDelta) (hc : CfgOK2 cfg) {m : K → Option V} {sh : Sh K V}
    (hi : Init cfg m sh) {h : List (Spec.Event K V)} {S : Sys K V}
    (hr : SureRun cfg (Sys.start sh) h S) (hq : ∀ t, S.th t = .idle) (ho : Spec.InOrder S.sh) : ∃ s : St K V, Sound cfg s S ∧ Rested cfg s none ∧
      Spec.Accepts ⟨m, fun _ => .idle⟩ h ⟨s.m, s.ops⟩ := by
  obtain ⟨s, h1, h2, h3⟩ := hi.minded hc hr.run
  have hsh := h1.sh
  have hmt : ∀ p, s.mt p = S.sh.mt p := fun p => congrFun (congrArg Sh.mt hsh) p
  exact ⟨s, h1, Spec.InOrder.rested h1 h2 hq
    (fun p c hm => (C72_quiet hT hc hi hr hq (by rw [← hmt]; exact hm)).1)
    (by rw [hsh]; exact ho), h3⟩

/-- **C77.**  After any execution of any number of threads, when no call is active and the tree is in
order: after any calls `l` of one thread, which have returned what the map returns, every operation
ends, whatever the bound on its loops as long as it is large enough, no run of it is longer, and it
returns what the map returns. -/
theorem C77_in_order (hR : Roomy cfg) (hc : CfgOK2 cfg) {m : K → Option V} {sh : Sh K V}
    (hi : Init cfg m sh) {h : List (Spec.Event K V)} {S : Sys K V}
    (hr : SureRun cfg (Sys.start sh) h S) (hq : ∀ t, S.th t = .idle) (ho : Spec.InOrder S.sh) :
    ∃ mS ops, Spec.Accepts ⟨m, fun _ => .idle⟩ h ⟨mS, ops⟩ ∧
      ∀ l sh' it, Session cfg S.sh l sh' it → Spec.Meets mS l ∧ ∀ o : Spec.Op K V,
        ∃ n sh'' N, (∀ f, N ≤ f → FirmRun n sh' (runOp cfg f o) sh''
            (.ret (Spec.apply (Spec.mapAfterAll mS (l.map Prod.fst)) o).2)) ∧
          (∀ f n' sh3 p, N ≤ f → FirmRun n' sh' (runOp cfg f o) sh3 p → n' ≤ n) ∧
          Session cfg S.sh
            (l ++ [(.op o, .res (Spec.apply (Spec.mapAfterAll mS (l.map Prod.fst)) o).2)]) sh'' it := by
  obtain ⟨s, h1, hrest, h3⟩ := in_order_rested hR.thr hc hi hr hq ho
  have hsh := h1.sh
  refine ⟨s.m, s.ops, h3, fun l sh' it hl => ⟨hl.meetsFrom hc h1 hq, fun o => ?_⟩⟩
  obtain ⟨s1, rfl, g2⟩ := hrest.session hR hc (by rw [hsh]; exact hl)
  obtain ⟨s0, g3, N, g4⟩ := g2.op hR hc o
  obtain ⟨n, s', r, g5, _⟩ := tp_run (g4 0 N (Nat.le_refl _))
  rw [g3] at g5
  have g6 : ∀ f, N ≤ f → FirmRun n s1.toSh (runOp cfg f o) s'.toSh (.ret r) :=
    fun f hf => (runOp_ext hf o).firmRet g5
  have g7 := hl.op (g6 N (Nat.le_refl _)).loose
  have g8 := (Spec.Meets.append.mp (g7.meetsFrom hc h1 hq)).2.1
  have g9 : r = (Spec.apply (Spec.mapAfterAll s.m (l.map Prod.fst)) o).2 := by
    generalize he : (Spec.Call.op o : Spec.Call K V) = c at g8
    generalize hr : (Spec.Ret.res r : Spec.Ret K V) = r' at g8
    change Spec.Step _ c _ r' at g8
    cases g8 with
    | op o' => cases he; cases hr; rfl
    | visit => cases he
  subst g9
  exact ⟨n, s'.toSh, N, g6, fun f n' sh'' p hf hr => ((g6 f hf).unique hr).1, g7⟩

/-- **C77, spurious failures (C71).**  The same when compare-and-swaps of the further calls fail
spuriously, for any number `j` of failures: no run of an operation has more than `n` steps, and at any
time the operation can go on, or it has returned what the map returns. -/
theorem C77_in_order_spurious (hR : Roomy cfg) (hc : CfgOK2 cfg) {m : K → Option V} {sh : Sh K V}
    (hi : Init cfg m sh) {h : List (Spec.Event K V)} {S : Sys K V}
    (hr : SureRun cfg (Sys.start sh) h S) (hq : ∀ t, S.th t = .idle) (ho : Spec.InOrder S.sh) :
    ∃ mS ops, Spec.Accepts ⟨m, fun _ => .idle⟩ h ⟨mS, ops⟩ ∧
      ∀ l sh' it, Session cfg S.sh l sh' it → ∀ (o : Spec.Op K V) (j : Nat),
        ∃ n N, ∀ f, N ≤ f → ∀ n' j' sh'' p, j' ≤ j → Loose n' j' sh' (runOp cfg f o) sh'' p → n' ≤ n ∧
          ((∃ sh3 p', Firm sh'' p sh3 p') ∨
            p = .ret (Spec.apply (Spec.mapAfterAll mS (l.map Prod.fst)) o).2 ∧
            Session cfg S.sh
              (l ++ [(.op o, .res (Spec.apply (Spec.mapAfterAll mS (l.map Prod.fst)) o).2)]) sh'' it) := by
  obtain ⟨s, h1, hrest, h3⟩ := in_order_rested hR.thr hc hi hr hq ho
  refine ⟨s.m, s.ops, h3, fun l sh' it hl o j => ?_⟩
  obtain ⟨s1, rfl, g2⟩ := hrest.session hR hc (by rw [h1.sh]; exact hl)
  obtain ⟨s0, g3, N, g4⟩ := g2.op hR hc o
  obtain ⟨n, g5⟩ := tp_closes (g4 j (N + j) (Nat.le_refl _))
  rw [g3] at g5
  refine ⟨n, N + j, fun f hf n' j' sh'' p hj hr => ?_⟩
  obtain ⟨e1, ⟨r, _, rfl, _, _⟩ | e2⟩ := g5 _ (runOp_ext hf o) _ _ _ _ hj hr
  · have g7 := hl.op hr
    have g8 := (Spec.Meets.append.mp (g7.meetsFrom hc h1 hq)).2.1
    have g9 : r = (Spec.apply (Spec.mapAfterAll s.m (l.map Prod.fst)) o).2 := by
      generalize he : (Spec.Call.op o : Spec.Call K V) = c at g8
      generalize hr : (Spec.Ret.res r : Spec.Ret K V) = r' at g8
      change Spec.Step _ c _ r' at g8
      cases g8 with
      | op o' => cases he; cases hr; rfl
      | visit => cases he
    subst g9
    exact ⟨e1, Or.inr ⟨rfl, g7⟩⟩
  · exact ⟨e1, Or.inl e2⟩

/-- **C77, executions.**  In such a state every sequence of operations of one thread runs to its end and
returns what the map returns. -/
theorem C77_in_order_run (hR : Roomy cfg) (hc : CfgOK2 cfg) {m : K → Option V} {sh : Sh K V}
    (hi : Init cfg m sh) {h : List (Spec.Event K V)} {S : Sys K V}
    (hr : SureRun cfg (Sys.start sh) h S) (hq : ∀ t, S.th t = .idle) (ho : Spec.InOrder S.sh) :
    ∃ mS ops, Spec.Accepts ⟨m, fun _ => .idle⟩ h ⟨mS, ops⟩ ∧ ∀ t (os : List (Spec.Op K V)),
      ∃ (l : List (Spec.Op K V × Spec.Res V)) (S' : Sys K V),
        Run cfg (Sys.start sh) (h ++ Spec.callHist t (l.map fun x => (.op x.1, .res x.2))) S' ∧
        (∀ u, S'.th u = .idle) ∧ l.map Prod.fst = os ∧ l.map Prod.snd = Spec.answers mS os := by
  obtain ⟨mS, ops, h1, h2⟩ := C77_in_order hR hc hi hr hq ho
  refine ⟨mS, ops, h1, fun t os => ?_⟩
  suffices H : ∀ (os : List (Spec.Op K V)) (pre : List (Spec.Call K V × Spec.Ret K V)) (sh1 : Sh K V),
      Session cfg S.sh pre sh1 none → ∃ (l : List (Spec.Op K V × Spec.Res V)) (sh' : Sh K V),
        Session cfg S.sh (pre ++ l.map fun x => (.op x.1, .res x.2)) sh' none ∧ l.map Prod.fst = os ∧
        l.map Prod.snd = Spec.answers (Spec.mapAfterAll mS (pre.map Prod.fst)) os by
    obtain ⟨l, sh', g1, g2, g3⟩ := H os [] S.sh .start
    obtain ⟨S', e1, _, e2, _⟩ := g1.runFrom hr.run hq t
    exact ⟨l, S', e1, e2, g2, g3⟩
  intro os
  induction os with
  | nil => intro pre sh1 h; exact ⟨[], sh1, by simpa using h, rfl, rfl⟩
  | cons o os ih =>
    intro pre sh1 h
    obtain ⟨n, sh', N, _, _, g2⟩ := (h2 _ _ _ h).2 o
    obtain ⟨l, sh'', g3, g4, g5⟩ := ih _ _ g2
    refine ⟨(o, (Spec.apply (Spec.mapAfterAll mS (pre.map Prod.fst)) o).2) :: l, sh'', ?_, ?_, ?_⟩
    · rw [List.map_cons, List.append_cons]; exact g3
    · rw [List.map_cons, g4]
    · rw [List.map_cons, g5, List.map_append, Spec.mapAfterAll_append]; rfl

/-- **C77, scans.**  A scan of any range after such calls, with the visits the iterator makes one after
the other, runs to its end and leaves the shared memory as it is.  Its records have strictly increasing
keys.  They are the records of the map in the range; the one exception is that of `C13_false`. -/
theorem C77_in_order_scan (hR : Roomy cfg) (hc : CfgOK2 cfg) {m : K → Option V} {sh : Sh K V}
    (hi : Init cfg m sh) {h : List (Spec.Event K V)} {S : Sys K V}
    (hr : SureRun cfg (Sys.start sh) h S) (hq : ∀ t, S.th t = .idle) (ho : Spec.InOrder S.sh) :
    ∃ mS ops, Spec.Accepts ⟨m, fun _ => .idle⟩ h ⟨mS, ops⟩ ∧
      ∀ l sh' it, Session cfg S.sh l sh' it → ∀ b e : Spec.Bound K,
        ∃ vs : List (Spec.Visit K V), Session cfg S.sh (l ++ vs.map (visitCall e)) sh' none ∧
          Spec.Linked b vs ∧ Spec.Finished vs ∧
          ((Spec.allRecs vs).Pairwise fun x y => x.1 < y.1) ∧
          (∀ k v, (k, v) ∈ Spec.allRecs vs → Spec.mapAfterAll mS (l.map Prod.fst) k = some v ∧
            Spec.toB e k ∧ (Spec.fromB b k ∨ b = some (k, false))) ∧
          (∀ k v, Spec.mapAfterAll mS (l.map Prod.fst) k = some v → Spec.toB e k → Spec.fromB b k →
            (k, v) ∈ Spec.allRecs vs) := by
  obtain ⟨s, h1, hrest, h3⟩ := in_order_rested hR.thr hc hi hr hq ho
  refine ⟨s.m, s.ops, h3, fun l sh' it hl b e => ?_⟩
  obtain ⟨s1, rfl, g2⟩ := hrest.session hR hc (by rw [h1.sh]; exact hl)
  obtain ⟨vs, e1, e2, e3⟩ := hl.scan_allOf hc (fun h => h.meetsFrom hc h1 hq) g2 b e
  exact ⟨vs, e1, e2, e3, scan_facts (e1.meetsFrom hc h1 hq) e2 e3⟩

/-- **C77, the index.**  In such a state every search goes from index nodes to their children, meets no
removal mark and no word that is not set. -/
theorem C77_in_order_calm (hT : cfg.thr ≤ cfg.maxDelta) (hc : CfgOK2 cfg) {m : K → Option V} {sh : Sh K V}
    (hi : Init cfg m sh) {h : List (Spec.Event K V)} {S : Sys K V}
    (hr : SureRun cfg (Sys.start sh) h S) (hq : ∀ t, S.th t = .idle) (ho : Spec.InOrder S.sh)
    (key : K) (closed : Bool) :
    Spec.Calm S.sh key closed ∧ Spec.UpToDate S.sh key closed := by
  obtain ⟨s, h1, hrest, _⟩ := in_order_rested hT hc hi hr hq ho
  rw [← h1.sh]
  have hlive : ∀ p b, Spec.Route s.toSh key closed p → s.toSh.mt p ≠ some (.removed b) := by
    intro p b hp hm
    obtain ⟨c, e1, e2⟩ := hrest.live hp
    change s.mt p = _ at hm
    rw [hm] at e1; cases e1; cases e2
  refine ⟨⟨hlive, fun p c w hp hm hl hs e => ?_⟩, hrest.upToDate key closed⟩
  obtain ⟨⟨fl, hS⟩, _, _⟩ := hrest
  obtain ⟨F, low, c', g1, _⟩ := hS.route (.cell hp hm hl hs)
  rw [e] at g1
  exact hS.inv.info_ne_zero g1 rfl

/-- **C77, statistics (C49).**  After such calls `CollectStatisticalData` returns.  It has an entry for
each level, the entry counts each live page of the level exactly once, whichever way the page is
reached, and the actual usage is the sum over these pages and at most the virtual usage. -/
theorem C77_in_order_stat (hR : Roomy cfg) (hc : CfgOK2 cfg) {m : K → Option V} {sh : Sh K V}
    (hi : Init cfg m sh) {h : List (Spec.Event K V)} {S : Sys K V}
    (hr : SureRun cfg (Sys.start sh) h S) (hq : ∀ t, S.th t = .idle) (ho : Spec.InOrder S.sh)
    {l : List (Spec.Call K V × Spec.Ret K V)} {sh' : Sh K V} {it : Option (PID × K × Spec.Bound K)}
    (hl : Session cfg S.sh l sh' it) (recSz : Nat) :
    ∃ st N, (∀ f, N ≤ f → collectStat cfg recSz sh' f sh'.root 0 [] = some st) ∧
      ∀ d, ∃ ps : List PID, ps.Nodup ∧
        (∀ p, p ∈ ps ↔ Spec.ReachAt sh' d p ∧ ∃ c, sh'.mt p = some c ∧ c.isRemoved = false) ∧
        (d < st.length ↔ ps ≠ []) ∧
        ∀ u, st[d]? = some u → u.1 = ps.length ∧ u.2.1 = (ps.map (usedAt recSz sh')).sum ∧
          u.2.1 ≤ u.2.2 := by
  obtain ⟨s, h1, hrest, _⟩ := in_order_rested hR.thr hc hi hr hq ho
  obtain ⟨s1, e1, g2⟩ := hrest.session hR hc (by rw [h1.sh]; exact hl)
  obtain ⟨S', g3, g4, _⟩ := hl.runFrom hr.run hq 0
  subst g4
  exact Rested.stat hc ⟨sh, _, hi, g3⟩ e1 g2 recSz

/-- **C77, later states.**  The index stays as good: after such calls no page makes a thread wait, and
every search goes from index nodes to their children and meets no removal mark. -/
theorem C77_in_order_stays (hR : Roomy cfg) (hc : CfgOK2 cfg) {m : K → Option V} {sh : Sh K V}
    (hi : Init cfg m sh) {h : List (Spec.Event K V)} {S : Sys K V}
    (hr : SureRun cfg (Sys.start sh) h S) (hq : ∀ t, S.th t = .idle) (ho : Spec.InOrder S.sh)
    {l : List (Spec.Call K V × Spec.Ret K V)} {sh' : Sh K V} {it : Option (PID × K × Spec.Bound K)}
    (hl : Session cfg S.sh l sh' it) :
    (∀ p c, sh'.mt p = some c → c.needWait cfg = false) ∧
    ∀ key closed, Spec.Calm sh' key closed ∧ Spec.UpToDate sh' key closed := by
  obtain ⟨s, h1, hrest, _⟩ := in_order_rested hR.thr hc hi hr hq ho
  obtain ⟨s1, rfl, g2⟩ := hrest.session hR hc (by rw [h1.sh]; exact hl)
  refine ⟨fun p c hm => g2.no_wait hm, fun key closed => ⟨?_, g2.upToDate key closed⟩⟩
  obtain ⟨⟨fl, g3⟩, _⟩ := g2
  exact g3.calm key closed

/-! ## Checks -/

/-- Keys of the records of a chain. -/
def keysIn : Chain Nat Nat → List Nat
  | .base n => n.recs.map Prod.fst
  | .removed _ => []
  | .delta d nx => d.key :: (match d.pay with | .node m => m.recs.map Prod.fst | _ => []) ++ keysIn nx

theorem find_mem_keys {l : List (Nat × Pay Nat)} {x : Nat} (h : Spec.find l x ≠ none) :
    x ∈ l.map Prod.fst := by
  unfold Spec.find at h
  cases e : l.find? (fun r => decide (r.1 = x)) with
  | none => rw [e] at h; exact absurd rfl h
  | some r =>
    have h1 := List.mem_of_find?_eq_some e
    have h2 := List.find?_some e
    simp only [decide_eq_true_eq] at h2
    exact List.mem_map.mpr ⟨r, h1, h2⟩

theorem look_mem_keys {x : Nat} : ∀ {c : Chain Nat Nat}, Spec.look x c ≠ none → x ∈ keysIn c
  | .base n, h => by
    have h1 : x ∈ (Spec.keyed n).map Prod.fst := find_mem_keys h
    unfold Spec.keyed at h1
    split at h1
    · obtain ⟨r, e1, e2⟩ := List.mem_map.mp h1
      exact List.mem_map.mpr ⟨r, List.mem_of_mem_tail e1, e2⟩
    · exact h1
  | .removed _, h => absurd rfl h
  | .delta d nx, h => by
    by_cases hd : d.key = x
    · simp [keysIn, hd]
    · by_cases hn : Spec.look x nx = none
      · rw [keysIn]
        refine List.mem_append_left _ (List.mem_cons_of_mem _ ?_)
        simp only [Spec.look] at h
        split at h
        · rw [if_neg hd] at h; exact absurd hn h
        · rw [if_neg hd] at h; exact absurd hn h
        · rw [if_neg hd] at h; exact absurd hn h
        · split at h
          · next m hp =>
            rw [hp]
            split at h
            · exact find_mem_keys h
            · exact absurd hn h
          · exact absurd rfl h
      · rw [keysIn]
        exact List.mem_append_right _ (look_mem_keys hn)

/-- Is `Spec.NextKey` true?  (Decidable.) -/
def nextKeyCheck (c : Chain Nat Nat) (k : Nat) (h : Option Nat) : Bool :=
  h.all (fun x => decide (k < x) && ((Spec.look x c).isSome || c.high == some x)) &&
  (keysIn c).all (fun x => (Spec.look x c).isNone || decide (x ≤ k) || h.any (fun y => decide (y ≤ x))) &&
  c.high.all fun b => h.any (fun y => decide (y ≤ b))

theorem nextKeyCheck_spec {c : Chain Nat Nat} {k : Nat} {h : Option Nat}
    (e : nextKeyCheck c k h = true) : Spec.NextKey c k h := by
  simp only [nextKeyCheck, Bool.and_eq_true, Option.all_eq_true, List.all_eq_true, Bool.or_eq_true,
    decide_eq_true_eq, Option.any_eq_true, beq_iff_eq, Option.isSome_iff_ne_none,
    Option.isNone_iff_eq_none] at e
  obtain ⟨⟨e1, e2⟩, e3⟩ := e
  refine ⟨fun x hx => (e1 x hx).1, fun x hk hl => ?_, fun x hx => (e1 x hx).2, fun b hb => e3 b hb⟩
  rcases e2 x (look_mem_keys hl) with (e | e) | e
  · exact absurd e hl
  · exact absurd hk (Nat.not_lt.mpr e)
  · exact e

/-- Is `Spec.LeftChild` true?  (Decidable.) -/
def leftChildCheck (c : Chain Nat Nat) (k : Nat) (q : PID) : Bool :=
  ((keysIn c).any fun y => decide (y < k) && decide (Spec.look y c = some (.child q)) &&
    (keysIn c).all fun x => decide (x ≤ y) || decide (k ≤ x) || (Spec.look x c).isNone) ||
  (decide (c.low = none) && decide (c.leftmostChild = some q) &&
    (keysIn c).all fun x => decide (k ≤ x) || (Spec.look x c).isNone)

theorem leftChildCheck_spec {c : Chain Nat Nat} {k : Nat} {q : PID}
    (e : leftChildCheck c k q = true) : Spec.LeftChild c k q := by
  simp only [leftChildCheck, Bool.and_eq_true, List.all_eq_true, Bool.or_eq_true, List.any_eq_true,
    decide_eq_true_eq, Option.isNone_iff_eq_none] at e
  rcases e with ⟨y, _, ⟨e1, e2⟩, e3⟩ | ⟨⟨e1, e2⟩, e3⟩
  · refine Or.inl ⟨y, e1, e2, fun x hx hk => ?_⟩
    by_contra hl
    rcases e3 x (look_mem_keys hl) with (e | e) | e
    · exact absurd hx (Nat.not_lt.mpr e)
    · exact absurd hk (Nat.not_lt.mpr e)
    · exact hl e
  · refine Or.inr ⟨e1, e2, fun x hk => ?_⟩
    by_contra hl
    rcases e3 x (look_mem_keys hl) with e | e
    · exact absurd hk (Nat.not_lt.mpr e)
    · exact hl e

/-- Is `Spec.Tight` true?  (Decidable.) -/
def tightCheck (sh : Sh Nat Nat) : Chain Nat Nat → Bool
  | .delta d nx => tightCheck sh nx &&
      (match d.ty with | .insert | .delete => nextKeyCheck nx d.key d.high | _ => true) &&
      (match d.pay with | .cell w => leftChildCheck nx d.key (sh.cells w) | _ => true)
  | _ => true

theorem tightCheck_spec {sh : Sh Nat Nat} : ∀ {c : Chain Nat Nat}, tightCheck sh c = true →
    Spec.Tight sh c
  | .base _, _ => trivial
  | .removed _, _ => trivial
  | .delta d nx, h => by
    simp only [tightCheck, Bool.and_eq_true] at h
    obtain ⟨⟨h1, h2⟩, h3⟩ := h
    refine ⟨tightCheck_spec h1, fun ht => ?_, fun w hw => ?_⟩
    · rcases ht with ht | ht <;> rw [ht] at h2 <;> exact nextKeyCheck_spec h2
    · rw [hw] at h3; exact leftChildCheck_spec h3

/-- Is `Spec.ChildOf` true?  (Decidable.) -/
def childOfCheck (c : Chain Nat Nat) (q : PID) : Bool :=
  (decide (c.low = none) && decide (c.leftmostChild = some q)) ||
    (keysIn c).any fun k => decide (Spec.look k c = some (.child q))

theorem childOfCheck_spec {c : Chain Nat Nat} {q : PID} (h : childOfCheck c q = true) :
    Spec.ChildOf c q := by
  simp only [childOfCheck, Bool.or_eq_true, Bool.and_eq_true, decide_eq_true_eq, List.any_eq_true] at h
  rcases h with h | ⟨k, _, h⟩
  · exact Or.inl h
  · exact Or.inr ⟨k, h⟩

/-- A tree of at most two levels in order.  (Decidable.) -/
def orderCheck (sh : Sh Nat Nat) : Bool :=
  ((sh.mt sh.root).any fun c => !c.isRemoved) &&
  (List.range sh.npid).all fun p => (sh.mt p).all fun c => c.isRemoved ||
    (c.isLeaf || (tightCheck sh c && c.leftmostChild.all fun q => (sh.mt q).any fun c' => !c'.isRemoved)) &&
    (decide (p = sh.root) || (sh.mt sh.root).any fun cP => !cP.isLeaf && childOfCheck cP p)

theorem orderCheck_spec {sh : Sh Nat Nat} (hf : ∀ p, sh.npid ≤ p → sh.mt p = none)
    (h : orderCheck sh = true) : Spec.InOrder sh := by
  simp only [orderCheck, Bool.and_eq_true, Option.any_eq_true, Option.all_eq_true, List.all_eq_true,
    List.mem_range, Bool.or_eq_true, decide_eq_true_eq, Bool.not_eq_true'] at h
  obtain ⟨⟨cR, r1, r2⟩, h⟩ := h
  have hlt : ∀ p c, sh.mt p = some c → p < sh.npid := by
    intro p c hm
    by_contra hn
    rw [hf p (Nat.not_lt.mp hn)] at hm; cases hm
  have hp : ∀ p c, sh.mt p = some c → c.isRemoved = false → _ := fun p c hm hr =>
    ((h p (hlt p c hm) c hm).resolve_left (by rw [hr]; simp))
  refine ⟨⟨cR, r1, r2⟩, fun p c hm hr hl => ?_, fun p c hm hr => ?_, fun p c q hm hr hl _ hq => ?_⟩
  · exact tightCheck_spec ((hp p c hm hr).1.resolve_left (by rw [hl]; simp)).1
  · rcases (hp p c hm hr).2 with e | ⟨cP, e1, e2, e3⟩
    · exact Or.inl e
    · rw [r1] at e1; cases e1
      exact Or.inr ⟨sh.root, cR, ⟨.root, r1, r2⟩, e2, childOfCheck_spec e3⟩
  · exact ((hp p c hm hr).1.resolve_left (by rw [hl]; simp)).2 q hq

theorem fresh_pages (hc : CfgOK2 cfg) {m : K → Option V} {sh : Sh K V} (hi : Init cfg m sh)
    {h : List (Spec.Event K V)} {S : Sys K V} (hr : Run cfg (Sys.start sh) h S) (p : PID)
    (hp : S.sh.npid ≤ p) : S.sh.mt p = none := by
  obtain ⟨s, h1, _⟩ := hi.run hc hr
  rw [← h1.sh] at hp ⊢
  exact (h1.inv.p.fresh p (Or.inl hp)).1

/-- Thread 0 splits a leaf; before it adds the entry of the new leaf to the root, thread 1 writes to both
parts.  Then leaves are merged. -/
def exOrder : List (Cmd Nat Nat) :=
  exIns ((List.range 18).map (· * 10)) ++
  [.acts [.op 0 100 (.insert 180 1)], .steps 0 12, .call 1 100 (.insert 175 2),
    .call 1 100 (.update 20 3), .call 1 100 (.delete 10), .fin 0 90] ++
  exDel ((List.range 7).map fun i => 10 * i + 50)

/-- Every sequence of operations ends after this race. -/
example (os : List (Spec.Op Nat Nat)) : ∃ (h : List (Spec.Event Nat Nat)) (S S' : Sys Nat Nat)
    (mS : Nat → Option Nat) (l : List (Spec.Op Nat Nat × Spec.Res Nat)),
    SureRun roomyCfg (Sys.start (initSh roomyCfg)) h S ∧ Spec.InOrder S.sh ∧
    (∃ b, S.sh.mt 4 = some (.removed b)) ∧ (∃ c, S.sh.mt S.sh.root = some c ∧ c.isLeaf = false) ∧
    Run roomyCfg (Sys.start (initSh roomyCfg))
      (h ++ Spec.callHist 5 (l.map fun x => (.op x.1, .res x.2))) S' ∧
    l.map Prod.fst = os ∧ l.map Prod.snd = Spec.answers mS os := by
  obtain ⟨h, S, h1, h2⟩ := scenario_sure (cfg := roomyCfg) (cs := exOrder)
    (fun h S => (quietAt h S, orderCheck S.sh, isMark (S.sh.mt 4),
      (S.sh.mt S.sh.root).map Chain.isLeaf))
    (x := (true, true, true, some false)) (by decide +kernel) (by decide)
  simp only [Prod.mk.injEq] at h2
  obtain ⟨hq, ho, hm, hl⟩ := h2
  have hf := fresh_pages roomyCfg_ok .empty h1.run
  have ho' := orderCheck_spec hf ho
  obtain ⟨mS, _, _, h3⟩ := C77_in_order_run roomyCfg_roomy roomyCfg_ok .empty h1
    (quietAt_spec h1.run hq) ho'
  obtain ⟨l, S', e1, _, e2, e3⟩ := h3 5 os
  refine ⟨h, S, S', mS, l, h1, ho', ?_, ?_, e1, e2, e3⟩
  · cases hc : S.sh.mt 4 with
    | none => rw [hc] at hm; cases hm
    | some c =>
      cases c with
      | removed b => exact ⟨b, rfl⟩
      | base n => rw [hc] at hm; cases hm
      | delta d nx => rw [hc] at hm; cases hm
  · simpa [Option.map_eq_some_iff] using hl

/-- The statistics after this race. -/
example : ∃ (h : List (Spec.Event Nat Nat)) (S : Sys Nat Nat),
    SureRun roomyCfg (Sys.start (initSh roomyCfg)) h S ∧ (∀ t, S.th t = .idle) ∧ Spec.InOrder S.sh ∧
    (collectStat roomyCfg 64 S.sh 10 S.sh.root 0 []).map (List.map Prod.fst) = some [1, 2] ∧
    S.sh.npid = 6 := by
  obtain ⟨h, S, h1, h2⟩ := scenario_sure (cfg := roomyCfg) (cs := exOrder)
    (fun h S => (quietAt h S, orderCheck S.sh,
      (collectStat roomyCfg 64 S.sh 10 S.sh.root 0 []).map (List.map Prod.fst), S.sh.npid))
    (x := (true, true, some [1, 2], 6)) (by decide +kernel) (by decide)
  simp only [Prod.mk.injEq] at h2
  obtain ⟨hq, ho, h3, h4⟩ := h2
  exact ⟨h, S, h1, quietAt_spec h1.run hq, orderCheck_spec (fresh_pages roomyCfg_ok .empty h1.run) ho,
    h3, h4⟩

/-- A tree that has lost a level: the old root, an index node, carries a removal mark. -/
example : ∃ (h : List (Spec.Event Nat Nat)) (S : Sys Nat Nat),
    SureRun tinyCfg (Sys.start (initSh tinyCfg)) h S ∧ S.mark 9 ≠ none ∧ Spec.InOrder S.sh ∧
    ∀ key closed, Spec.Calm S.sh key closed ∧ Spec.UpToDate S.sh key closed := by
  obtain ⟨h, S, h1, h2⟩ := scenario_sure (cfg := tinyCfg)
    (cs := exFill 7 ++ exUpd [40] ++ exDel [70, 60, 50, 40])
    (fun h S => (quietAt h S, orderCheck S.sh, (S.mark 9).map fun x => x.2.isLeaf))
    (x := (true, true, some false)) (by decide +kernel) (by decide)
  simp only [Prod.mk.injEq] at h2
  obtain ⟨hq, ho, hm⟩ := h2
  have ho' := orderCheck_spec (fresh_pages tinyCfg_ok .empty h1.run) ho
  exact ⟨h, S, h1, fun e => (by rw [e] at hm; cases hm), ho',
    C77_in_order_calm (by decide) tinyCfg_ok .empty h1 (quietAt_spec h1.run hq) ho'⟩

/-- The order is needed: after the race of `C47_false` the tree is quiet, but it is not in order, and `Read` never ends. -/
theorem C77_order_needed : ∃ S : Sys Nat Nat, Reachable lazyCfg (fun _ => none) S ∧
    (∀ t, S.th t = .idle) ∧ ¬ Spec.InOrder S.sh ∧
    ∀ (f n : Nat) (sh' : Sh Nat Nat) (q : Prog Nat Nat (Spec.Res Nat)),
      Alone n S.sh (runOp lazyCfg f (.read 80)) sh' q → GoesOn f n q := by
  obtain ⟨h, S, h1, h2⟩ := scenario_sure (cfg := lazyCfg) (cs := exLate)
    (fun h S => (quietAt h S, deadEndAt S.sh 80 4))
    (x := (true, true)) (by decide +kernel) (by decide)
  simp only [Prod.mk.injEq] at h2
  obtain ⟨hq, hd⟩ := h2
  have hq' := quietAt_spec h1.run hq
  have hd' := deadEndAt_spec hd
  refine ⟨S, ⟨_, h, .empty, h1.run⟩, hq', fun ho => ?_, fun f n sh' q => hd'.read f n⟩
  obtain ⟨c, e1, e2, e3⟩ := hd'.inner
  exact (C77_in_order_calm (by decide) lazyCfg_ok .empty h1 hq' ho 80 true).1.live _ _
    (.child .root e1 e2 e3) hd'.leaf

end BwTree.Props
