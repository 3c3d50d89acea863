import Verif.Spec.Scan
import Verif.Conc.Iter
import Verif.Props.Races

/-!
# C11 - C14: scans

An execution contains the returns of the visits `vs` of one scan up to `e` by thread `t`, in this
order, possibly with other events in between.  The full statements have no proviso; here a thread
that meets one of the events of `Flag` stops (see `C01_linearizable_partial`).
-/

namespace BwTree.Props

open BwTree

set_option linter.unusedSectionVars false

variable {K V : Type} [LinearOrder K] {cfg : Cfg K}

/-- The returns of the visits `vs` occur in the history. -/
def Scanned (h : List (Spec.Event K V)) (t : Nat) (e : Spec.Bound K)
    (vs : List (Spec.Visit K V)) : Prop :=
  (vs.map fun v => Spec.Event.ret t (.visit v.b e) (.page v.recs v.next)).Sublist h

theorem Scanned.pos {h : List (Spec.Event K V)} {t : Nat} {e : Spec.Bound K}
    {vs : List (Spec.Visit K V)} (hs : Scanned h t e vs) {v : Spec.Visit K V} (hv : v ∈ vs) :
    ∃ j : Nat, h[j]? = some (.ret t (.visit v.b e) (.page v.recs v.next)) :=
  List.mem_iff_getElem?.mp (hs.subset (List.mem_map.mpr ⟨v, hv, rfl⟩))

/-- The instant of a visit. -/
theorem visit_effect {m : K → Option V} {h : List (Spec.Event K V)} {log : List (Spec.Eff K V)}
    (hl : Spec.Linearizes m h log) {j t : Nat} {b e : Spec.Bound K} {recs : List (K × V)}
    {next : Option K} (hj : h[j]? = some (.ret t (.visit b e) (.page recs next))) :
    ∃ x ∈ log, (∃ i, i < x.pos ∧ x.pos ≤ j ∧ h[i]? = some (.inv t (.visit b e)) ∧
      Spec.Quiet h t i j) ∧ x.post = x.pre ∧ Spec.PageOK x.pre b e recs next := by
  obtain ⟨x, hx, h1, h2, h3, i, h4, h5, h6, h7⟩ := hl.ret j t _ _ hj
  refine ⟨x, hx, ⟨i, h4, h5, h6, h7⟩, ?_⟩
  have hstep : ∀ {m : K → Option V} {log : List (Spec.Eff K V)}, Spec.Chained m log → x ∈ log →
      Spec.Step x.pre x.call x.post x.ret := by
    intro m log
    induction log generalizing m with
    | nil => intro _ h; cases h
    | cons a l ih =>
      intro hch hm
      rcases List.mem_cons.mp hm with rfl | hm
      · rw [hch.1]; exact hch.2.1
      · exact ih hch.2.2 hm
  have hs := hstep hl.chain hx
  rw [h2, h3] at hs
  generalize hp : x.post = p at hs
  cases hs with
  | visit _ _ _ _ ok => exact ⟨rfl, ok⟩

theorem Scanned.pages (hc : CfgOK2 cfg) {m : K → Option V} {sh : Sh K V} (hi : Init cfg m sh)
    {h : List (Spec.Event K V)} {S : Sys K V} (hr : Run cfg (Sys.start sh) h S) {t : Nat}
    {e : Spec.Bound K} {vs : List (Spec.Visit K V)} (hs : Scanned h t e vs) :
    Spec.Pages e vs := by
  obtain ⟨⟨log, hl⟩, _⟩ := C01_linearizable_partial hc hi hr
  intro v hv
  obtain ⟨j, hj⟩ := hs.pos hv
  obtain ⟨x, _, _, _, hx⟩ := visit_effect hl hj
  exact ⟨x.pre, hx⟩

/-! ## C11: increasing keys -/

/-- The keys a scan yields are strictly increasing. -/
theorem C11_increasing_partial (hc : CfgOK2 cfg) {m : K → Option V} {sh : Sh K V}
    (hi : Init cfg m sh) {h : List (Spec.Event K V)} {S : Sys K V}
    (hr : Run cfg (Sys.start sh) h S) {t : Nat} {b e : Spec.Bound K} {vs : List (Spec.Visit K V)}
    (hs : Scanned h t e vs) (hl : Spec.Linked b vs) :
    (Spec.allRecs vs).Pairwise fun x y => x.1 < y.1 :=
  hl.increasing (hs.pages hc hi hr)

/-- Thread 1 scans the leaf with keys 10 to 60; thread 0 splits it; thread 1 goes on. -/
def exScan : List (Cmd Nat Nat) :=
  exFill 6 ++ [.call 0 60 (.insert 70 6), .acts [.scan 1 60 none (some (70, true))], .fin 1 60,
    .call 0 60 (.insert 35 7), .call 0 60 (.delete 50), .acts [.next 1 60], .fin 1 60]

/-- The two pages. -/
def exVisits : List (Spec.Visit Nat Nat) :=
  [⟨none, [(10, 0), (20, 1)], some 30⟩,
   ⟨some (30, true), [(30, 2), (35, 7), (40, 3), (60, 5), (70, 6)], none⟩]

/-- The returns of visits of a thread. -/
def visitRets (h : List (Spec.Event K V)) (t : Nat) : List (Spec.Event K V) :=
  h.filter fun e => match e with
    | .ret u (.visit _ _) _ => u == t
    | _ => false

theorem Scanned.of_filter {h : List (Spec.Event K V)} {t : Nat} {e : Spec.Bound K}
    {vs : List (Spec.Visit K V)}
    (hv : visitRets h t = vs.map fun v => .ret t (.visit v.b e) (.page v.recs v.next)) :
    Scanned h t e vs := by
  unfold Scanned
  rw [← hv]
  exact List.filter_sublist

theorem exVisits_linked : Spec.Linked none exVisits ∧ Spec.Finished exVisits :=
  ⟨⟨rfl, fun _ => ⟨30, rfl, rfl, fun h => absurd rfl h⟩⟩, ⟨_, rfl, rfl⟩⟩

theorem exScan_run : ∃ (h : List (Spec.Event Nat Nat)) (S : Sys Nat Nat),
    Run smallCfg (Sys.start (initSh smallCfg)) h S ∧ Scanned h 1 (some (70, true)) exVisits := by
  obtain ⟨h, S, h1, _, h3⟩ := scenario_witness (cfg := smallCfg) (cs := exScan)
    (fun h _ => visitRets h 1)
    (x := exVisits.map fun v => .ret 1 (.visit v.b (some (70, true))) (.page v.recs v.next))
    (by decide)
  exact ⟨h, S, h1, .of_filter h3⟩

example : ∃ (h : List (Spec.Event Nat Nat)) (S : Sys Nat Nat),
    Run smallCfg (Sys.start (initSh smallCfg)) h S ∧ Scanned h 1 (some (70, true)) exVisits ∧
    Spec.Linked none exVisits ∧ (Spec.allRecs exVisits).length = 7 := by
  obtain ⟨h, S, h1, h2⟩ := exScan_run
  exact ⟨h, S, h1, h2, exVisits_linked.1, rfl⟩

/-! ## C12: intervals -/

/-- Every visit returns exactly the records which the map held in the interval of the visit at one
instant between its call and its return; the visit does not change the map.  The intervals are
disjoint and ordered.  When the scan has finished they cover the range.  The next visit of an
iterator continues the last visit of its thread. -/
theorem C12_intervals_partial (hc : CfgOK2 cfg) {m : K → Option V} {sh : Sh K V}
    (hi : Init cfg m sh) {h : List (Spec.Event K V)} {S : Sys K V}
    (hr : Run cfg (Sys.start sh) h S) {t : Nat} {b e : Spec.Bound K} {vs : List (Spec.Visit K V)}
    (hs : Scanned h t e vs) (hl : Spec.Linked b vs) :
    (∃ log, Spec.Linearizes m h log ∧ ∀ v ∈ vs, ∃ x ∈ log, ∃ i j,
      h[i]? = some (.inv t (.visit v.b e)) ∧ i < x.pos ∧ x.pos ≤ j ∧ Spec.Quiet h t i j ∧
      h[j]? = some (.ret t (.visit v.b e) (.page v.recs v.next)) ∧ x.post = x.pre ∧
      ∀ k y, (k, y) ∈ v.recs ↔ x.pre k = some y ∧ v.covers e k) ∧
    (vs.Pairwise fun w v => ∀ k k', w.covers e k → v.covers e k' → k < k') ∧
    (Spec.Finished vs → ∀ k, Spec.fromB b k → Spec.toB e k → ∃ v ∈ vs, v.covers e k) ∧
    (∀ p k e', S.it t = some (p, k, e') → ∃ h1 h2 b' recs,
      h = h1 ++ .ret t (.visit b' e') (.page recs (some k)) :: h2 ∧
      ∀ b'' e'' r, Spec.Event.ret t (.visit b'' e'') r ∉ h2) := by
  refine ⟨?_, hl.disjoint (hs.pages hc hi hr), fun hf => hl.complete hf,
    fun p k e' hit => hr.iterator hit⟩
  obtain ⟨⟨log, hlin⟩, _⟩ := C01_linearizable_partial hc hi hr
  refine ⟨log, hlin, fun v hv => ?_⟩
  obtain ⟨j, hj⟩ := hs.pos hv
  obtain ⟨x, hx, ⟨i, h1, h2, h3, h4⟩, h5, h6⟩ := visit_effect hlin hj
  exact ⟨x, hx, i, j, h3, h1, h2, h4, hj, h5, h6.mem⟩

example : ∃ (h : List (Spec.Event Nat Nat)) (S : Sys Nat Nat),
    Run smallCfg (Sys.start (initSh smallCfg)) h S ∧ Scanned h 1 (some (70, true)) exVisits ∧
    Spec.Linked none exVisits ∧ Spec.Finished exVisits := by
  obtain ⟨h, S, h1, h2⟩ := exScan_run
  exact ⟨h, S, h1, h2, exVisits_linked⟩

/-- An iterator that is not finished. -/
example : ∃ (h : List (Spec.Event Nat Nat)) (S : Sys Nat Nat),
    Run smallCfg (Sys.start (initSh smallCfg)) h S ∧ ∃ p, S.it 1 = some (p, 30, some (70, true)) := by
  obtain ⟨h, S, h1, _, h3⟩ := scenario_witness (cfg := smallCfg) (cs := exScan.take 9)
    (fun _ S => S.it 1) (x := some (2, 30, some (70, true))) (by decide)
  exact ⟨h, S, h1, 2, h3⟩

/-! ## C13: begin key -/

/-- With an open begin key `x`, the full property demands that no record with key `x` is returned.
What holds: this is so unless the first page ended at `x` (then it is empty and the record of `x` is
returned by the second visit).  All records with greater keys are covered, and with a closed begin
key nothing before it is returned. -/
theorem C13_begin_partial (hc : CfgOK2 cfg) {m : K → Option V} {sh : Sh K V}
    (hi : Init cfg m sh) {h : List (Spec.Event K V)} {S : Sys K V}
    (hr : Run cfg (Sys.start sh) h S) {t : Nat} {x : K} {cl : Bool} {e : Spec.Bound K}
    {w : Spec.Visit K V} {vs : List (Spec.Visit K V)} (hs : Scanned h t e (w :: vs))
    (hl : Spec.Linked (some (x, cl)) (w :: vs)) :
    (∀ k y, (k, y) ∈ Spec.allRecs (w :: vs) → x < k ∨ (x = k ∧
      (cl = true ∨ (w.next = some x ∧ w.recs = [])))) ∧
    (Spec.Finished (w :: vs) → ∀ k, x < k → Spec.toB e k → ∃ v ∈ w :: vs, v.covers e k) := by
  have hp := hs.pages hc hi hr
  refine ⟨fun k y hk => ?_, fun hf k hk he => hl.complete hf k ?_ he⟩
  · obtain ⟨v, hv, hk⟩ := List.mem_flatMap.mp hk
    rcases hl.from_begin hp hv (Spec.mem_covers hp hv hk) with h | ⟨h1, h2, h3, _⟩
    · rcases h x cl rfl with h | ⟨h, h'⟩
      · exact Or.inl h
      · exact Or.inr ⟨h', Or.inl h⟩
    · cases h1
      exact Or.inr ⟨rfl, Or.inr ⟨h2, h3⟩⟩
  · intro x' c' h
    cases h
    exact Or.inl hk

/-- A scan from a leaf separator, exclusive. -/
def exOpen : List (Cmd Nat Nat) :=
  exFill 7 ++ [.acts [.scan 1 60 (some (30, false)) (some (35, true))], .fin 1 60,
    .acts [.next 1 60], .fin 1 60]

/-- Its pages. -/
def exOpenVisits : List (Spec.Visit Nat Nat) :=
  [⟨some (30, false), [], some 30⟩, ⟨some (30, true), [(30, 2)], none⟩]

/-- C13 does not hold: a scan that begins exclusively at 30 returns the record of 30. -/
theorem C13_false : ∃ (h : List (Spec.Event Nat Nat)) (S : Sys Nat Nat)
    (vs : List (Spec.Visit Nat Nat)), Run smallCfg (Sys.start (initSh smallCfg)) h S ∧
    Scanned h 1 (some (35, true)) vs ∧ Spec.Linked (some (30, false)) vs ∧ Spec.Finished vs ∧
    (30, 2) ∈ Spec.allRecs vs := by
  obtain ⟨h, S, h1, _, h3⟩ := scenario_witness (cfg := smallCfg) (cs := exOpen)
    (fun h _ => visitRets h 1)
    (x := exOpenVisits.map fun v => .ret 1 (.visit v.b (some (35, true))) (.page v.recs v.next))
    (by decide)
  exact ⟨h, S, exOpenVisits, h1, .of_filter h3,
    ⟨rfl, fun _ => ⟨30, rfl, rfl, fun h => absurd rfl h⟩⟩, ⟨_, rfl, rfl⟩, by decide⟩

/-! ## C14: end key -/

/-- No record beyond the end is returned, and no visit begins beyond the end.  When the scan has
finished, every key in the range, in particular a closed end key or, without an end, every key to
the right of the begin, is covered by a visit, which returned exactly the records that were
present. -/
theorem C14_end_partial (hc : CfgOK2 cfg) {m : K → Option V} {sh : Sh K V}
    (hi : Init cfg m sh) {h : List (Spec.Event K V)} {S : Sys K V}
    (hr : Run cfg (Sys.start sh) h S) {t : Nat} {b e : Spec.Bound K} {vs : List (Spec.Visit K V)}
    (hs : Scanned h t e vs) (hl : Spec.Linked b vs) :
    (∀ k y, (k, y) ∈ Spec.allRecs vs → ∀ x c, e = some (x, c) → k < x ∨ (c = true ∧ k = x)) ∧
    (∀ v ∈ vs, ∀ n, v.next = some n → ∀ x c, e = some (x, c) → n < x ∨ (c = true ∧ n = x)) ∧
    (Spec.Finished vs → ∀ k, Spec.fromB b k → Spec.toB e k → ∃ v ∈ vs, ∃ m' : K → Option V,
      (∀ y, (k, y) ∈ v.recs ↔ m' k = some y) ∧ Spec.PageOK m' v.b e v.recs v.next) := by
  have hp := hs.pages hc hi hr
  refine ⟨fun k y hk => ?_, fun v hv n hn => ?_, fun hf k hk he => ?_⟩
  · obtain ⟨v, hv, hk⟩ := List.mem_flatMap.mp hk
    exact (Spec.mem_covers hp hv hk).2.1
  · obtain ⟨m', hm⟩ := hp v hv
    exact hm.next_to n hn
  · obtain ⟨v, hv, hcov⟩ := hl.complete hf k hk he
    obtain ⟨m', hm⟩ := hp v hv
    exact ⟨v, hv, m', fun y => (hm.mem k y).trans ⟨And.left, fun h => ⟨h, hcov⟩⟩, hm⟩

/-- A scan with an open end. -/
def exEnd : List (Cmd Nat Nat) :=
  exFill 7 ++ [.acts [.scan 1 60 (some (20, true)) (some (30, false))], .fin 1 60]

/-- The scan ends in the first leaf although the end is the separator. -/
example : ∃ (h : List (Spec.Event Nat Nat)) (S : Sys Nat Nat)
    (vs : List (Spec.Visit Nat Nat)), Run smallCfg (Sys.start (initSh smallCfg)) h S ∧
    Scanned h 1 (some (30, false)) vs ∧ Spec.Linked (some (20, true)) vs ∧ Spec.Finished vs ∧
    Spec.allRecs vs = [(20, 1)] := by
  obtain ⟨h, S, h1, _, h3⟩ := scenario_witness (cfg := smallCfg) (cs := exEnd)
    (fun h _ => visitRets h 1)
    (x := ([⟨some (20, true), [(20, 1)], none⟩] : List (Spec.Visit Nat Nat)).map fun v =>
      .ret 1 (.visit v.b (some (30, false))) (.page v.recs v.next)) (by decide)
  exact ⟨h, S, _, h1, .of_filter h3, ⟨rfl, fun h => absurd rfl h⟩, ⟨_, rfl, rfl⟩, rfl⟩

end BwTree.Props
