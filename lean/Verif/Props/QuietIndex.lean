import Verif.Conc.QuietIndex
import Verif.Props.QuietScan
import Verif.Props.Bulk

/-!
# C75: the index of a quiet tree

After any execution, when no call is active, the records in force of the index nodes lead to live
pages, and a search that follows only such records ends (`bw_tree.hpp` 583-614, 650-692, 1434-1502).
-/

namespace BwTree.Props

open BwTree

set_option linter.unusedSectionVars false

variable {K V : Type} [LinearOrder K] {cfg : Cfg K}

/-- **C73, all pages.**  At every moment, the right sibling of a live page and the child of a record
in force of a live index node are in the table, or a thread inside its call has replaced them by
removal marks and is not about to return. -/
theorem C73_inner_pending_partial (hc : CfgOK2 cfg) {m : K → Option V} {sh : Sh K V}
    (hi : Init cfg m sh) {h : List (Spec.Event K V)} {S : Sys K V}
    (hr : Run cfg (Sys.start sh) h S) {p q : PID} {c : Chain K V} (hl : Spec.Live S.sh p c) {k : K}
    (hk : Spec.look k c = some (.child q) ∨ (c.high = some k ∧ c.nextPid = q)) :
    ∃ c', c'.isRemoved = false ∧ c'.low = some k ∧ (S.sh.mt q = some c' ∨
      isMark (S.sh.mt q) = true ∧ ∃ t call x, S.mark q = some (t, c') ∧ S.th t = .run call x ∧
        ∀ r, x ≠ .ret r) := by
  obtain ⟨s, h1, h2, _⟩ := hi.minded hc hr
  have hI := h1.inv
  have hsh := h1.sh
  rw [← hsh] at hl
  obtain ⟨F, low, e1, e2, e3, _⟩ := hI.live_page hl
  obtain ⟨F', c', g1, g2⟩ : ∃ F' c', s.info q = some (F', some k) ∧ s.lv.cont q = some c' := by
    rcases hk with hk | ⟨hk, rfl⟩
    · have hm : (k, Pay.child q) ∈ c.flatBody := alook_mem (by rw [← look_eq e3.wf]; exact hk)
      have b1 : s.info q = some (s.fcf F, some k) := (e3.ents.flat e3.wf).2 _ hm q rfl
      obtain ⟨_, c', b2⟩ := hI.l.ents p c F low k q e2 e1 hm
      exact ⟨_, c', b1, b2⟩
    · obtain ⟨c', b2⟩ := hI.l.linkl p c k e2 hk
      exact ⟨F, c', e3.link k hk, b2⟩
  have hw := hI.l.page q c' F' _ g2 g1
  have hcont : s.cont q = some c' := g2
  unfold St.cont at hcont
  rw [g1] at hcont
  simp only at hcont
  cases hm : s.mt q with
  | none => rw [hm] at hcont; cases hcont
  | some y =>
    rw [hm] at hcont
    by_cases hy : ∃ b, y = .removed b
    · obtain ⟨b, rfl⟩ := hy
      simp only [Option.map_eq_some_iff] at hcont
      obtain ⟨n, hp, rfl⟩ := hcont
      obtain ⟨u, hu⟩ := Option.ne_none_iff_exists'.mp (hI.p.pend q n hp).1
      obtain ⟨hd, f1, f2, inner, low', f3⟩ := h1.mark q u n (by rw [hm]; rfl) hu hp
      have hlow : n.low = some k := hw.wf.low_eq
      obtain ⟨call, x, n', j1, _, _, _, _, j2⟩ := h2 q u n hu hp
      refine ⟨hd, ?_, by rw [← f2.2.1]; exact hlow, Or.inr ⟨by rw [← hsh, hm]; rfl, u, call, x, f1, j1, ?_⟩⟩
      · cases hd with
        | removed b => exact f3.elim
        | base n => rfl
        | delta d nx => rfl
      · rintro r rfl; exact j2
    · have : c' = y := by
        cases y with
        | removed b => exact absurd ⟨b, rfl⟩ hy
        | base n => exact (Option.some.inj hcont).symm
        | delta d nx => exact (Option.some.inj hcont).symm
      subst this
      exact ⟨c', hw.not_removed, hw.wf.low_eq, Or.inl (by rw [← hsh]; exact hm)⟩

/-- **C75.**  When no call is active, the right sibling of a live page is live, on the same level and
begins where the page ends, and a record in force of a live index node leads to a live page that
begins with the key of the record. -/
theorem C75_quiet_index (hc : CfgOK2 cfg) {m : K → Option V} {sh : Sh K V} (hi : Init cfg m sh)
    {h : List (Spec.Event K V)} {S : Sys K V} (hr : Run cfg (Sys.start sh) h S)
    (hq : ∀ t, S.th t = .idle) {p : PID} {c : Chain K V} (hl : Spec.Live S.sh p c) :
    (∀ k, c.high = some k → ∃ c', S.sh.mt c.nextPid = some c' ∧ c'.isRemoved = false ∧
      c'.low = some k ∧ c'.isLeaf = c.isLeaf) ∧
    (∀ k q, Spec.look k c = some (.child q) → ∃ c', S.sh.mt q = some c' ∧ c'.isRemoved = false ∧
      c'.low = some k) := by
  obtain ⟨s, h1, h2, _⟩ := hi.minded hc hr
  have hsh := h1.sh
  rw [← hsh] at hl ⊢
  obtain ⟨F, low, e1, e2, e3, _⟩ := h1.inv.live_page hl
  refine ⟨fun k hk => ?_, fun k q hk => ?_⟩
  · obtain ⟨c', _, g2, g3, g4⟩ := h2.next h1 hq e2 e1 hk
    refine ⟨c', g2, g3, g4.wf.low_eq, ?_⟩
    rw [g4.isLeaf, e3.isLeaf]
  · obtain ⟨c', _, g2, g3, g4⟩ := h2.child h1 hq e2 e1 hk
    exact ⟨c', g2, g3, g4.wf.low_eq⟩

/-- **C75, searches.**  When no call is active, a search that goes from index nodes to their children
only (not to pages whose records have been deleted or replaced) meets no removal mark, provided that
the leftmost page of each level is not removed. -/
theorem C75_quiet_route_partial (hc : CfgOK2 cfg) {m : K → Option V} {sh : Sh K V}
    (hi : Init cfg m sh) {h : List (Spec.Event K V)} {S : Sys K V}
    (hr : Run cfg (Sys.start sh) h S) (hq : ∀ t, S.th t = .idle)
    (hl : Spec.CalmBegin S.sh none) {key : K} {closed : Bool} (hu : Spec.UpToDate S.sh key closed)
    {p : PID} {b : Bool} (hp : Spec.Route S.sh key closed p) : S.sh.mt p ≠ some (.removed b) := by
  obtain ⟨s, h1, h2, _⟩ := hi.minded hc hr
  have hsh := h1.sh
  rw [← hsh] at hl hu hp ⊢
  obtain ⟨_, _, c, _, _, e1, e2, _⟩ := h2.route h1 hq hu hl hp
  intro e
  cases e1.symm.trans e
  cases e2

/-- A search in index nodes without delta records goes to children only. -/
theorem C75_packed (hc : CfgOK2 cfg) {m : K → Option V} {sh : Sh K V} (hi : Init cfg m sh)
    {h : List (Spec.Event K V)} {S : Sys K V} (hr : Run cfg (Sys.start sh) h S) {key : K}
    {closed : Bool} (hp : Spec.Packed S.sh key closed) : Spec.UpToDate S.sh key closed := by
  obtain ⟨s, h1, _⟩ := hi.run hc hr
  rw [← h1.sh] at hp ⊢
  intro p c q hpr hm hlf hst
  cases c with
  | removed b =>
    rcases hst with e | ⟨w, e, _⟩ <;> simp [childStep, dcSearchChild] at e
  | delta d nx => exact absurd (hp p _ hpr hm hlf rfl) (by simp [Spec.deltas])
  | base n =>
    obtain ⟨inner, low, hw⟩ := h1.inv.slot_chain hm rfl
    have hn : n.inner = true := by simpa [Chain.isLeaf] using hlf
    rcases hst with e | ⟨w, e, _⟩
    · exact childStep_childOf hw.2.2 hn e
    · exact absurd e (childStep_base n w)

/-- **C75, reads.**  When no call is active, a `Read` that runs alone ends and returns what the map
holds, provided that its search goes to children only and the leftmost page of each level is not
removed. -/
theorem C75_quiet_read_partial (ht : cfg.thr ≤ cfg.maxDelta) (hc : CfgOK2 cfg) {m : K → Option V}
    {sh : Sh K V} (hi : Init cfg m sh) {h : List (Spec.Event K V)} {S : Sys K V}
    (hr : Run cfg (Sys.start sh) h S) (hq : ∀ t, S.th t = .idle)
    (hl : Spec.CalmBegin S.sh none) :
    ∃ mS ops, Spec.Accepts ⟨m, fun _ => .idle⟩ h ⟨mS, ops⟩ ∧ ∀ key, Spec.UpToDate S.sh key true →
      ∃ N, ∀ f, N ≤ f → ∃ n, Alone n S.sh (runOp cfg f (.read key)) S.sh
        (.ret (.payload (mS key))) := by
  obtain ⟨mS, ops, h1, h2⟩ := C72_quiet_read_partial ht hc hi hr hq
  exact ⟨mS, ops, h1, fun key hu =>
    h2 key fun p b hp => C75_quiet_route_partial hc hi hr hq hl hu hp⟩

/-! ## Examples -/

/-- Does the route of `key` meet only index nodes without delta records?  (Decidable.) -/
def packedCheck (sh : Sh Nat Nat) (key : Nat) : Nat → PID → Bool
  | 0, _ => false
  | f + 1, p =>
    match sh.mt p with
    | none => false
    | some c =>
      if c.isLeaf then
        match c.high with
        | none => true
        | some h => if h ≤ key then packedCheck sh key f c.nextPid else true
      else decide (Spec.deltas c = 0) && match childStep key true c with
        | .child q => packedCheck sh key f q
        | .sibling q => packedCheck sh key f q
        | _ => false

theorem packedCheck_spec {sh : Sh Nat Nat} {key f : Nat} (h : packedCheck sh key f sh.root = true) :
    Spec.Packed sh key true := by
  have hgood : ∀ p, Spec.Route sh key true p → ∃ f, packedCheck sh key f p = true := by
    intro p hp
    induction hp with
    | root => exact ⟨f, h⟩
    | child _ hm hl hc ih =>
      obtain ⟨g, hg⟩ := ih
      cases g with
      | zero => cases hg
      | succ g => simp [packedCheck, hm, hl, hc] at hg; exact ⟨g, hg.2⟩
    | cell _ hm hl hc ih =>
      obtain ⟨g, hg⟩ := ih
      cases g with
      | zero => cases hg
      | succ g => simp [packedCheck, hm, hl, hc] at hg
    | sibling _ hm hl hc ih =>
      obtain ⟨g, hg⟩ := ih
      cases g with
      | zero => cases hg
      | succ g => simp [packedCheck, hm, hl, hc] at hg; exact ⟨g, hg.2⟩
    | leaf _ hm hl hh hk ih =>
      obtain ⟨g, hg⟩ := ih
      simp only [if_true] at hk
      cases g with
      | zero => cases hg
      | succ g => simp [packedCheck, hm, hl, hh, hk] at hg; exact ⟨g, hg⟩
  intro p c hp hm hl _
  obtain ⟨g, hg⟩ := hgood p hp
  cases g with
  | zero => cases hg
  | succ g => simp [packedCheck, hm, hl] at hg; exact hg.1

/-- The root has a record in force of `k` for `q`. -/
def rootFacts (sh : Sh Nat Nat) (k : Nat) (q : PID) : Bool :=
  match sh.mt sh.root with
  | some c => !c.isRemoved && (Spec.look k c).any fun x => match x with
    | .child q' => q' == q
    | _ => false
  | none => false

theorem rootFacts_spec {sh : Sh Nat Nat} {k : Nat} {q : PID} (h : rootFacts sh k q = true) :
    ∃ c, Spec.Live sh sh.root c ∧ Spec.look k c = some (.child q) := by
  unfold rootFacts at h
  cases hm : sh.mt sh.root with
  | none => rw [hm] at h; cases h
  | some c =>
    rw [hm] at h
    simp only [Bool.and_eq_true, Option.any_eq_true] at h
    obtain ⟨h1, x, h2, h3⟩ := h
    refine ⟨c, ⟨.root, hm, by simpa using h1⟩, ?_⟩
    cases x with
    | val v => cases h3
    | child q' => rw [h2, eq_of_beq h3]

/-- Index node 13 is being merged; the root still has its record, and the thread that has marked it is
inside its call. -/
example : ∃ (S : Sys Nat Nat) (c c' : Chain Nat Nat), Reachable smallCfg (fun _ => none) S ∧
    Spec.Live S.sh S.sh.root c ∧ Spec.look 80 c = some (.child 13) ∧
    S.sh.mt 13 = some (.removed false) ∧ c'.low = some 80 ∧
    ∃ t call x, S.mark 13 = some (t, c') ∧ S.th t = .run call x ∧ ∀ r, x ≠ .ret r := by
  obtain ⟨h, S, h1, h2, h3⟩ := scenario_witness (cfg := smallCfg)
    (cs := exIns ((List.range 24).map (· * 10)) ++ exDel ((List.range 12).map fun i => (23 - i) * 10) ++
      [.acts [.op 0 100 (.delete 110)], .steps 0 15])
    (fun _ S => (rootFacts S.sh 80 13, match S.sh.mt 13 with | some (.removed false) => true | _ => false))
    (x := (true, true)) (by decide +kernel)
  simp only [Prod.mk.injEq] at h3
  obtain ⟨hf, hm⟩ := h3
  obtain ⟨c, hl, hk⟩ := rootFacts_spec hf
  have hm : S.sh.mt 13 = some (.removed false) := by
    split at hm
    · next e => exact e
    · cases hm
  obtain ⟨c', e1, e2, e3⟩ := C73_inner_pending_partial smallCfg_ok .empty h1 hl (Or.inl hk)
  rcases e3 with e3 | ⟨_, e3⟩
  · rw [hm] at e3; cases e3; cases e1
  · exact ⟨S, c, c', h2, hl, hk, hm, e2, e3⟩

/-- In the quiet state of `C47_false` the record of the root in force leads to leaf 5, which has the
record of 80, but the root sends the search for 80 to leaf 4, which is removed. -/
example : ∃ (S : Sys Nat Nat) (c : Chain Nat Nat), Reachable lazyCfg (fun _ => none) S ∧
    (∀ t, S.th t = .idle) ∧ Spec.Live S.sh S.sh.root c ∧ Spec.look 70 c = some (.child 5) ∧
    (∃ c', S.sh.mt 5 = some c' ∧ c'.isRemoved = false ∧ c'.low = some 70) ∧
    DeadEnd S.sh 80 S.sh.root 4 := by
  obtain ⟨h, S, h1, h2, h3⟩ := scenario_witness (cfg := lazyCfg) (cs := exLate)
    (fun h S => (quietAt h S, deadEndAt S.sh 80 4, rootFacts S.sh 70 5)) (x := (true, true, true))
    (by decide +kernel)
  simp only [Prod.mk.injEq] at h3
  obtain ⟨hq, hd, hf⟩ := h3
  have hq' := quietAt_spec h1 hq
  obtain ⟨c, hl, hk⟩ := rootFacts_spec hf
  exact ⟨S, c, h2, hq', hl, hk, (C75_quiet_index lazyCfg_ok .empty h1 hq' hl).2 70 5 hk,
    deadEndAt_spec hd⟩

/-- The same state after insertions of other keys, which split leaf 1 and consolidate the root:
`Read(80)`, which never returned, ends and finds its record. -/
example : ∃ (h : List (Spec.Event Nat Nat)) (S : Sys Nat Nat),
    Run lazyCfg (Sys.start (initSh lazyCfg)) h S ∧ (∀ t, S.th t = .idle) ∧
    S.sh.mt 4 = some (.removed true) ∧ Spec.Packed S.sh 80 true ∧
    ∃ N, ∀ f, N ≤ f → ∃ n v, Alone n S.sh (runOp lazyCfg f (.read 80)) S.sh (.ret (.payload v)) := by
  obtain ⟨h, S, h1, _, h2⟩ := scenario_witness (cfg := lazyCfg) (cs := exLate ++ exIns [1, 2, 3, 4, 5])
    (fun h S => (quietAt h S, leftCheck S.sh 5 S.sh.root, packedCheck S.sh 80 5 S.sh.root,
      match S.sh.mt 4 with | some (.removed true) => true | _ => false))
    (x := (true, true, true, true)) (by decide +kernel)
  simp only [Prod.mk.injEq] at h2
  obtain ⟨hq, hl, hp, hm⟩ := h2
  have hq' := quietAt_spec h1 hq
  have hp' := packedCheck_spec hp
  obtain ⟨mS, _, _, h3⟩ :=
    C75_quiet_read_partial (by decide) lazyCfg_ok .empty h1 hq' (leftCheck_spec hl)
  obtain ⟨N, h4⟩ := h3 80 (C75_packed lazyCfg_ok .empty h1 hp')
  refine ⟨h, S, h1, hq', ?_, hp', N, fun f hf => ?_⟩
  · split at hm
    · next e => exact e
    · cases hm
  · obtain ⟨n, e⟩ := h4 f hf
    exact ⟨n, _, e⟩

/-- The first proviso of `C75_quiet_read_partial` is needed: in a quiet state in which the leftmost
pages are live a search can go to a page that is not a child and is removed, and `Read` never ends. -/
theorem C75_children_needed : ∃ S : Sys Nat Nat, Reachable lazyCfg (fun _ => none) S ∧
    (∀ t, S.th t = .idle) ∧ Spec.CalmBegin S.sh none ∧ ¬ Spec.UpToDate S.sh 80 true ∧
    ∀ (f n : Nat) (sh' : Sh Nat Nat) (q : Prog Nat Nat (Spec.Res Nat)),
      Alone n S.sh (runOp lazyCfg f (.read 80)) sh' q → GoesOn f n q := by
  obtain ⟨h, S, h1, h2, h3⟩ := scenario_witness (cfg := lazyCfg) (cs := exLate)
    (fun h S => (quietAt h S, deadEndAt S.sh 80 4, leftCheck S.sh 5 S.sh.root))
    (x := (true, true, true)) (by decide +kernel)
  simp only [Prod.mk.injEq] at h3
  obtain ⟨hq, hd, hl⟩ := h3
  have hq' := quietAt_spec h1 hq
  have hd' := deadEndAt_spec hd
  refine ⟨S, h2, hq', leftCheck_spec hl, fun hu => ?_, fun f n sh' q => hd'.read f n⟩
  obtain ⟨c, e1, e2, e3⟩ := hd'.inner
  exact C75_quiet_route_partial lazyCfg_ok .empty h1 hq' (leftCheck_spec hl) hu
    (.child .root e1 e2 e3) hd'.leaf

end BwTree.Props
