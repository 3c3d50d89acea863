import Verif.Conc.Sound
import Verif.Bulk.Ghost
import Verif.Spec.Reach
import Verif.Spec.Linear

/-!
# Initial states, whole executions and reachable pages (proof side)
-/

namespace BwTree

set_option linter.unusedSectionVars false

variable {K V : Type} [LinearOrder K] {cfg : Cfg K} {s s' : St K V}

/-- Ghost state of the empty tree. -/
def emptySt (cfg : Cfg K) : St K V :=
  { toSh := initSh cfg, info := upd (fun _ => none) 1 (some (0, none)), nfam := 1, fcf := fun _ => 0,
    est := fun _ => .posted 0, own := fun _ => none, pend := fun _ => none,
    cellInfo := fun _ => none, m := fun _ => none, ops := fun _ => .idle }

theorem emptyLeaf_wf : NodeWF cfg (emptyLeaf cfg : Node K V) where
  sorted := List.Pairwise.nil
  range := fun x hx => by simp [emptyLeaf, Node.body, Node.leftInner] at hx
  ne := fun l h e => by cases e
  kind := fun x hx => by simp [emptyLeaf] at hx
  first := fun h => by cases h
  size := by
    simp [emptyLeaf, Cfg.bytes, Cfg.keyBytes, Cfg.bnd, Cfg.olen, Node.body, Node.leftInner]

theorem emptySt_info {p : PID} {x : Nat × Option K} (h : (emptySt (V := V) cfg).info p = some x) :
    p = 1 ∧ x = (0, none) := by
  by_cases e : p = 1
  · subst e; exact ⟨rfl, (Option.some.inj h).symm⟩
  · rw [emptySt] at h; simp only [upd_ne _ _ e] at h; cases h

theorem emptySt_cont {p : PID} {c : Chain K V} (h : (emptySt (V := V) cfg).cont p = some c) :
    p = 1 ∧ c = .base (emptyLeaf cfg) := by
  unfold St.cont at h
  cases hi : (emptySt (V := V) cfg).info p with
  | none => rw [hi] at h; cases h
  | some x =>
    obtain ⟨rfl, rfl⟩ := emptySt_info hi
    rw [hi] at h
    exact ⟨rfl, (Option.some.inj h).symm⟩

theorem emptySt_inv (hc : CfgOK2 cfg) : Inv cfg (emptySt (K := K) (V := V) cfg) := by
  have hpage : (cfg.hdr : Int) ≤ cfg.page := by have := hc.leaf; omega
  refine ⟨⟨?_, ?_, ?_, ?_, ?_, ?_, ?_, ?_, ?_, ?_⟩, ?_⟩
  · intro p c F low h1 h2
    obtain ⟨rfl, rfl⟩ := emptySt_cont h1
    have e : (0, none) = (F, low) := Option.some.inj h2
    cases e
    refine ⟨⟨rfl, rfl, emptyLeaf_wf⟩, ⟨?_, ?_⟩, ?_, ?_, hpage⟩
    · intro x hx; simp [emptyLeaf, Node.pre, Node.leftInner] at hx
    · intro x hx; simp [emptyLeaf, Node.body, Node.leftInner] at hx
    · intro h e; cases e
    · have := slack_nonneg cfg (decide ((0 : Nat) ≠ 0))
      show (cfg.hdr : Int) ≤ _
      omega
  · intro p c h1
    obtain ⟨rfl, rfl⟩ := emptySt_cont h1
    exact ⟨0, none, rfl⟩
  · intro p q c c' F low low' h1 h2 _ _ hne
    obtain ⟨rfl, rfl⟩ := emptySt_cont h1
    obtain ⟨rfl, rfl⟩ := emptySt_cont h2
    exact absurd rfl hne
  · intro p c F low sep q h1 _ h3
    obtain ⟨rfl, rfl⟩ := emptySt_cont h1
    simp [Chain.flatBody, emptyLeaf, Node.body, Node.leftInner] at h3
  · intro p c low k h1 _ _
    obtain ⟨rfl, rfl⟩ := emptySt_cont h1
    rfl
  · intro k
    refine ⟨1, .base (emptyLeaf cfg), none, rfl, rfl, ?_, ?_⟩
    · intro l e; cases e
    · intro l e; cases e
  · intro p F l h1 _
    obtain ⟨_, e⟩ := emptySt_info (cfg := cfg) (V := V) h1
    cases e
  · intro p F low h1
    obtain ⟨_, e⟩ := emptySt_info (cfg := cfg) (V := V) h1
    cases e; exact Nat.zero_lt_one
  · intro F h1 h2
    have h2 : F < 1 := h2
    omega
  · intro p c h h1 h2
    obtain ⟨rfl, rfl⟩ := emptySt_cont h1
    cases h2
  · refine ⟨Nat.zero_lt_two, ?_, ?_, ?_, ?_, ?_, ?_, ?_, ?_, ?_, ?_⟩
    · intro p hp
      have hne : p ≠ 1 := by
        rcases hp with hp | hp
        · exact fun e => absurd (show 2 ≤ p from hp) (by rw [e]; decide)
        · exact fun e => absurd (hp.symm.trans e) (by decide)
      refine ⟨?_, ?_, rfl, rfl⟩ <;> simp [emptySt, initSh, upd, hne]
    · intro p F low h1
      obtain ⟨rfl, e⟩ := emptySt_info h1
      exact ⟨.base (emptyLeaf cfg), rfl, fun b e => by cases e⟩
    · intro p c h1 h2 h3
      cases hi : (emptySt (V := V) cfg).info p with
      | none => exact absurd hi h1
      | some x =>
        obtain ⟨rfl, _⟩ := emptySt_info hi
        have : c = .base (emptyLeaf cfg) := (Option.some.inj h2).symm
        subst this; cases h3
    · intro p t h1; cases h1
    · intro p t h1; cases h1
    · intro p h1; cases h1
    · exact ⟨0, rfl⟩
    · intro w F k h1; cases h1
    · intro w _; rfl
    · intro p c h1 h2
      by_cases e : p = 1
      · subst e; cases h1
      · have h2 : upd (fun _ => none) 1 (some (Chain.base (emptyLeaf cfg))) p = some c := h2
        rw [upd_ne _ _ e] at h2; cases h2

/-- Initial states satisfy the invariant. -/
theorem Init.sound (hc : CfgOK2 cfg) {m : K → Option V} {sh : Sh K V} (h : Init cfg m sh) :
    ∃ s, Sound cfg s (Sys.start sh) ∧ s.m = m ∧ s.ops = fun _ => .idle := by
  cases h with
  | empty =>
    exact ⟨emptySt cfg, ⟨rfl, emptySt_inv hc, fun _ => rfl, (fun _ _ _ _ e => by cases e),
      (fun _ _ _ _ e => by cases e)⟩, rfl, rfl⟩
  | @bulk ids threads es T root npid fix inj fresh ne sorted run bound =>
    have h0 : ∀ t i, ids t i ≠ 0 := fun t i e =>
      Nat.not_lt_zero 1 (Nat.lt_of_lt_of_eq (fresh t i) e)
    obtain ⟨T', root', lv, h1, h2⟩ := bulkload_spec inj h0 threads es ne
      (Or.inr (by rw [run]; exact Option.some_ne_none _))
    obtain ⟨rfl, rfl⟩ := Prod.mk.inj (Option.some.inj (h1.symm.trans run))
    exact ⟨bulkSt T' root' npid lv (Spec.ofList es), ⟨rfl, bulkSt_inv fix h2 sorted h0 bound, fun _ => rfl,
      (fun _ _ _ _ e => by cases e), (fun _ _ _ _ e => by cases e)⟩, rfl, rfl⟩

theorem Follows.trans {s'' : St K V} {h g : List (Spec.Event K V)} (h1 : Follows s s' h)
    (h2 : Follows s' s'' g) : Follows s s'' (h ++ g) := by
  intro a l hl
  rw [← List.append_assoc]
  exact h2 a _ (h1 a l hl)

/-- Whole executions. -/
theorem Sound.run (hc : CfgOK2 cfg) {S₀ S : Sys K V} (h₀ : Sound cfg s S₀)
    {h : List (Spec.Event K V)} (hr : Run cfg S₀ h S) :
    ∃ s', Sound cfg s' S ∧ Follows s s' h ∧ StepOK s s' := by
  induction hr with
  | nil => exact ⟨s, h₀, fun a l hl => by rw [List.append_nil]; exact hl, Mono.rfl, h₀.inv.fix_rfl⟩
  | tau _ hs ih =>
    obtain ⟨s1, h1, h2, h3⟩ := ih
    obtain ⟨s2, g1, g2, g3, _⟩ := h1.step hc hs
    refine ⟨s2, g1, ?_, h3.trans g3⟩
    have := h2.trans g2
    rwa [Option.toList, List.append_nil] at this
  | event _ hs ih =>
    obtain ⟨s1, h1, h2, h3⟩ := ih
    obtain ⟨s2, g1, g2, g3, _⟩ := h1.step hc hs
    exact ⟨s2, g1, h2.trans g2, h3.trans g3⟩

/-- Executions from an initial state. -/
theorem Init.run (hc : CfgOK2 cfg) {m : K → Option V} {sh : Sh K V} (h : Init cfg m sh)
    {hist : List (Spec.Event K V)} {S : Sys K V} (hr : Run cfg (Sys.start sh) hist S) :
    ∃ s, Sound cfg s S ∧ Spec.Accepts ⟨m, fun _ => .idle⟩ hist ⟨s.m, s.ops⟩ := by
  obtain ⟨s0, h0, h1, h2⟩ := h.sound hc
  obtain ⟨s, g1, g2, _⟩ := h0.run hc hr
  refine ⟨s, g1, ?_⟩
  have := g2 ⟨m, fun _ => .idle⟩ [] (by rw [h1, h2]; exact .nil _)
  simpa using this

theorem Reachable.sound (hc : CfgOK2 cfg) {m : K → Option V} {S : Sys K V}
    (h : Reachable cfg m S) : ∃ s, Sound cfg s S := by
  obtain ⟨sh, hist, h1, h2⟩ := h
  obtain ⟨s, h3, _⟩ := h1.run hc h2
  exact ⟨s, h3⟩

/-! ## Reachable pages are published -/

theorem NodeEnts.entry {P : Option K → PID → Prop} {n : Node K V} (h : NodeEnts P n) {k : K}
    {q : PID} (hm : (k, Pay.child q) ∈ n.recs) : ∃ sep, P sep q := by
  by_cases hl : n.leftInner = true
  · have hm' : (k, Pay.child q) ∈ n.pre ++ n.body := by
      rw [Node.pre, Node.body, if_pos hl, if_pos hl, List.take_append_drop]; exact hm
    rcases List.mem_append.mp hm' with e | e
    · exact ⟨none, h.1 _ e q rfl⟩
    · exact ⟨_, h.2 _ e q rfl⟩
  · have hm' : (k, Pay.child q) ∈ n.body := by rw [Node.body, if_neg hl]; exact hm
    exact ⟨_, h.2 _ hm' q rfl⟩

theorem EntsOK.entry {P : Option K → PID → Prop} {Q : K → Nat → Prop} {sh : Sh K V} {c : Chain K V}
    {q : PID} (he : EntsOK P Q c) (h : Spec.Entry sh c q) :
    (∃ sep, P sep q) ∨ ∃ k w, Q k w ∧ sh.cells w ≠ 0 ∧ q = sh.cells w := by
  induction h with
  | base hm => exact Or.inl (NodeEnts.entry he hm)
  | child h1 h2 => exact Or.inl ⟨_, he.2.1 _ h1 h2⟩
  | cell h1 h2 => exact Or.inr ⟨_, _, he.2.2.1 _ h1, h2, rfl⟩
  | node h1 h2 _ =>
    cases h2 with
    | base hm => exact Or.inl (NodeEnts.entry (he.2.2.2 _ h1) hm)
  | rest _ ih => exact ih he.1

theorem Inv.entry_info (hI : Inv cfg s) {p q : PID} {c : Chain K V} {F : Nat} {low : Option K}
    (hi : s.info p = some (F, low)) (hm : s.mt p = some c) (he : Spec.Entry s.toSh c q) :
    ∃ low', s.info q = some (s.fcf F, low') := by
  cases hr : c.isRemoved with
  | true =>
    cases c with
    | removed b => cases he
    | base n => cases hr
    | delta d nx => cases hr
  | false =>
    have hw := (hI.live hi hm hr).2
    rcases hw.ents.entry he with ⟨sep, h1⟩ | ⟨k, w, h1, h2, h3⟩
    · exact ⟨sep, h1⟩
    · rcases hI.p.cell w _ _ h1 with e | ⟨low', e, _⟩
      · exact absurd e h2
      · exact ⟨low', by rw [h3]; exact e⟩

theorem Inv.reach (hI : Inv cfg s) {p : PID} (h : Spec.Reach s.toSh p) :
    ∃ F low, s.info p = some (F, low) := by
  induction h with
  | root => obtain ⟨F, h⟩ := hI.p.root; exact ⟨F, none, h⟩
  | child _ hm he ih =>
    obtain ⟨F, low, hi⟩ := ih
    obtain ⟨low', h⟩ := hI.entry_info hi hm he
    exact ⟨_, low', h⟩
  | @sibling p c h _ hm hh ih =>
    obtain ⟨F, low, hi⟩ := ih
    cases hr : c.isRemoved with
    | true =>
      cases c with
      | removed b => cases hh
      | base n => cases hr
      | delta d nx => cases hr
    | false => exact ⟨F, some h, (hI.live hi hm hr).2.link h hh⟩

/-- What is known about a live reachable page. -/
theorem Inv.live_page (hI : Inv cfg s) {p : PID} {c : Chain K V} (h : Spec.Live s.toSh p c) :
    ∃ F low, s.info p = some (F, low) ∧ s.cont p = some c ∧ PageWF cfg s.lv F low c ∧
      c.low = low ∧ c.isLeaf = decide (F = 0) := by
  obtain ⟨F, low, hi⟩ := hI.reach h.reach
  obtain ⟨h1, h2⟩ := hI.live hi h.slot h.live
  exact ⟨F, low, hi, h1, h2, h2.wf.low_eq, h2.isLeaf⟩

/-- Every chain in the mapping table is well-formed. -/
theorem Inv.slot_wf (hI : Inv cfg s) {p : PID} {c : Chain K V}
    (hm : s.mt p = some c) (hr : c.isRemoved = false) :
    ∃ inner low, ChainWF cfg inner low c ∧ c.size ≤ cfg.page + slack cfg inner ∧
      (c.isDelta = false → c.size ≤ cfg.page) := by
  cases hi : s.info p with
  | none =>
    obtain ⟨n, rfl, h1, h2⟩ := hI.p.unpub p c hi hm
    refine ⟨n.inner, n.low, ⟨rfl, rfl, h1⟩, ?_, fun _ => h2⟩
    have := slack_nonneg cfg n.inner
    show n.size ≤ _
    omega
  | some x =>
    obtain ⟨F, low⟩ := x
    have h2 := (hI.live hi hm hr).2
    exact ⟨_, _, h2.wf, h2.size, h2.base_le⟩

theorem covers_iff {c : Chain K V} {low : Option K} (h : c.low = low) (k : K) :
    Spec.Covers c k ↔ InR low c.high k := by
  subst h
  simp [Spec.Covers, InR, LowOK, HighOK]

end BwTree
