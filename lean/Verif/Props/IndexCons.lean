import Verif.Spec.Child
import Verif.Props.QuietIndex
import Verif.Props.QuietOrder

/-!
# C78: consolidating an index node makes its searches exact

A search in the delta chain of an index node may follow a record whose upper bound is out of date, or
the word of a deleted record (C47, C49).  The page that consolidation writes has no such records:
every search in it, or in the two halves of a split, ends at the child of the last record in force
(`bw_tree.hpp` 771-815, `SearchChildNode`, and 1228-1263, `TryConsolidate`; `SearchChild` in
`fixlen/node.hpp` 363-386 and `varlen/node.hpp` 391-414).
-/

namespace BwTree.Props

open BwTree

set_option linter.unusedSectionVars false

variable {K V : Type} [LinearOrder K] {cfg : Cfg K}

/-- Where a search goes on in the pages a consolidation writes; the left half of a split leads to page
`rp`, which holds the right half. -/
def newStep (key : K) (closed : Bool) (rp : PID) : SMO K V → ChRes
  | .consolidate n | .merge n => childStep key closed (.base n)
  | .split l r =>
    match childStep key closed (.base { l with next := rp }) with
    | .sibling p => if p = rp then childStep key closed (.base r) else .sibling p
    | x => x

/-- There is at most one child for a key. -/
theorem childFor_unique {c : Chain K V} {key : K} {closed : Bool} {q q' : PID}
    (h : Spec.ChildFor c key closed q) (h' : Spec.ChildFor c key closed q') : q = q' := by
  rcases h with ⟨y, a1, a2, a3⟩ | ⟨a1, a2, a3⟩ <;> rcases h' with ⟨z, b1, b2, b3⟩ | ⟨b1, b2, b3⟩
  · rcases lt_trichotomy y z with hl | rfl | hl
    · rw [a3 z hl b1] at b2; cases b2
    · rw [a2] at b2; cases b2; rfl
    · rw [b3 y hl a1] at a2; cases a2
  · rw [b3 y a1] at a2; cases a2
  · rw [a3 z b1] at b2; cases b2
  · rw [a2] at b2; cases b2; rfl

theorem lec_after {closed : Bool} {x key : K} : LEc closed x key ↔ Spec.After closed x key := Iff.rfl

theorem highOK_after {high : Option K} {key : K} {closed : Bool} :
    HighOK high key closed ↔ ∀ h, high = some h → ¬ Spec.After closed h key := by
  unfold HighOK Spec.After
  cases closed <;> simp

theorem floor_childFor {low : Option K} {c : Chain K V} (h : ChainWF cfg true low c) {key : K}
    {closed : Bool} {q : PID} (hf : Floor c.pre c.flatBody key closed q) :
    Spec.ChildFor c key closed q := by
  have hs := h.flatBody_spec.1
  rcases hf with ⟨y, h1, h2, h3⟩ | ⟨⟨y, h1⟩, h2⟩
  · refine Or.inl ⟨y, h2, by rw [look_eq h]; exact alook_of_mem hs h1, fun x hx ha => ?_⟩
    rw [look_eq h, alook_none]
    rintro z hz rfl
    exact absurd (h3 z hz ha) (not_le.2 hx)
  · obtain ⟨_, g1, g2⟩ := leftmost_of_pre h h1
    refine Or.inr ⟨h.low_eq.trans g1, g2, fun x ha => ?_⟩
    rw [look_eq h, alook_none]
    rintro z hz rfl
    exact h2 z hz ha

theorem base_step {low : Option K} {n : Node K V} (h : ChainWF cfg true low (.base n)) {key : K}
    {closed : Bool} (hl : LowOK low key closed) (hh : HighOK n.high key closed) :
    ∃ q, childStep key closed (.base n) = .child q ∧
      Floor (Chain.base n).pre (Chain.base n).flatBody key closed q := by
  rcases childStep_exact (fl := fun _ => none) h trivial key closed hl hh with hx | ⟨w, q, e, _⟩
  · exact hx
  · exact absurd e (childStep_base n w)

/-- **C78, records.**  Every search in the pages that the consolidation of an index node writes goes on
to the child of the last record in force, or, beyond the node, to its right sibling. -/
theorem consolidated_step (hc : CfgOK cfg) {low : Option K} {c : Chain K V}
    (h : ChainWF cfg true low c) {smo : SMO K V} (ht : tryConsolidate cfg false c = some smo)
    {key : K} {closed : Bool} (hl : LowOK low key closed) (rp : PID) :
    Spec.IndexStep c key closed (newStep key closed rp smo) := by
  obtain ⟨_, t2, t3, t4⟩ := tryConsolidate_spec hc h false
  obtain ⟨w1, w2, w3, w4, w5⟩ := consNode_wf h
  have one : Spec.IndexStep c key closed (childStep key closed (.base (consNode true c c.size))) := by
    refine ⟨fun hh => ?_, fun b hb ha => ?_⟩
    · obtain ⟨q, e, hf⟩ := base_step w1 hl (closed := closed) (key := key)
        (by rw [show (consNode true c c.size).high = c.high from w4]; exact highOK_after.2 hh)
      rw [w2, w3] at hf
      exact ⟨q, e, floor_childFor h hf⟩
    · rw [← w5]
      exact childStep_beyond (fl := fun _ => none) w1 trivial key closed
        (by rw [w4, highOK_after]; exact fun hh => hh b hb ha)
  by_cases hs : c.size ≤ cfg.page
  · by_cases hm : c.size ≤ cfg.minSize
    · rw [t2 rfl hs hm] at ht; cases ht; exact one
    · rw [t3 rfl hs hm] at ht; cases ht; exact one
  obtain ⟨lr, x, rr, hlr, hcat, _, _, e⟩ := t4 rfl hs
  rw [e] at ht
  cases ht
  obtain ⟨v1, v2, v3, v4, v5, v6, v7, v8⟩ := split_wf h hlr hcat rp
  have hlb := v1.flatBody_spec
  have hrb := v2.flatBody_spec
  have ex : ({ splitL cfg true c lr x.1 0 with next := rp } : Node K V) =
      splitL cfg true c lr x.1 rp := rfl
  have hlh : (Chain.base (splitL cfg true c lr x.1 rp)).high = some x.1 := rfl
  have hrh : (Chain.base (splitR cfg true c x rr)).high = c.high := rfl
  have hrn : (Chain.base (splitR cfg true c x rr)).nextPid = c.nextPid := rfl
  simp only [newStep, ex]
  by_cases hk : HighOK (some x.1) key closed
  · -- in the left half
    obtain ⟨q, e1, hf⟩ := base_step v1 hl hk
    rw [e1]
    have ha : ¬ Spec.After closed x.1 key := highOK_after.1 hk _ rfl
    have hr : ∀ z ∈ (Chain.base (splitR cfg true c x rr)).flatBody, ¬ LEc closed z.1 key := by
      intro z hz hz'
      have := (hrb.2.1 z hz).1 _ rfl
      simp only [if_true] at this
      apply ha
      unfold LEc at hz'
      unfold Spec.After
      cases closed
      · exact lt_of_le_of_lt this hz'
      · exact le_trans this hz'
    refine ⟨fun _ => ⟨q, rfl, floor_childFor h ?_⟩, fun b hb hb' => absurd ?_ ha⟩
    · rw [← v3, ← v5]
      rcases hf with ⟨y, f1, f2, f3⟩ | ⟨f1, f2⟩
      · refine Or.inl ⟨y, List.mem_append_left _ f1, f2, fun z hz hz' => ?_⟩
        rcases List.mem_append.1 hz with hz | hz
        · exact f3 z hz hz'
        · exact absurd hz' (hr z hz)
      · refine Or.inr ⟨f1, fun z hz => ?_⟩
        rcases List.mem_append.1 hz with hz | hz
        · exact f2 z hz
        · exact hr z hz
    · have := v8 b hb
      simp only [if_true] at this
      unfold Spec.After at hb' ⊢
      cases closed
      · exact lt_trans this hb'
      · exact le_trans this.le hb'
  · -- in the right half
    have e1 := childStep_beyond (fl := fun _ => none) v1 trivial key closed (by rw [hlh]; exact hk)
    rw [e1]
    have hnx : (Chain.base (splitL cfg true c lr x.1 rp)).nextPid = rp := rfl
    rw [hnx]
    simp only [if_true]
    have hl' : LowOK (some x.1) key closed := by
      intro l hl; cases hl
      by_contra hx
      exact hk (highOK_after.2 fun b hb => by cases hb; exact hx)
    refine ⟨fun hh => ?_, fun b hb ha => ?_⟩
    · obtain ⟨q, e2, hf⟩ := base_step v2 hl' (highOK_after.2 hh)
      refine ⟨q, e2, floor_childFor h ?_⟩
      rw [v4] at hf
      rw [← v5]
      rcases hf with ⟨y, f1, f2, f3⟩ | ⟨⟨y, f1⟩, _⟩
      · refine Or.inl ⟨y, List.mem_append_right _ f1, f2, fun z hz hz' => ?_⟩
        rcases List.mem_append.1 hz with hz | hz
        · have h1 := (hlb.2.1 z hz).2 _ rfl
          have h2 := (hrb.2.1 _ f1).1 _ rfl
          simp only [if_true] at h1 h2
          exact (lt_of_lt_of_le h1 h2).le
        · exact f3 z hz hz'
      · cases f1
    · rw [← hrn]
      exact childStep_beyond (fl := fun _ => none) v2 trivial key closed
        (by rw [hrh, highOK_after]; exact fun hh => hh b hb ha)

/-- **C78.**  At every moment, consolidation of an index node in the mapping table succeeds, and every
search in the new pages goes on to the child of the last record in force of the node, or, beyond the
node, to its right sibling. -/
theorem C78_consolidated_search (hc : CfgOK2 cfg) {m : K → Option V} {S : Sys K V}
    (hr : Reachable cfg m S) {p : PID} {c : Chain K V} (hm : S.sh.mt p = some c)
    (hn : c.isRemoved = false) (hl : c.isLeaf = false) :
    ∃ smo, tryConsolidate cfg false c = some smo ∧
      ∀ key closed rp, (∀ l, c.low = some l → Spec.After closed l key) →
        Spec.IndexStep c key closed (newStep key closed rp smo) := by
  obtain ⟨s, hS⟩ := hr.sound hc
  obtain ⟨inner, low, hwf, _⟩ := hS.inv.slot_wf (show s.mt p = some c by
    rw [show s.mt = S.sh.mt from congrArg Sh.mt hS.sh]; exact hm) hn
  have hin : inner = true := by
    have := hwf.isLeaf
    rw [hl] at this
    simpa using this.symm
  subst hin
  cases ht : tryConsolidate cfg false c with
  | none => exact absurd ht (C22_nodes_fit_partial hc hr hm hn).2.2.2.1
  | some smo =>
    refine ⟨smo, rfl, fun key closed rp hlo => consolidated_step hc.toCfgOK hwf ht ?_ rp⟩
    intro l e
    exact hlo l (hwf.low_eq.trans e)

/-- The page a search follows an index-delete record to. -/
def readWord (sh : Sh K V) : ChRes → ChRes
  | .cell w => .child (sh.cells w)
  | x => x

/-- **C78, chains.**  At every moment, a search in a live index node whose chain is tight is as exact as
one in its consolidated page. -/
theorem C78_tight_search (hc : CfgOK2 cfg) {m : K → Option V} {S : Sys K V}
    (hr : Reachable cfg m S) {p : PID} {c : Chain K V} (hl : Spec.Live S.sh p c)
    (hn : c.isLeaf = false) (ht : Spec.Tight S.sh c) {key : K} {closed : Bool}
    (hlo : ∀ l, c.low = some l → Spec.After closed l key) :
    Spec.IndexStep c key closed (readWord S.sh (childStep key closed c)) := by
  obtain ⟨s, hS⟩ := hr.sound hc
  rw [← hS.sh] at hl ht ⊢
  obtain ⟨F, low, e1, e2, e3, e4, e5⟩ := hS.inv.live_page hl
  have hF : F ≠ 0 := by rintro rfl; rw [hn] at e5; simp at e5
  have hwf : ChainWF cfg true low c := by have := e3.wf; rwa [decide_eq_true hF] at this
  have hx : ExactC (wordsOf s) c := ht.exact hwf e3.ents hS.inv
  refine ⟨fun hh => ?_, fun b hb ha => ?_⟩
  · rcases childStep_exact hwf hx key closed (fun l e => hlo l (e4.trans e)) (highOK_after.2 hh) with
      ⟨q, g1, g2⟩ | ⟨w, q, g1, g2, g3⟩
    · exact ⟨q, by rw [g1]; rfl, floor_childFor hwf g2⟩
    · refine ⟨q, ?_, floor_childFor hwf g3⟩
      rw [g1]
      unfold wordsOf at g2
      split at g2
      · exact congrArg ChRes.child (Option.some.inj g2)
      · cases g2
  · rw [childStep_beyond hwf hx key closed (by rw [highOK_after]; exact fun hh => hh b hb ha)]
    rfl

/-- **C78, quiet trees.**  When no call is active, every search in the pages that the consolidation of
a live index node writes goes to a live page that begins at or before the key: to the right sibling, to
the child of a record in force, or, if the key is before all records, to the leftmost child. -/
theorem C78_quiet_search (hc : CfgOK2 cfg) {m : K → Option V} {sh : Sh K V} (hi : Init cfg m sh)
    {h : List (Spec.Event K V)} {S : Sys K V} (hr : Run cfg (Sys.start sh) h S)
    (hq : ∀ t, S.th t = .idle) {p : PID} {c : Chain K V} (hl : Spec.Live S.sh p c)
    (hn : c.isLeaf = false) :
    ∃ smo, tryConsolidate cfg false c = some smo ∧
      ∀ key closed rp, (∀ l, c.low = some l → Spec.After closed l key) →
        (∃ q y c', (newStep key closed rp smo = .child q ∨ newStep key closed rp smo = .sibling q) ∧
          S.sh.mt q = some c' ∧ c'.isRemoved = false ∧ c'.low = some y ∧ Spec.After closed y key) ∨
        ∃ q, newStep key closed rp smo = .child q ∧ c.low = none ∧ c.leftmostChild = some q ∧
          ∀ x, Spec.After closed x key → Spec.look x c = none := by
  obtain ⟨smo, h1, h2⟩ := C78_consolidated_search hc ⟨sh, h, hi, hr⟩ hl.slot hl.live hn
  obtain ⟨g1, g2⟩ := C75_quiet_index hc hi hr hq hl
  refine ⟨smo, h1, fun key closed rp hlo => ?_⟩
  obtain ⟨i1, i2⟩ := h2 key closed rp hlo
  by_cases hh : ∃ b, c.high = some b ∧ Spec.After closed b key
  · obtain ⟨b, hb, ha⟩ := hh
    obtain ⟨c', f1, f2, f3, _⟩ := g1 b hb
    exact Or.inl ⟨_, b, c', Or.inr (i2 b hb ha), f1, f2, f3, ha⟩
  · obtain ⟨q, e, hf⟩ := i1 fun b hb ha => hh ⟨b, hb, ha⟩
    rcases hf with ⟨y, f1, f2, _⟩ | f
    · obtain ⟨c', b1, b2, b3⟩ := g2 y q f2
      exact Or.inl ⟨q, y, c', Or.inl e, b1, b2, b3, f1⟩
    · exact Or.inr ⟨q, e, f⟩

/-! ## Examples -/

/-- Where the search for `key` goes after the consolidation of the root. -/
def rootStep (cfg : Cfg Nat) (sh : Sh Nat Nat) (key : Nat) : Option ChRes :=
  (sh.mt sh.root).bind fun c => (tryConsolidate cfg false c).map (newStep key true 0)

/-- In the quiet state of `C47_false`, in which `Read(80)` never ends because the chain of the root
sends it to leaf 4, which is removed, the consolidated root sends it to leaf 5, which is live: searches
in the chain of an index node are not exact, those in its consolidated page are. -/
theorem C78_heals_dead_end : ∃ (S : Sys Nat Nat) (c : Chain Nat Nat) (smo : SMO Nat Nat),
    Reachable lazyCfg (fun _ => none) S ∧ (∀ t, S.th t = .idle) ∧ Spec.Live S.sh S.sh.root c ∧
    DeadEnd S.sh 80 S.sh.root 4 ∧ ¬ Spec.IndexStep c 80 true (readWord S.sh (childStep 80 true c)) ∧
    tryConsolidate lazyCfg false c = some smo ∧ newStep 80 true 0 smo = .child 5 ∧
    Spec.ChildFor c 80 true 5 ∧ ∃ c', S.sh.mt 5 = some c' ∧ c'.isRemoved = false ∧ c'.low = some 70 := by
  obtain ⟨h, S, h1, h2, h3⟩ := scenario_witness (cfg := lazyCfg) (cs := exLate)
    (fun h S => (quietAt h S, deadEndAt S.sh 80 4, rootFacts S.sh 70 5, rootStep lazyCfg S.sh 80,
      (S.sh.mt S.sh.root).map fun c => c.low.isNone && c.high.isNone))
    (x := (true, true, true, some (.child 5), some true)) (by decide +kernel)
  simp only [Prod.mk.injEq] at h3
  obtain ⟨hq, hd, hf, hs, hb⟩ := h3
  have hq' := quietAt_spec h1 hq
  have hd' := deadEndAt_spec hd
  obtain ⟨c, hl, hk⟩ := rootFacts_spec hf
  obtain ⟨c₀, e1, e2, e3⟩ := hd'.inner
  cases e1.symm.trans hl.slot
  obtain ⟨smo, g1, g2⟩ := C78_consolidated_search lazyCfg_ok h2 hl.slot hl.live e2
  have hst : newStep 80 true 0 smo = .child 5 := by
    unfold rootStep at hs
    rw [show S.sh.mt S.sh.root = some c from hl.slot] at hs
    simpa [g1] using hs
  rw [show S.sh.mt S.sh.root = some c from hl.slot] at hb
  simp only [Option.map_some, Option.some.injEq, Bool.and_eq_true, Option.isNone_iff_eq_none] at hb
  have hcf : Spec.ChildFor c 80 true 5 := by
    obtain ⟨q, e4, e5⟩ := (g2 80 true 0 (by rw [hb.1]; simp)).inside (by rw [hb.2]; simp)
    rw [hst] at e4; cases e4
    exact e5
  refine ⟨S, c, smo, h2, hq', hl, hd', fun hx => ?_, g1, hst, hcf,
    (C75_quiet_index lazyCfg_ok .empty h1 hq' hl).2 70 5 hk⟩
  obtain ⟨q, e4, e5⟩ := hx.inside (by rw [hb.2]; simp)
  rw [e3] at e4
  cases e4
  cases childFor_unique hcf e5

/-- A chain that is tight: after 16 insertions the root is an index node with delta records whose
searches are exact. -/
example : ∃ (S : Sys Nat Nat) (c : Chain Nat Nat), Reachable roomyCfg (fun _ => none) S ∧
    Spec.Live S.sh S.sh.root c ∧ c.isLeaf = false ∧ 0 < Spec.deltas c ∧ Spec.Tight S.sh c ∧
    ∀ key, Spec.IndexStep c key true (readWord S.sh (childStep key true c)) := by
  obtain ⟨h, S, h1, h2⟩ := scenario_sure (cfg := roomyCfg) (cs := exFill 16)
    (fun h S => (quietAt h S, orderCheck S.sh,
      (S.sh.mt S.sh.root).map fun c => (c.isLeaf, decide (0 < Spec.deltas c), c.low.isNone)))
    (x := (true, true, some (false, true, true))) (by decide +kernel) (by decide)
  simp only [Prod.mk.injEq, Option.map_eq_some_iff, decide_eq_true_eq,
    Option.isNone_iff_eq_none] at h2
  obtain ⟨_, ho, c, h3, h4, h5, h6⟩ := h2
  have ho' := orderCheck_spec (fresh_pages roomyCfg_ok .empty h1.run) ho
  obtain ⟨c', g1, g2⟩ := ho'.root
  cases g1.symm.trans h3
  have ht := ho'.tight _ _ h3 g2 h4
  exact ⟨S, c, ⟨_, h, .empty, h1.run⟩, ⟨.root, h3, g2⟩, h4, h5, ht, fun key =>
    C78_tight_search roomyCfg_ok ⟨_, h, .empty, h1.run⟩ ⟨.root, h3, g2⟩ h4 ht (by rw [h6]; simp)⟩

/-- Is the page about to be split?  (Decidable.) -/
def splitsAt (cfg : Cfg Nat) (sh : Sh Nat Nat) (p : PID) : Bool :=
  match sh.mt p with
  | some c => !c.isLeaf && !c.isRemoved && match tryConsolidate cfg false c with
    | some (.split _ _) => true
    | _ => false
  | none => false

/-- A split of an index node that is not the leftmost: its two halves together send every key on as
one page would. -/
example : ∃ (S : Sys Nat Nat) (c : Chain Nat Nat) (l r : Node Nat Nat),
    Reachable tinyCfg (fun _ => none) S ∧ S.sh.mt 6 = some c ∧ c.isLeaf = false ∧
    tryConsolidate tinyCfg false c = some (.split l r) ∧
    ∀ key rp, (∀ b, c.low = some b → b ≤ key) →
      Spec.IndexStep c key true (newStep key true rp (.split l r)) := by
  obtain ⟨h, S, h1, h2, h3⟩ := scenario_witness (cfg := tinyCfg)
    (cs := exFill 6 ++ [.acts [.op 0 100 (.insert 70 6)], .steps 0 14])
    (fun _ S => splitsAt tinyCfg S.sh 6) (x := true) (by decide +kernel)
  unfold splitsAt at h3
  cases hm : S.sh.mt 6 with
  | none => rw [hm] at h3; cases h3
  | some c =>
    rw [hm] at h3
    simp only [Bool.and_eq_true, Bool.not_eq_true'] at h3
    obtain ⟨⟨hl, hn⟩, h3⟩ := h3
    obtain ⟨smo, g1, g2⟩ := C78_consolidated_search tinyCfg_ok h2 hm hn hl
    rw [g1] at h3
    cases smo with
    | split l r =>
      exact ⟨S, c, l, r, h2, hm, hl, g1, fun key rp hb => g2 key true rp fun b e => by
        simpa [Spec.After] using hb b e⟩
    | consolidate n => cases h3
    | merge n => cases h3

end BwTree.Props
