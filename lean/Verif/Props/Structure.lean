import Verif.Conc.Exec
import Verif.Conc.Init
import Verif.Props.Conc
import Verif.Tree.SpecLemmas

/-!
# Properties of all reachable states and of all steps

As in `Props/Conc`, threads stop at the events of `Flag`; the theorems are partial in this respect
only (what the code does after it confused the levels of the tree is not covered).
-/

namespace BwTree.Props

set_option linter.unusedSectionVars false

variable {K V : Type} [LinearOrder K] {cfg : Cfg K}

/-! ## C05: structure modifications do not change the contents -/

/-- Some steps of the system, none of which puts the delta of a writing operation on a page. -/
inductive Quietly (cfg : Cfg K) (S : Sys K V) : Sys K V → Prop
  | refl : Quietly cfg S S
  | step {S₁ S₂ : Sys K V} {l : Option (Spec.Event K V)} : Quietly cfg S S₁ → SysStep cfg S₁ l S₂ →
      ¬ Spec.RecStep S₁.sh S₂.sh → Quietly cfg S S₂

/-- The contents of a page: the chain in its slot, or the chain a removal mark replaced. -/
def Holds (S : Sys K V) (p : PID) (c : Chain K V) : Prop :=
  c.isRemoved = false ∧
    (S.sh.mt p = some c ∨ (isMark (S.sh.mt p) = true ∧ ∃ t, S.mark p = some (t, c)))

/-- The tree stands for the map `m`: every live leaf that is reachable says so for all keys it
covers, and every key is covered by a leaf that says so. -/
def StandsFor (S : Sys K V) (m : K → Option V) : Prop :=
  (∀ p c k, Spec.Live S.sh p c → c.isLeaf = true → Spec.Covers c k →
    Spec.look k c = (m k).map Pay.val) ∧
  ∀ k, ∃ p c, Holds S p c ∧ c.isLeaf = true ∧ Spec.Covers c k ∧ Spec.look k c = (m k).map Pay.val

theorem isCons_look {c : Chain K V} {n : Node K V} {inner : Bool} {low : Option K}
    (h : IsCons c n) (hw : ChainWF cfg inner low c) (k : K) :
    Spec.look k (.base n) = Spec.look k c := by
  obtain ⟨h1, h2, _, _, h5⟩ := h
  rw [look_eq hw]
  show Spec.find (Spec.keyed n) k = _
  rw [find_eq_alook, keyed_eq_body]
  congr 1
  have hl := hw.low_eq
  have hleaf := hw.isLeaf
  obtain ⟨n', _, hb2, hb3, hb4, hb5⟩ := hw.base
  have hpre : c.pre = n'.pre := hb5
  rw [Node.body, h5]
  by_cases hli : n.leftInner = true
  · rw [if_pos hli]
    have hli' : n'.leftInner = true := by
      rw [Node.leftInner, h1, hleaf, h2, hl] at hli
      rw [Node.leftInner, hb3, hb4]
      simpa using hli
    have hin : n'.inner = true := by
      rw [Node.leftInner, Bool.and_eq_true] at hli'; exact hli'.1
    obtain ⟨r, rs, e, _⟩ := hb2.first hin
    have : c.pre = [r] := by rw [hpre, Node.pre, if_pos hli', e]; rfl
    rw [Chain.flat, this]; rfl
  · rw [if_neg hli]
    have hli' : ¬ n'.leftInner = true := by
      rw [Node.leftInner, h1, hleaf, h2, hl] at hli
      rw [Node.leftInner, hb3, hb4]
      simpa using hli
    rw [Chain.flat, hpre, Node.pre, if_neg hli']; rfl

theorem sound_standsFor {s : St K V} {S : Sys K V} (h : Sound cfg s S) : StandsFor S s.m := by
  have hsh := h.sh
  refine ⟨fun p c k hl hleaf hk => ?_, fun k => ?_⟩
  · rw [← hsh] at hl
    obtain ⟨F, low, hi, hcont, hw, hlow, hlf⟩ := h.inv.live_page hl
    have hF : F = 0 := by rw [hleaf] at hlf; simpa using hlf.symm
    subst hF
    rw [look_eq hw.wf]
    exact h.inv.l.val p c low k hcont hi ((covers_iff hlow k).mp hk)
  · obtain ⟨p, c, low, hcont, hi, hr⟩ := h.inv.l.cover k
    have hi' : s.info p = some (0, low) := hi
    have hw := h.inv.l.page p c 0 low hcont hi
    have hv := h.inv.l.val p c low k hcont hi hr
    have hcont' : s.cont p = some c := hcont
    unfold St.cont at hcont'
    rw [hi'] at hcont'
    simp only at hcont'
    cases hm : s.mt p with
    | none => rw [hm] at hcont'; cases hcont'
    | some x =>
      rw [hm] at hcont'
      have hleaf : c.isLeaf = true := hw.isLeaf
      by_cases hx : ∃ b, x = .removed b
      · obtain ⟨b, rfl⟩ := hx
        simp only [Option.map_eq_some_iff] at hcont'
        obtain ⟨n, hp, rfl⟩ := hcont'
        have ho := (h.inv.p.pend p n hp).1
        obtain ⟨u, hu⟩ := Option.ne_none_iff_exists'.mp ho
        obtain ⟨hd, e1, e2, inner, low', e3⟩ := h.mark p u n (by rw [hm]; rfl) hu hp
        have hlk := isCons_look e2 e3 k
        refine ⟨p, hd, ⟨?_, Or.inr ⟨by rw [← hsh, hm]; rfl, u, e1⟩⟩, ?_, ?_, ?_⟩
        · cases hd with
          | removed b => exact e3.elim
          | base n => rfl
          | delta d nx => rfl
        · have : n.inner = false := by simpa [Chain.isLeaf] using hleaf
          rw [e2.1] at this; simpa using this
        · have hl := hw.wf.low_eq
          have := (covers_iff hl k).mpr hr
          simp only [Spec.Covers, Chain.low, Chain.high] at this ⊢
          rw [e2.2.1, e2.2.2.1] at this; exact this
        · rw [← hlk, look_eq hw.wf]; exact hv
      · have : c = x := by
          cases x with
          | removed b => exact absurd ⟨b, rfl⟩ hx
          | base n => exact (Option.some.inj hcont').symm
          | delta d nx => exact (Option.some.inj hcont').symm
        subst this
        refine ⟨p, c, ⟨hw.not_removed, Or.inl (by rw [← hsh]; exact hm)⟩, hleaf,
          (covers_iff hw.wf.low_eq k).mpr hr, ?_⟩
        rw [look_eq hw.wf]; exact hv

theorem sound_quietly (hc : CfgOK2 cfg) {s : St K V} {S S' : Sys K V} (h : Sound cfg s S)
    (hq : Quietly cfg S S') : ∃ s', Sound cfg s' S' ∧ s'.m = s.m := by
  induction hq with
  | refl => exact ⟨s, h, rfl⟩
  | step _ hs hn ih =>
    obtain ⟨s1, h1, e1⟩ := ih
    obtain ⟨s2, h2, _, _, h5⟩ := h1.step hc hs
    refine ⟨s2, h2, (h5 fun hr => hn ?_).trans e1⟩
    obtain ⟨t, c, p, o, n, k, _, ⟨d, e, g1, g2⟩, g3, g4⟩ := hr
    exact ⟨p, o, d, g3, by rw [← e]; exact g4, g1, g2⟩

/-- At every moment the tree stands for the map the history has produced, and no step other than
the installation of the delta of a writing operation changes that map. -/
theorem C05_smo_keeps_contents_partial (hc : CfgOK2 cfg) {m : K → Option V} {sh : Sh K V}
    (hi : Init cfg m sh) {h : List (Spec.Event K V)} {S S' : Sys K V}
    (hr : Run cfg (Sys.start sh) h S) (hq : Quietly cfg S S') :
    ∃ mS ops, Spec.Accepts ⟨m, fun _ => .idle⟩ h ⟨mS, ops⟩ ∧ StandsFor S mS ∧ StandsFor S' mS := by
  obtain ⟨s, h1, h2⟩ := hi.run hc hr
  obtain ⟨s', h3, h4⟩ := sound_quietly hc h1 hq
  exact ⟨s.m, s.ops, h2, sound_standsFor h1, h4 ▸ sound_standsFor h3⟩

theorem not_recStep_of_mark {sh sh' : Sh K V} {p : PID} (h1 : isMark (sh'.mt p) = true)
    (h2 : isMark (sh.mt p) = false) : ¬ Spec.RecStep sh sh' := by
  rintro ⟨q, o, d, g1, g2, _⟩
  rw [g2] at h1
  by_cases e : p = q
  · subst e; rw [upd_same] at h1; cases h1
  · rw [upd_ne _ _ e, h2] at h1; cases h1

/-- One insert and three updates of a key: the fourth delta starts a consolidation, and because the
node is small, a merge.  The thread stops just before the removal mark. -/
def exMark : List (Cmd Nat Nat) :=
  [.call 0 20 (.insert 5 50), .call 0 20 (.update 5 51), .call 0 20 (.update 5 52),
   .acts [.op 0 20 (.update 5 53)], .steps 0 5]

example : ∃ h S S', Run defCfg (Sys.start (initSh defCfg)) h S ∧ Quietly defCfg S S' ∧
    isMark (S.sh.mt 1) = false ∧ isMark (S'.sh.mt 1) = true ∧
    (S'.mark 1).map (fun x => Spec.look (V := Nat) 5 x.2) = some (some (.val 53)) := by
  have h : ((scenario defCfg exMark).bind fun x => (exec defCfg x.2 (.step 0 true)).map fun y =>
      (isMark (x.2.sh.mt 1), isMark (y.2.sh.mt 1),
        (y.2.mark 1).map (fun x => Spec.look (V := Nat) 5 x.2))) =
      some (false, true, some (some (.val 53))) := by decide
  rw [Option.bind_eq_some_iff] at h
  obtain ⟨⟨a, S⟩, h1, h2⟩ := h
  rw [Option.map_eq_some_iff] at h2
  obtain ⟨⟨l, S'⟩, h3, h4⟩ := h2
  simp only [Prod.mk.injEq] at h4
  exact ⟨a, S, S', scenario_sound h1, .step .refl (exec_sound h3)
    (not_recStep_of_mark h4.2.1 h4.1), h4.1, h4.2.1, h4.2.2⟩

/-! ## C06: plain stores -/

theorem split_look {c : Chain K V} {inner : Bool} {low : Option K} (hc : CfgOK cfg)
    (hw : ChainWF cfg inner low c) {l r : Node K V}
    (h : tryConsolidate cfg false c = some (.split l r)) (q : PID) :
    ∃ sep, l.high = some sep ∧ r.low = some sep ∧
      (∀ k, k < sep → Spec.look k (.base { l with next := q }) = Spec.look k c) ∧
      ∀ k, sep ≤ k → Spec.look k (.base r) = Spec.look k c := by
  obtain ⟨_, t2, t3, t4⟩ := tryConsolidate_spec hc hw false
  by_cases hs : c.size ≤ cfg.page
  · by_cases hm : c.size ≤ cfg.minSize
    · rw [t2 rfl hs hm] at h; cases h
    · rw [t3 rfl hs hm] at h; cases h
  obtain ⟨lr, x, rr, hlr, hcat, _, _, e⟩ := t4 rfl hs
  rw [e] at h
  have h := Option.some.inj h
  injection h with hl hr
  obtain ⟨v1, v2, v3, v4, v5, v6, v7, v8⟩ := split_wf hw hlr hcat q
  subst hl; subst hr
  have hlb := v1.flatBody_spec
  have hrb := v2.flatBody_spec
  refine ⟨x.1, rfl, rfl, fun k hk => ?_, fun k hk => ?_⟩
  · refine (look_eq v1 k).trans ?_
    rw [look_eq hw, ← v5, alook_append]
    rw [alook_none_of_lt (l := (Chain.base (splitR cfg inner c x rr)).flatBody)]
    · cases alook (Chain.base (splitL cfg inner c lr x.1 q)).flatBody k <;> rfl
    · intro y hy
      have := (hrb.2.1 y hy).1 _ rfl
      simp only [if_true] at this
      exact lt_of_lt_of_le hk this
  · refine (look_eq v2 k).trans ?_
    rw [look_eq hw, ← v5, alook_append]
    rw [alook_none_of_gt (l := (Chain.base (splitL cfg inner c lr x.1 q)).flatBody)]
    · rfl
    · intro y hy
      have := (hlb.2.1 y hy).2 _ rfl
      simp only [if_true] at this
      exact lt_of_lt_of_le this hk

/-- A thread about to overwrite a slot with a plain store either stores a new page, or replaces its
own removal mark by a node with the contents of the very head the mark replaced, or replaces a head
by the left half of its split while the right half is already in place: every record of the
overwritten head is in the stored nodes. -/
theorem C06_stores_lose_nothing_partial (hc : CfgOK2 cfg) {m : K → Option V} {S : Sys K V}
    (hr : Reachable cfg m S) {t : Nat} {call : Spec.Call K V} {p : PID} {c : Chain K V}
    {k : Prog K V (Out K V)} (ht : S.th t = .run call (.store p c k)) :
    S.sh.mt p = none ∨
    (∃ b hd, S.sh.mt p = some (.removed b) ∧ S.mark p = some (t, hd) ∧ c.low = hd.low ∧
      c.high = hd.high ∧ c.nextPid = hd.nextPid ∧ ∀ x, Spec.look x c = Spec.look x hd) ∨
    (∃ hd q r sep, S.sh.mt p = some hd ∧ c.low = hd.low ∧ c.high = some sep ∧ c.nextPid = q ∧
      S.sh.mt q = some (.base r) ∧ r.low = some sep ∧ r.high = hd.high ∧ r.next = hd.nextPid ∧
      (∀ x, x < sep → Spec.look x c = Spec.look x hd) ∧
      ∀ x, sep ≤ x → Spec.look x (.base r) = Spec.look x hd) := by
  obtain ⟨s, hS⟩ := hr.sound hc
  have hw := hS.th t
  rw [ht] at hw
  obtain ⟨hso, _⟩ := hw s Rely.rfl hS.inv trivial
  have hsh : s.mt = S.sh.mt := congrArg Sh.mt hS.sh
  rcases hso with h | ⟨b, n, h1, h2, h3, rfl⟩ | ⟨hd, l, r, q, h1, h2, h3, rfl, h4⟩
  · exact Or.inl (by rw [← hsh]; exact h)
  · obtain ⟨hd, e1, e2, inner, low, e3⟩ := hS.mark p t n (by rw [h1]; rfl) h2 h3
    exact Or.inr (Or.inl ⟨b, hd, by rw [← hsh]; exact h1, e1, e2.2.1, e2.2.2.1, e2.2.2.2.1,
      isCons_look e2 e3⟩)
  · have hrm : hd.isRemoved = false := by
      cases hd with
      | removed b => rw [Chain.needWait_removed hc.maxPos] at h2; cases h2
      | base n => rfl
      | delta d nx => rfl
    obtain ⟨inner, low, hwf⟩ := hS.inv.slot_chain h1 hrm
    obtain ⟨sep, g1, g2, g3, g4⟩ := split_look hc.toCfgOK hwf h3 q
    have : l.low = hd.low ∧ r.high = hd.high ∧ r.next = hd.nextPid := by
      obtain ⟨_, t2, t3, t4⟩ := tryConsolidate_spec hc.toCfgOK hwf false
      by_cases hs : hd.size ≤ cfg.page
      · by_cases hm : hd.size ≤ cfg.minSize
        · rw [t2 rfl hs hm] at h3; cases h3
        · rw [t3 rfl hs hm] at h3; cases h3
      obtain ⟨lr, x, rr, _, _, _, _, e⟩ := t4 rfl hs
      rw [e] at h3
      have h3 := Option.some.inj h3
      injection h3 with hl hr
      subst hl; subst hr
      exact ⟨rfl, rfl, rfl⟩
    exact Or.inr (Or.inr ⟨hd, q, r, sep, by rw [← hsh]; exact h1, this.1, g1, rfl,
      by rw [← hsh]; exact h4, g2, this.2.1, this.2.2, g3, g4⟩)

/-- Seven inserts into a tree whose leaves hold six records; the last one splits, and stops. -/
def exSplit (n : Nat) : List (Cmd Nat Nat) :=
  (List.range 6).map (fun i => .call 0 60 (.insert (10 * (i + 1)) i)) ++
    [.acts [.op 0 60 (.insert 70 6)], .steps 0 n]

/-- All three kinds of stores occur. -/
example : (∃ (S : Sys Nat Nat) (call : _) (c : _) (k : _), Reachable smallCfg (fun _ => none) S ∧
      S.th 0 = .run call (.store 2 c k) ∧ S.sh.mt 2 = none) ∧
    (∃ (S : Sys Nat Nat) (call : _) (c : _) (k : _), Reachable smallCfg (fun _ => none) S ∧
      S.th 0 = .run call (.store 1 c k) ∧ (S.sh.mt 1).map Chain.size = some 144) ∧
    (∃ (S : Sys Nat Nat) (call : _) (c : _) (k : _), Reachable defCfg (fun _ => none) S ∧
      S.th 0 = .run call (.store 1 c k) ∧ isMark (S.sh.mt 1) = true) := by
  refine ⟨?_, ?_, ?_⟩
  · obtain ⟨h, S, _, h2, h3⟩ := scenario_witness (cfg := smallCfg) (cs := exSplit 6)
      (fun _ S => ((storeAt S 0).map Prod.fst, (S.sh.mt 2).isNone)) (x := (some 2, true)) (by decide)
    simp only [Prod.mk.injEq, Option.map_eq_some_iff] at h3
    obtain ⟨⟨⟨p, c⟩, h4, h5⟩, h6⟩ := h3
    obtain ⟨call, k, h7⟩ := storeAt_some h4
    simp only at h5; subst h5
    exact ⟨S, call, c, k, h2, h7, Option.isNone_iff_eq_none.mp h6⟩
  · obtain ⟨h, S, _, h2, h3⟩ := scenario_witness (cfg := smallCfg) (cs := exSplit 7)
      (fun _ S => ((storeAt S 0).map Prod.fst, (S.sh.mt 1).map Chain.size))
      (x := (some 1, some 144)) (by decide)
    simp only [Prod.mk.injEq, Option.map_eq_some_iff] at h3
    obtain ⟨⟨⟨p, c⟩, h4, h5⟩, h6⟩ := h3
    obtain ⟨call, k, h7⟩ := storeAt_some h4
    simp only at h5; subst h5
    exact ⟨S, call, c, k, h2, h7, by rw [Option.map_eq_some_iff]; exact h6⟩
  · obtain ⟨h, S, _, h2, h3⟩ := scenario_witness (cfg := defCfg) (cs := exMark ++ [.steps 0 1])
      (fun _ S => ((storeAt S 0).map Prod.fst, isMark (S.sh.mt 1)))
      (x := (some 1, true)) (by decide)
    simp only [Prod.mk.injEq, Option.map_eq_some_iff] at h3
    obtain ⟨⟨⟨p, c⟩, h4, h5⟩, h6⟩ := h3
    obtain ⟨call, k, h7⟩ := storeAt_some h4
    simp only at h5; subst h5
    exact ⟨S, call, c, k, h2, h7, h6⟩

/-! ## C20 - C22: sizes -/

/-- The size carried by the head of a chain is the number of bytes its consolidated node takes. -/
theorem C20_size_exact_partial (hc : CfgOK2 cfg) {m : K → Option V} {S : Sys K V}
    (hr : Reachable cfg m S) {p : PID} {c : Chain K V} (hm : S.sh.mt p = some c)
    (hn : c.isRemoved = false) :
    ∃ n, tryConsolidate cfg true c = some (.consolidate n) ∧
      c.size = Spec.bytes cfg n ∧ n.low = c.low ∧ n.high = c.high ∧ n.inner = !c.isLeaf := by
  obtain ⟨s, hS⟩ := hr.sound hc
  have hsh : s.mt = S.sh.mt := congrArg Sh.mt hS.sh
  obtain ⟨inner, low, hwf⟩ := hS.inv.slot_chain (by rw [hsh]; exact hm) hn
  refine ⟨_, (tryConsolidate_spec hc.toCfgOK hwf true).1 rfl, ?_, rfl, rfl, ?_⟩
  · exact hwf.size_eq.trans (hwf.cons_bytes _)
  · rw [hwf.isLeaf, Bool.not_not]; rfl

theorem deltas_eq (c : Chain K V) : Spec.deltas c = deltaLen c := by
  induction c with
  | base n => rfl
  | removed b => rfl
  | delta d nx ih => simp only [Spec.deltas, deltaLen, ih]

/-- No chain has more deltas than the sort buffer has places, and sorting never uses more. -/
theorem C21_chains_bounded_partial (hc : CfgOK2 cfg) {m : K → Option V} {S : Sys K V}
    (hr : Reachable cfg m S) {p : PID} {c : Chain K V} (hm : S.sh.mt p = some c) :
    Spec.deltas c ≤ cfg.maxDelta ∧
      ∀ arr nodes, dcSort [] [] c = some (arr, nodes) → arr.length ≤ cfg.maxDelta := by
  obtain ⟨s, hS⟩ := hr.sound hc
  have hsh : s.mt = S.sh.mt := congrArg Sh.mt hS.sh
  cases hn : c.isRemoved with
  | true =>
    cases c with
    | removed b => exact ⟨hc.maxPos, fun arr nodes e => by cases e⟩
    | base n => cases hn
    | delta d nx => cases hn
  | false =>
    obtain ⟨inner, low, hwf⟩ := hS.inv.slot_chain (by rw [hsh]; exact hm) hn
    refine ⟨by rw [deltas_eq]; exact hwf.deltaLen_le, fun arr nodes e => ?_⟩
    obtain ⟨arr', h1, _, _, _, h5⟩ := dcSort_spec hwf [] [] List.Pairwise.nil
    rw [h1] at e
    have := congrArg Prod.fst (Option.some.inj e)
    simp only at this
    subst this
    have := hwf.deltaLen_le
    simp only [List.length_nil, Nat.zero_add] at h5
    exact Nat.le_trans h5 this

/-- Every node in the mapping table, every node consolidation produces from a head and both halves
of a split fit in a page; a scan copy fits in two. -/
theorem C22_nodes_fit_partial (hc : CfgOK2 cfg) {m : K → Option V} {S : Sys K V}
    (hr : Reachable cfg m S) {p : PID} {c : Chain K V} (hm : S.sh.mt p = some c)
    (hn : c.isRemoved = false) :
    (∀ n, c = .base n →
      n.size = Spec.bytes cfg n ∧ n.size ≤ cfg.page) ∧
    (∀ n, (tryConsolidate cfg false c = some (.consolidate n) ∨
        tryConsolidate cfg false c = some (.merge n)) →
      n.size = Spec.bytes cfg n ∧ n.size ≤ cfg.page) ∧
    (∀ l r, tryConsolidate cfg false c = some (.split l r) →
      l.size = Spec.bytes cfg l ∧ l.size ≤ cfg.page ∧
      r.size = Spec.bytes cfg r ∧ r.size ≤ cfg.page) ∧
    tryConsolidate cfg false c ≠ none ∧
    ∃ n, tryConsolidate cfg true c = some (.consolidate n) ∧
      Spec.bytes cfg n ≤ 2 * cfg.page := by
  obtain ⟨s, hS⟩ := hr.sound hc
  have hsh : s.mt = S.sh.mt := congrArg Sh.mt hS.sh
  obtain ⟨inner, low, hwf, hsz, hbase⟩ := hS.inv.slot_wf (by rw [hsh]; exact hm) hn
  have hse := hwf.size_eq
  obtain ⟨_, t2, t3, t4⟩ := tryConsolidate_spec hc.toCfgOK hwf false
  have hmin := hc.min inner
  have hlen := hc.toCfgOK.len inner
  have hcons : ∀ {n : Node K V}, n = consNode inner c c.size → c.size ≤ cfg.page →
      n.size = Spec.bytes cfg n ∧ n.size ≤ cfg.page := by
    intro n e h; subst e; exact ⟨hse.trans (hwf.cons_bytes _), h⟩
  refine ⟨?_, ?_, ?_, ?_, _, (tryConsolidate_spec hc.toCfgOK hwf true).1 rfl, ?_⟩
  · rintro n rfl
    exact ⟨hwf.2.2.size.trans (bytes_spec _), hbase rfl⟩
  · intro n h
    by_cases hs : c.size ≤ cfg.page
    · by_cases hm : c.size ≤ cfg.minSize
      · rw [t2 rfl hs hm] at h
        rcases h with h | h
        · cases h
        · injection Option.some.inj h with h; exact hcons h.symm hs
      · rw [t3 rfl hs hm] at h
        rcases h with h | h
        · injection Option.some.inj h with h; exact hcons h.symm hs
        · cases h
    · obtain ⟨lr, x, rr, _, _, _, _, e⟩ := t4 rfl hs
      rw [e] at h
      rcases h with h | h <;> cases h
  · intro l r h
    by_cases hs : c.size ≤ cfg.page
    · by_cases hm : c.size ≤ cfg.minSize
      · rw [t2 rfl hs hm] at h; cases h
      · rw [t3 rfl hs hm] at h; cases h
    · obtain ⟨lr, x, rr, h1, h2, h3, h4, e⟩ := t4 rfl hs
      rw [e] at h
      injection Option.some.inj h with hl hr
      have hmin' : (cfg.minSize : Int) ≤
          max (cfg.hdr + cfg.recLen inner) ((cfg.page - cfg.hdr) / 2) := by omega
      obtain ⟨g1, g2⟩ := split_fits hc.toCfgOK hwf hsz hmin' hc.minVar h1 h2 h3 h4
      obtain ⟨v1, v2, _⟩ := split_wf hwf h1 h2 0
      subst hl; subst hr
      exact ⟨v1.2.2.size.trans (bytes_spec _), g1, v2.2.2.size.trans (bytes_spec _), g2⟩
  · by_cases hs : c.size ≤ cfg.page
    · by_cases hm : c.size ≤ cfg.minSize
      · rw [t2 rfl hs hm]; simp
      · rw [t3 rfl hs hm]; simp
    · obtain ⟨lr, x, rr, h1, h2, h3, h4, e⟩ := t4 rfl hs
      rw [e]; simp
  · have h1 := hse.trans (hwf.cons_bytes c.size)
    have hv := hc.var
    unfold slack at hsz
    have h2 : c.size ≤ 2 * cfg.page := by
      rcases hv with hv | hv
      · omega
      · have := (hv inner).2
        omega
    rw [h1] at h2
    exact_mod_cast h2

/-- A chain larger than a page occurs, and so does one with several deltas. -/
example : (∃ (S : Sys Nat Nat) (c : _), Reachable smallCfg (fun _ => none) S ∧
      S.sh.mt 1 = some c ∧ c.size = 144 ∧ Spec.deltas c = 1) ∧
    (∃ (S : Sys Nat Nat) (c : _), Reachable defCfg (fun _ => none) S ∧
      S.sh.mt 1 = some c ∧ c.size = 48 ∧ Spec.deltas c = 4) := by
  refine ⟨?_, ?_⟩
  · obtain ⟨h, S, _, h2, h3⟩ := scenario_witness (cfg := smallCfg) (cs := exSplit 5)
      (fun _ S => (S.sh.mt 1).map fun c => (c.size, Spec.deltas c)) (x := some (144, 1)) (by decide)
    rw [Option.map_eq_some_iff] at h3
    obtain ⟨c, h4, h5⟩ := h3
    simp only [Prod.mk.injEq] at h5
    exact ⟨S, c, h2, h4, h5.1, h5.2⟩
  · obtain ⟨h, S, _, h2, h3⟩ := scenario_witness (cfg := defCfg) (cs := exMark)
      (fun _ S => (S.sh.mt 1).map fun c => (c.size, Spec.deltas c)) (x := some (48, 4)) (by decide)
    rw [Option.map_eq_some_iff] at h3
    obtain ⟨c, h4, h5⟩ := h3
    simp only [Prod.mk.injEq] at h5
    exact ⟨S, c, h2, h4, h5.1, h5.2⟩

/-! ## C43: index entries -/

theorem ChainWF.suffix {inner : Bool} {low : Option K} {x c : Chain K V} (h : Spec.Suffix x c)
    (hw : ChainWF cfg inner low c) : ChainWF cfg inner low x := by
  induction h with
  | refl => exact hw
  | cons _ ih => exact ih hw.1

/-- Every index-delete record, in every chain of every reachable state, deletes an entry that is
present below it and lies strictly above the lower bound of the index node (so the first child is
never deleted).  A merge record joins adjacent ranges: its node begins where the chain below ends. -/
theorem C43_first_child_kept_partial (hc : CfgOK2 cfg) {m : K → Option V} {S : Sys K V}
    (hr : Reachable cfg m S) {p : PID} {c : Chain K V} (hm : S.sh.mt p = some c)
    {d : Delta K V} {nx : Chain K V} (hx : Spec.Suffix (.delta d nx) c) :
    (d.inner = true → d.ty = .delete →
      (∃ y, Spec.look d.key nx = some y) ∧ ∀ l, c.low = some l → l < d.key) ∧
    (d.ty = .merge → ∃ n, d.pay = .node n ∧ nx.high = some d.key ∧ n.low = some d.key ∧
      n.high = d.high ∧ n.inner = d.inner ∧ nx.isLeaf = !d.inner) := by
  obtain ⟨s, hS⟩ := hr.sound hc
  have hsh : s.mt = S.sh.mt := congrArg Sh.mt hS.sh
  have hn : c.isRemoved = false := by
    cases c with
    | removed b => cases hx
    | base n => rfl
    | delta d nx => rfl
  obtain ⟨inner, low, hwf⟩ := hS.inv.slot_chain (by rw [hsh]; exact hm) hn
  obtain ⟨h1, h2, h3, h4, h5, h6, h7⟩ := ChainWF.suffix hx hwf
  refine ⟨fun hi hd => ?_, fun hd => ?_⟩
  · rw [hd] at h7
    obtain ⟨_, g2, g3⟩ := h7
    refine ⟨?_, fun l hl => ?_⟩
    · rw [look_eq h1]; exact Option.ne_none_iff_exists'.mp g2
    · rw [hwf.low_eq] at hl
      have := g3 (by rw [← h2]; exact hi) l hl
      simpa using this
  · rw [hd] at h7
    obtain ⟨g1, n, g2, g3, g4, g5, _⟩ := h7
    exact ⟨n, g2, g1, g4, g5, by rw [g3, h2], by rw [h1.isLeaf, h2]⟩

/-- Seven inserts split the root leaf; after four deletes the right leaf is merged back. -/
def exMerge (n : Nat) : List (Cmd Nat Nat) :=
  (List.range 7).map (fun i => .call 0 60 (.insert (10 * (i + 1)) i)) ++
    [.call 0 60 (.delete 70), .call 0 60 (.delete 60), .call 0 60 (.delete 50),
      .acts [.op 0 60 (.delete 40)], .steps 0 n]

/-- Leaf 1 after the split. -/
def exL1 : Node Nat Nat :=
  { inner := false, low := none, high := some 30, next := 2, recs := [(10, .val 0), (20, .val 1)],
    size := 64 }

/-- What is merged into it. -/
def exL2 : Node Nat Nat :=
  { inner := false, low := some 30, high := none, next := 0, recs := [(30, .val 2)], size := 48 }

/-- The root over the two leaves. -/
def exRoot : Node Nat Nat := newRoot smallCfg 30 1 2

/-- Leaf 1 with the merge record. -/
def exMerged : Chain Nat Nat := Chain.push (mergeDelta exL2 30) (.base exL1) 16

/-- The root with the index-delete record. -/
def exRootDel : Chain Nat Nat := Chain.push (deleteDelta 30 none 0) (.base exRoot) (-16)

/-- A merge with both kinds of records; the cell is pending before the last step. -/
theorem exMerge_state : ∃ S : Sys Nat Nat, Reachable smallCfg (fun _ => none) S ∧ S.sh.root = 3 ∧
    S.sh.mt 1 = some exMerged ∧ S.sh.mt 2 = some (.removed true) ∧ S.sh.mt 3 = some exRootDel ∧
    S.sh.cells 0 = 1 := by
  obtain ⟨h, S, _, h2, h3⟩ := scenario_witness (cfg := smallCfg) (cs := exMerge 15)
    (fun _ S => decide (S.sh.root = 3 ∧ S.sh.mt 1 = some exMerged ∧
      S.sh.mt 2 = some (.removed true) ∧ S.sh.mt 3 = some exRootDel ∧ S.sh.cells 0 = 1))
    (x := true) (by decide)
  exact ⟨S, h2, of_decide_eq_true h3⟩

example : ∃ (S : Sys Nat Nat) (d d' : Delta Nat Nat) (c c' : Chain Nat Nat),
    Reachable smallCfg (fun _ => none) S ∧
    S.sh.mt 3 = some (.delta d c) ∧ d.inner = true ∧ d.ty = .delete ∧
    S.sh.mt 1 = some (.delta d' c') ∧ d'.ty = .merge := by
  obtain ⟨S, h1, h2, h3, h4, h5, _⟩ := exMerge_state
  exact ⟨S, _, _, _, _, h1, h5, rfl, rfl, h3, rfl⟩

/-! ## C44: ranges -/

theorem ReachAt.reach {sh : Sh K V} {d : Nat} {p : PID} (h : Spec.ReachAt sh d p) :
    Spec.Reach sh p := by
  induction h with
  | root => exact .root
  | child _ h1 h2 ih => exact .child ih h1 h2
  | sibling _ h1 h2 ih => exact .sibling ih h1 h2

/-- The family of the pages at a depth. -/
def famAt (fcf : Nat → Nat) (F : Nat) : Nat → Nat
  | 0 => F
  | d + 1 => fcf (famAt fcf F d)

theorem reachAt_info {s : St K V} (hI : Inv cfg s) {F : Nat} (hF : s.info s.root = some (F, none))
    {d : Nat} {p : PID} (h : Spec.ReachAt s.toSh d p) :
    ∃ low, s.info p = some (famAt s.fcf F d, low) := by
  induction h with
  | root => exact ⟨none, hF⟩
  | child _ hm he ih =>
    obtain ⟨low, hi⟩ := ih
    exact hI.entry_info hi hm he
  | @sibling d p c h _ hm hh ih =>
    obtain ⟨low, hi⟩ := ih
    have hr : c.isRemoved = false := by
      cases c with
      | removed b => cases hh
      | base n => rfl
      | delta d nx => rfl
    exact ⟨some h, (hI.live hi hm hr).2.link h hh⟩

theorem not_both {c c' : Chain K V} {low low' : Option K} {k : K}
    (h1 : c.low = low) (h2 : c'.low = low') (hc : Spec.Covers c k) (hc' : Spec.Covers c' k)
    (h : Before c.high low' ∨ Before c'.high low) : False := by
  rcases h with ⟨a, b, e1, e2, e3⟩ | ⟨a, b, e1, e2, e3⟩
  · have := hc.2 a e1
    have := hc'.1 b (h2.trans e2)
    order
  · have := hc'.2 a e1
    have := hc.1 b (h1.trans e2)
    order

/-- At every moment: no key belongs to two live pages of a level; the sibling link of a live page
leads to a page that, if live, begins where this page ends; all live pages of a level are leaves or
none is. -/
theorem C44_ranges_disjoint_partial (hc : CfgOK2 cfg) {m : K → Option V} {S : Sys K V}
    (hr : Reachable cfg m S) {d : Nat} {p : PID} {c : Chain K V} (hp : Spec.ReachAt S.sh d p)
    (hm : S.sh.mt p = some c) (hn : c.isRemoved = false) :
    (∀ q c', Spec.ReachAt S.sh d q → S.sh.mt q = some c' → c'.isRemoved = false →
      c'.isLeaf = c.isLeaf ∧ (p ≠ q → ∀ k, ¬ (Spec.Covers c k ∧ Spec.Covers c' k))) ∧
    (∀ h, c.high = some h → ∃ c', S.sh.mt c.nextPid = some c' ∧
      (c'.isRemoved = false → c'.low = some h ∧ c'.isLeaf = c.isLeaf)) := by
  obtain ⟨s, hS⟩ := hr.sound hc
  have hsh := hS.sh
  rw [← hsh] at hp hm
  obtain ⟨F, hF⟩ := hS.inv.p.root
  obtain ⟨low, hi⟩ := reachAt_info hS.inv hF hp
  obtain ⟨hcont, hw⟩ := hS.inv.live hi hm hn
  refine ⟨fun q c' hq hm' hn' => ?_, fun h hh => ?_⟩
  · rw [← hsh] at hq hm'
    obtain ⟨low', hi'⟩ := reachAt_info hS.inv hF hq
    obtain ⟨hcont', hw'⟩ := hS.inv.live hi' hm' hn'
    refine ⟨by rw [hw.isLeaf, hw'.isLeaf], fun hne k hk => ?_⟩
    exact not_both hw.wf.low_eq hw'.wf.low_eq hk.1 hk.2
      (hS.inv.l.disj p q c c' _ _ _ hcont hcont' hi hi' hne)
  · have hl := hw.link h hh
    obtain ⟨c', g1, _⟩ := hS.inv.p.slot _ _ _ hl
    refine ⟨c', by rw [← hsh]; exact g1, fun hn' => ?_⟩
    have hw' := (hS.inv.live hl g1 hn').2
    exact ⟨hw'.wf.low_eq, by rw [hw.isLeaf, hw'.isLeaf]⟩

/-- A tree with two leaves. -/
theorem exTwo_state : ∃ S : Sys Nat Nat, Reachable smallCfg (fun _ => none) S ∧ S.sh.root = 3 ∧
    S.sh.mt 1 = some (.base exL1) ∧ (∃ c, S.sh.mt 2 = some c ∧ c.isRemoved = false) ∧
    S.sh.mt 3 = some (.base exRoot) := by
  obtain ⟨h, S, _, h2, h3⟩ := scenario_witness (cfg := smallCfg) (cs := exMerge 0)
    (fun _ S => (S.sh.root, S.sh.mt 1, (S.sh.mt 2).map Chain.isRemoved, S.sh.mt 3))
    (x := (3, some (.base exL1), some false, some (.base exRoot))) (by decide)
  simp only [Prod.mk.injEq, Option.map_eq_some_iff] at h3
  exact ⟨S, h2, h3⟩

/-- Two live pages of a level, one with a right sibling. -/
example : ∃ (S : Sys Nat Nat) (c c' : Chain Nat Nat), Reachable smallCfg (fun _ => none) S ∧
    Spec.ReachAt S.sh 1 1 ∧ Spec.ReachAt S.sh 1 2 ∧ S.sh.mt 1 = some c ∧ S.sh.mt 2 = some c' ∧
    c.isRemoved = false ∧ c'.isRemoved = false ∧ c.high = some 30 := by
  obtain ⟨S, h1, h2, h3, ⟨c, h4, h5⟩, h6⟩ := exTwo_state
  have hr : Spec.ReachAt S.sh 0 3 := by rw [← h2]; exact .root
  refine ⟨S, _, c, h1, .child hr h6 (.base (k := 30) ?_), .child hr h6 (.base (k := 30) ?_), h3, h4,
    rfl, h5, rfl⟩
  · exact List.mem_cons_self
  · exact List.mem_cons_of_mem _ List.mem_cons_self

/-- The lower bound and the kind of a page never change. -/
theorem C44_low_fixed_partial (hc : CfgOK2 cfg) {m : K → Option V} {S S' : Sys K V}
    (hr : Reachable cfg m S) {h : List (Spec.Event K V)} (hrun : Run cfg S h S') {p : PID}
    {c c' : Chain K V} (hm : S.sh.mt p = some c) (hn : c.isRemoved = false)
    (hm' : S'.sh.mt p = some c') (hn' : c'.isRemoved = false) :
    c'.low = c.low ∧ c'.isLeaf = c.isLeaf := by
  obtain ⟨s, hS⟩ := hr.sound hc
  obtain ⟨s', hS', _, hok⟩ := hS.run hc hrun
  rw [← hS.sh] at hm
  rw [← hS'.sh] at hm'
  rcases hok.fix p c hm hn with ⟨h1, _⟩ | ⟨F, low, h1, h2, h3⟩
  · have : c = c' := Option.some.inj (h1.symm.trans hm')
    subst this; exact ⟨rfl, rfl⟩
  · have hw := (hS'.inv.live h1 hm' hn').2
    exact ⟨hw.wf.low_eq.trans h2.symm, hw.isLeaf.trans h3.symm⟩

/-! ## C45: removal marks -/

/-- A removal mark is replaced only by the thread that put it there, and only by a node with the
contents the mark replaced. -/
theorem C45_mark_owner_partial (hc : CfgOK2 cfg) {m : K → Option V} {S S' : Sys K V}
    (hr : Reachable cfg m S) {l : Option (Spec.Event K V)} (hs : SysStep cfg S l S') {p : PID}
    {b : Bool} (hm : S.sh.mt p = some (.removed b)) (hne : S'.sh.mt p ≠ S.sh.mt p) :
    ∃ t call c k hd, S.th t = .run call (.store p c k) ∧ S'.th t = .run call k ∧
      S'.sh.mt p = some c ∧ S.mark p = some (t, hd) ∧ c.isRemoved = false ∧ c.low = hd.low ∧
      c.high = hd.high ∧ c.nextPid = hd.nextPid ∧ ∀ x, Spec.look x c = Spec.look x hd := by
  obtain ⟨s, hS⟩ := hr.sound hc
  have hsh : s.mt = S.sh.mt := congrArg Sh.mt hS.sh
  cases hs with
  | op t f o hi => exact absurd rfl hne
  | scan t f b e hi => exact absurd rfl hne
  | next t f p k e hi hit => exact absurd rfl hne
  | retOp t o r ht => exact absurd rfl hne
  | retVisit t b e r ht => exact absurd rfl hne
  | step t call pr pr' sh' ht ha =>
    cases ha with
    | loadRoot k => exact absurd rfl hne
    | storeRoot q k => exact absurd rfl hne
    | casRootOk o n k _ => exact absurd rfl hne
    | casRootFail o n k _ => exact absurd rfl hne
    | load q k c _ => exact absurd rfl hne
    | loadNull q k _ => exact absurd rfl hne
    | casFail q o n k => exact absurd rfl hne
    | newPid k => exact absurd rfl hne
    | newCell k => exact absurd rfl hne
    | loadCell w k => exact absurd rfl hne
    | storeCell w q k => exact absurd rfl hne
    | store q c =>
      have hq : p = q := by
        by_contra e
        exact hne (upd_ne _ _ e)
      subst hq
      have hw := hS.th t
      rw [ht] at hw
      obtain ⟨hso, _⟩ := hw s Rely.rfl hS.inv trivial
      rcases hso with h | ⟨b', n, h1, h2, h3, rfl⟩ | ⟨hd, l, r, q, h1, h2, _⟩
      · rw [hsh, hm] at h; cases h
      · obtain ⟨hd, e1, e2, inner, low, e3⟩ := hS.mark p t n (by rw [h1]; rfl) h2 h3
        exact ⟨t, call, _, _, hd, ht, upd_same _ _ _, upd_same _ _ _, e1, rfl, e2.2.1, e2.2.2.1,
          e2.2.2.2.1, isCons_look e2 e3⟩
      · rw [hsh, hm] at h1
        have := (Option.some.inj h1).symm
        subst this
        rw [Chain.needWait_removed hc.maxPos] at h2; cases h2
    | casOk q o n k hq' =>
      have hq : p = q := by
        by_contra e
        exact hne (upd_ne _ _ e)
      subst hq
      have hw := hS.th t
      rw [ht] at hw
      obtain ⟨_, h2⟩ := hw s Rely.rfl hS.inv trivial
      obtain ⟨⟨h3, _⟩, _⟩ := h2 (by rw [hsh]; exact hq')
      rw [hm] at hq'
      have := (Option.some.inj hq').symm
      subst this; cases h3

/-- A mark is replaced. -/
example : ∃ (S S' : Sys Nat Nat) (b : Bool), Reachable defCfg (fun _ => none) S ∧
    SysStep defCfg S none S' ∧ S.sh.mt 1 = some (.removed b) ∧ S'.sh.mt 1 ≠ S.sh.mt 1 := by
  obtain ⟨h, S, _, h2, h3⟩ := scenario_witness (cfg := defCfg) (cs := exMark ++ [.steps 0 1])
    (fun _ S => ((storeAt S 0).map Prod.fst, (storeAt S 0).map fun x => x.2.isRemoved, S.sh.mt 1))
    (x := (some 1, some false, some (.removed true))) (by decide)
  simp only [Prod.mk.injEq, Option.map_eq_some_iff] at h3
  obtain ⟨⟨⟨p, c⟩, h4, h5⟩, ⟨⟨p', c'⟩, h6, h7⟩, h8⟩ := h3
  rw [h4] at h6; cases h6
  obtain ⟨call, k, h9⟩ := storeAt_some h4
  simp only at h5 h7; subst h5
  refine ⟨S, _, true, h2, .step S 0 call _ _ _ h9 (.store ..), h8, ?_⟩
  rw [h8]
  show upd S.sh.mt 1 (some c) 1 ≠ _
  rw [upd_same]
  intro e
  rw [Option.some.inj e] at h7
  cases h7

/-! ## C46: routing -/

theorem NodeEnts.with_entry {P : Option K → PID → Prop} {E : PID → Prop} {n : Node K V}
    (h : NodeEnts P n) (hE : ∀ k q, (k, Pay.child q) ∈ n.recs → E q) :
    NodeEnts (fun sep q => P sep q ∧ E q) n := by
  constructor
  · intro x hx q hq
    refine ⟨h.1 x hx q hq, hE x.1 q ?_⟩
    rw [← hq]
    unfold Node.pre at hx
    split at hx
    · exact List.mem_of_mem_take hx
    · cases hx
  · intro x hx q hq
    refine ⟨h.2 x hx q hq, hE x.1 q ?_⟩
    rw [← hq]
    unfold Node.body at hx
    split at hx
    · exact List.mem_of_mem_drop hx
    · exact hx

theorem EntsOK.with_entry {P : Option K → PID → Prop} {Q : K → Nat → Prop} {E : PID → Prop}
    {sh : Sh K V} {c : Chain K V} (h : EntsOK P Q c) (hE : ∀ q, Spec.Entry sh c q → E q) :
    EntsOK (fun sep q => P sep q ∧ E q)
      (fun k w => Q k w ∧ (sh.cells w ≠ 0 → E (sh.cells w))) c := by
  induction c with
  | base n => exact NodeEnts.with_entry h fun k q hm => hE q (.base hm)
  | removed b => trivial
  | delta d nx ih =>
    exact ⟨ih h.1 fun q hq => hE q (.rest hq), fun q h1 h2 => ⟨h.2.1 q h1 h2, hE q (.child h1 h2)⟩,
      fun w hw => ⟨h.2.2.1 w hw, fun h0 => hE _ (.cell hw h0)⟩,
      fun n hn => NodeEnts.with_entry (h.2.2.2 n hn) fun k q hm => hE q (.node hn (.base hm))⟩

/-- `l` is a lower bound of `key`: strict if the search is open. -/
def Below (l key : K) (closed : Bool) : Prop := if closed then l ≤ key else l < key

/-- `q` lies `d` levels below the root, and if it is live, its range begins below `key`. -/
def Leads (sh : Sh K V) (d : Nat) (key : K) (closed : Bool) (q : PID) : Prop :=
  Spec.ReachAt sh d q ∧ ∃ c, sh.mt q = some c ∧
    (c.isRemoved = false → ∀ l, c.low = some l → Below l key closed)

/-- One step of the search in an index chain of a reachable state, whatever stale or pending
records the chain holds: it leads to a page one level below whose lower bound is below the key, or
to a record whose child is pending (and will be such a page), or to the right sibling, whose lower
bound is the upper bound of the chain. -/
theorem C46_routing_partial (hc : CfgOK2 cfg) {m : K → Option V} {S : Sys K V}
    (hr : Reachable cfg m S) {d : Nat} {p : PID} {c : Chain K V} (hp : Spec.ReachAt S.sh d p)
    (hm : S.sh.mt p = some c) (hn : c.isRemoved = false) (hl : c.isLeaf = false) {key : K}
    {closed : Bool} (hk : ∀ l, c.low = some l → Below l key closed) :
    (∃ q, childStep key closed c = .child q ∧ Leads S.sh (d + 1) key closed q) ∨
    (∃ w, childStep key closed c = .cell w ∧
      (S.sh.cells w = 0 ∨ Leads S.sh (d + 1) key closed (S.sh.cells w))) ∨
    (∃ h, childStep key closed c = .sibling c.nextPid ∧ c.high = some h ∧ Below h key closed ∧
      Leads S.sh d key closed c.nextPid) := by
  obtain ⟨s, hS⟩ := hr.sound hc
  have hsh := hS.sh
  rw [← hsh] at hp hm ⊢
  obtain ⟨G, hG⟩ := hS.inv.p.root
  obtain ⟨low, hi⟩ := reachAt_info hS.inv hG hp
  generalize hF' : famAt s.fcf G d = F at hi
  obtain ⟨hcont, hw⟩ := hS.inv.live hi hm hn
  have hF : F ≠ 0 := by
    intro e
    have := hw.isLeaf
    rw [hl, e] at this; simp at this
  have hwf := hw.wf
  simp only [hF, ne_eq, not_false_eq_true, decide_true] at hwf
  have hlow : LowOK low key closed := by
    intro l e
    exact hk l (hwf.low_eq.trans e)
  have hlead : ∀ {d' : Nat} {q : PID} {F' : Nat} {sep : Option K}, Spec.ReachAt s.toSh d' q →
      s.info q = some (F', sep) → LowOK sep key closed → Leads s.toSh d' key closed q := by
    intro d' q F' sep h1 h2 h3
    obtain ⟨c', g1, _⟩ := hS.inv.p.slot _ _ _ h2
    refine ⟨h1, c', g1, fun hr' l e => h3 l ?_⟩
    exact ((hS.inv.live h2 g1 hr').2.wf.low_eq).symm.trans e
  rcases childStep_spec hwf (EntsOK.with_entry (sh := s.toSh) (E := Spec.ReachAt s.toSh (d + 1))
      hw.ents fun q hq => .child hp hm hq) key closed hlow with
    ⟨q, sep, h1, h2, h3⟩ | ⟨w, sep, h1, h2, h3⟩ | ⟨h1, h2⟩
  · exact Or.inl ⟨q, h1, hlead h2.2 h2.1 h3⟩
  · refine Or.inr (Or.inl ⟨w, h1, ?_⟩)
    rcases hS.inv.p.cell w _ _ h2.1 with e | ⟨lq, e1, e2⟩
    · exact Or.inl e
    · refine Or.inr (hlead (h2.2 ?_) e1 ?_)
      · intro e
        exact hS.inv.info_ne_zero e1 e
      · intro x hx
        have a1 := e2 x hx
        have a2 := h3 sep rfl
        cases closed <;> simp at a1 a2 ⊢ <;> order
  · obtain ⟨h, b1, b2, b3⟩ := hw.sibling h2
    exact Or.inr (Or.inr ⟨h, h1, b1, b3 h rfl, hlead (.sibling hp hm b1) b2 b3⟩)

/-- A chain with a stale record: key 35 is routed through the index-delete record. -/
example : ∃ (S : Sys Nat Nat) (c : Chain Nat Nat), Reachable smallCfg (fun _ => none) S ∧
    Spec.ReachAt S.sh 0 3 ∧ S.sh.mt 3 = some c ∧ c.isRemoved = false ∧ c.isLeaf = false ∧
    (∀ l, c.low = some l → Below l 35 true) ∧ childStep 35 true c = .cell 0 ∧
    S.sh.cells 0 = 1 := by
  obtain ⟨S, h1, h2, h3, h4, h5, h6⟩ := exMerge_state
  refine ⟨S, _, h1, by rw [← h2]; exact .root, h5, rfl, rfl, ?_, by decide, h6⟩
  intro l hl
  cases hl

end BwTree.Props
