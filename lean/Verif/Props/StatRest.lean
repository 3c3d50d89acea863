import Verif.Conc.SessionExec
import Verif.Props.Stat
import Verif.Props.SeqTotal

/-!
# C29, C49 for a thread that runs alone: every page has its index entry

`C49_false` shows that the statistics may miss pages after a race of root splits.  Between the
calls of a session this does not happen.
-/

namespace BwTree.Props

open BwTree

set_option linter.unusedSectionVars false

variable {K V : Type} [LinearOrder K] {cfg : Cfg K}

theorem _root_.BwTree.ChainWF.no_entry {low : Option K} {sh : Sh K V} {c : Chain K V} {q : PID}
    (h : ChainWF cfg false low c) (he : Spec.Entry sh c q) : False := by
  have hnode : ∀ {n : Node K V} {k : K} {q : PID}, NodeWF cfg n → n.inner = false →
      (k, Pay.child q) ∈ n.recs → False := by
    intro n k q hn hi hm
    have := hn.kind _ hm
    rw [hi] at this
    simp [PayOK] at this
  induction he with
  | base hm => exact hnode h.2.2 h.1 hm
  | @child d nx q h1 h2 =>
    have := h.2.2.1
    rw [h2] at this
    cases hd : d.ty <;> simp [DPayOK, hd] at this
    exact h1 hd
  | @cell d nx w h1 h2 =>
    have := h.2.2.1
    have hm := h.2.2.2.2.2.2
    rw [h1] at this
    cases hd : d.ty <;> simp [DPayOK, hd] at this
    rw [hd] at hm
    obtain ⟨_, n, e, _⟩ := hm
    rw [h1] at e; cases e
  | @node d nx n q h1 h2 _ =>
    have := h.2.2.1
    have hm := h.2.2.2.2.2.2
    rw [h1] at this
    cases hd : d.ty <;> simp [DPayOK, hd] at this
    rw [hd] at hm
    obtain ⟨_, n', e, e2, _, _, e3⟩ := hm
    rw [h1] at e; cases e
    cases h2 with
    | base hm => exact hnode e3 e2 hm
  | rest _ ih => exact ih h.next

/-- Families above a reachable page have children. -/
theorem reachAt_inner {s : St K V} (hI : Inv cfg s) {F : Nat} (hF : s.info s.root = some (F, none))
    {d : Nat} {p : PID} (h : Spec.ReachAt s.toSh d p) : ∀ i < d, famAt s.fcf F i ≠ 0 := by
  induction h with
  | root => intro i hi; exact absurd hi (Nat.not_lt_zero _)
  | @child d p q c hp hm he ih =>
    intro i hi
    rcases Nat.lt_succ_iff_lt_or_eq.mp hi with hi | rfl
    · exact ih i hi
    · intro e
      obtain ⟨low, hinf⟩ := reachAt_info hI hF hp
      have hr : c.isRemoved = false := by
        cases c with
        | removed b => cases he
        | base n => rfl
        | delta d nx => rfl
      have hw := (hI.live hinf hm hr).2.wf
      simp only [e, ne_eq, not_true_eq_false, decide_false] at hw
      exact hw.no_entry he
  | sibling _ _ _ ih => exact ih

theorem below_reachAt {s : St K V} (hI : Inv cfg s) {F : Nat} (hF : s.info s.root = some (F, none))
    {d : Nat} {p : PID} (h : Spec.Below s.toSh d p) : Spec.ReachAt s.toSh d p := by
  induction h with
  | root => exact .root
  | @kid d p q c _ hm hk ih =>
    obtain ⟨low, hi⟩ := reachAt_info hI hF ih
    have hr : c.isRemoved = false := by
      cases c with
      | removed b =>
        cases b <;> simp [Spec.Kid, Spec.look, Spec.baseOf, Chain.isLeaf] at hk
      | base n => rfl
      | delta d nx => rfl
    have hpw := (hI.live hi hm hr).2
    rw [kid_iff hpw.wf] at hk
    unfold kids at hk
    split at hk
    · cases hk
    · obtain ⟨k, hk⟩ := mem_childIds.1 hk
      obtain ⟨e1, e2⟩ := (EntsOK.with_entry (sh := s.toSh) (E := Spec.Entry s.toSh c) hpw.ents
        fun _ h => h).flat hpw.wf
      refine .child ih hm ?_
      rcases List.mem_append.1 hk with hk | hk
      · exact (e1 _ hk q rfl).2
      · exact (e2 _ hk q rfl).2

variable {fl : Nat → Option PID} {s : St K V}

theorem famAt_down {fcf : Nat → Nat} {T d : Nat} (h : ∀ i < d, famAt fcf T i ≠ 0) :
    Down fcf T (famAt fcf T d) := by
  induction d with
  | zero => exact .refl _
  | succ d ih =>
    exact (ih fun i hi => h i (Nat.lt_succ_of_lt hi)).trans
      (.step (h d (Nat.lt_succ_self d)) (.refl _))

/-- At rest, the pages below the root are live. -/
theorem _root_.BwTree.SI.below_live (h : SI cfg nil nil nil fl s) {d : Nat} {p : PID}
    (hb : Spec.Below s.toSh d p) : ∃ F low c, s.info p = some (F, low) ∧ s.cont p = some c ∧
      s.mt p = some c ∧ c.isRemoved = false := by
  have hfin : ∀ {p : PID} {F : Nat} {low : Option K} {c : Chain K V}, s.info p = some (F, low) →
      s.cont p = some c → ∃ F low c, s.info p = some (F, low) ∧ s.cont p = some c ∧
      s.mt p = some c ∧ c.isRemoved = false := fun hi hc => ⟨_, _, _, hi, hc, h.live0 hi hc⟩
  induction hb with
  | root =>
    obtain ⟨T, c, h1, h2⟩ := h.root_page
    exact hfin h1 h2
  | @kid d p q c _ hm hk ih =>
    obtain ⟨F, low, c', hi, hc, hm', hr⟩ := ih
    change s.mt p = some c at hm
    rw [hm] at hm'; cases hm'
    have hpw := h.inv.l.page _ _ _ _ hc hi
    rw [kid_iff hpw.wf] at hk
    unfold kids at hk
    split at hk
    · cases hk
    · obtain ⟨k, hk⟩ := mem_childIds.1 hk
      obtain ⟨e1, e2⟩ := hpw.ents.flat hpw.wf
      rcases List.mem_append.1 hk with hk | hk
      · obtain ⟨c', hc'⟩ := h.x.pre p c k q hc hk
        exact hfin (e1 _ hk q rfl) hc'
      · obtain ⟨_, c', hc'⟩ := h.inv.l.ents p c F low k q hc hi hk
        exact hfin (e2 _ hk q rfl) hc'

/-- The leftmost page of a level. -/
theorem _root_.BwTree.SI.leftmost (h : SI cfg nil nil nil fl s) {T : Nat}
    (hT : s.info s.root = some (T, none)) {d : Nat} (hd : ∀ i < d, famAt s.fcf T i ≠ 0) :
    ∃ p c, s.info p = some (famAt s.fcf T d, none) ∧ s.cont p = some c ∧ Spec.Below s.toSh d p := by
  induction d with
  | zero =>
    obtain ⟨T', c, h1, h2⟩ := h.root_page
    exact ⟨s.root, c, hT, h2, .root⟩
  | succ d ih =>
    obtain ⟨p, c, h1, h2, h3⟩ := ih fun i hi => hd i (Nat.lt_succ_of_lt hi)
    have hF := hd d (Nat.lt_succ_self d)
    have hpw := h.inv.l.page _ _ _ _ h2 h1
    have hwf := hpw.wf
    obtain ⟨⟨k, y⟩, h4, h5⟩ := hwf.pre_shape.1 (by simp [hF])
    have hy : ∃ q, y = Pay.child q := by
      simp only [hF, ne_eq, not_false_eq_true, decide_true, PayOK, if_true] at h5
      exact h5
    obtain ⟨q, rfl⟩ := hy
    have hmem : (k, Pay.child q) ∈ c.pre := by rw [h4]; simp
    obtain ⟨c', hc'⟩ := h.x.pre p c k q h2 hmem
    refine ⟨q, c', (hpw.ents.flat hwf).1 _ hmem q rfl, hc', .kid h3 (h.live0 h1 h2).1 ?_⟩
    rw [kid_iff hwf, kids, hwf.isLeaf]
    simp only [hF, ne_eq, not_false_eq_true, decide_true, Bool.not_true, Bool.false_eq_true, if_false]
    exact mem_childIds.2 ⟨k, List.mem_append_left _ hmem⟩

/-- Every page of a level is below the root. -/
theorem _root_.BwTree.SI.below_all (h : SI cfg nil nil nil fl s) {T : Nat}
    (hT : s.info s.root = some (T, none)) {d : Nat} (hd : ∀ i < d, famAt s.fcf T i ≠ 0) {p : PID}
    {low : Option K} {c : Chain K V} (hi : s.info p = some (famAt s.fcf T d, low))
    (hc : s.cont p = some c) : Spec.Below s.toSh d p := by
  have hTn : T < s.nfam := h.inv.l.fam _ _ _ hT
  have hfcf : ∀ F, 0 < F → F < s.nfam → s.fcf F < F := h.inv.l.fcf
  induction d generalizing p low c with
  | zero =>
    cases low with
    | none =>
      obtain ⟨_, c0, _, h2⟩ := h.root_page
      by_cases e : p = s.root
      · rw [e]; exact .root
      · rcases h.inv.l.disj p s.root c c0 T none none hc h2 hi hT e with
          ⟨_, _, _, e, _⟩ | ⟨_, _, _, e, _⟩ <;> cases e
    | some k =>
      exfalso
      obtain ⟨P, cP, G, lP, g1, g2, g3, g4, _⟩ := h.x.post p c T k hc hi (fun e => e)
      obtain ⟨T', e1, e2⟩ := h.x.chain P cP G lP g1 g2
      change s.info s.root = _ at e1
      rw [hT] at e1
      cases e1
      have h1 := e2.le hfcf hTn
      have h2 := hfcf G (Nat.pos_of_ne_zero g3) (Nat.lt_of_le_of_lt h1 hTn)
      change s.fcf G = T at g4
      omega
  | succ d ih =>
    have hd' : ∀ i < d, famAt s.fcf T i ≠ 0 := fun i hi => hd i (Nat.lt_succ_of_lt hi)
    cases low with
    | none =>
      obtain ⟨q, c0, h1, h2, h3⟩ := h.leftmost hT hd
      by_cases e : p = q
      · rw [e]; exact h3
      · rcases h.inv.l.disj p q c c0 _ none none hc h2 hi h1 e with
          ⟨_, _, _, e, _⟩ | ⟨_, _, _, e, _⟩ <;> cases e
    | some k =>
      obtain ⟨P, cP, G, lP, g1, g2, g3, g4, g5⟩ := h.x.post p c _ k hc hi (fun e => e)
      obtain ⟨T', e1, e2⟩ := h.x.chain P cP G lP g1 g2
      change s.info s.root = _ at e1
      rw [hT] at e1
      cases e1
      have hG : G = famAt s.fcf T d :=
        Down.inj hfcf hTn e2 (famAt_down hd') g3 (hd d (Nat.lt_succ_self d)) g4
      subst hG
      have hwf := (h.inv.l.page _ _ _ _ g1 g2).wf
      refine .kid (ih hd' g2 g1) (h.live0 g2 g1).1 ?_
      rw [kid_iff hwf, kids, hwf.isLeaf]
      simp only [g3, ne_eq, not_false_eq_true, decide_true, Bool.not_true, Bool.false_eq_true, if_false]
      exact mem_childIds.2 ⟨k, List.mem_append_right _ g5⟩

theorem foldlM_mono {α β : Type} {g g' : β → α → Option β} (hg : ∀ b a y, g b a = some y → g' b a = some y) :
    ∀ (l : List α) (b y : β), l.foldlM g b = some y → l.foldlM g' b = some y
  | [], _, _, h => h
  | a :: l, b, y, h => by
    rw [List.foldlM_cons] at h ⊢
    obtain ⟨z, h1, h2⟩ := Option.bind_eq_some_iff.1 h
    exact Option.bind_eq_some_iff.2 ⟨z, hg _ _ _ h1, foldlM_mono hg l z y h2⟩

/-- The bound on the depth does not matter. -/
theorem collectStat_mono {recSz : Nat} {sh : Sh K V} : ∀ (f f' : Nat) (p : PID) (l : Nat)
    (st st' : List Usage), f ≤ f' → collectStat cfg recSz sh f p l st = some st' →
    collectStat cfg recSz sh f' p l st = some st' := by
  intro f
  induction f with
  | zero => intro f' p l st st' _ h; cases h
  | succ f ih =>
    intro f' p l st st' hf h
    obtain ⟨f', rfl⟩ : ∃ g, f' = g + 1 := ⟨f' - 1, by omega⟩
    rw [collectStat] at h ⊢
    cases hm : sh.mt p with
    | none => rw [hm] at h; cases h
    | some c =>
      rw [hm] at h
      dsimp only at h ⊢
      by_cases hw : (c.needWait cfg || c.isRemoved) = true
      · rw [if_pos hw] at h; cases h
      · rw [if_neg hw] at h ⊢
        cases ha : addUsage l (usage cfg recSz c)
            (if st.length ≤ l then st ++ [(0, 0, 0)] else st) with
        | none => rw [ha] at h; cases h
        | some st2 =>
          rw [ha] at h
          dsimp only at h ⊢
          by_cases hl : c.isLeaf = true
          · rw [if_pos hl] at h ⊢; exact h
          · rw [if_neg hl] at h ⊢
            cases ht : tryConsolidate cfg true c with
            | none => rw [ht] at h; cases h
            | some x =>
              rw [ht] at h
              cases x with
              | consolidate n =>
                dsimp only at h ⊢
                refine foldlM_mono ?_ _ _ _ h
                rintro b ⟨k, y⟩ z hz
                cases y with
                | child q => exact ih f' q _ _ _ (by omega) hz
                | val v => exact hz
              | split l r => cases h
              | merge n => cases h

/-- In such a state, the pages that the index records in force lead to are exactly the live pages of
the level, whichever way they are reached. -/
theorem Rested.indexed {s : St K V} {it : Option (PID × K × Spec.Bound K)} (h : Rested cfg s it) (d : Nat)
    (p : PID) : Spec.Below s.toSh d p ↔
      Spec.ReachAt s.toSh d p ∧ ∃ c, s.mt p = some c ∧ c.isRemoved = false := by
  obtain ⟨⟨fl, h2⟩, _⟩ := h
  obtain ⟨T, hT⟩ := h2.inv.p.root
  constructor
  · intro hb
    obtain ⟨_, _, c, _, _, h3, h4⟩ := h2.below_live hb
    exact ⟨below_reachAt h2.inv hT hb, c, h3, h4⟩
  · rintro ⟨hr, c, hm, hn⟩
    obtain ⟨low, hinf⟩ := reachAt_info h2.inv hT hr
    exact h2.below_all hT (reachAt_inner h2.inv hT hr) hinf (h2.inv.live hinf hm hn).1

/-- Between the calls of a session, the pages that the index records in force lead to are exactly
the live pages of the level, whichever way they are reached. -/
theorem C49_one_thread_indexed (hR : Roomy cfg) (hc : CfgOK2 cfg) {m : K → Option V} {sh0 sh : Sh K V}
    (hi : Init cfg m sh0) {l : List (Spec.Call K V × Spec.Ret K V)}
    {it : Option (PID × K × Spec.Bound K)} (h : Session cfg sh0 l sh it) (d : Nat) (p : PID) :
    Spec.Below sh d p ↔ Spec.ReachAt sh d p ∧ ∃ c, sh.mt p = some c ∧ c.isRemoved = false := by
  obtain ⟨s, rfl, h2⟩ := h.rested hR hc hi
  exact Rested.indexed h2 d p

/-- The statistics of a state in which a single thread can go on. -/
theorem Rested.stat (hc : CfgOK2 cfg) {m : K → Option V} {S : Sys K V} (hre : Reachable cfg m S) {s : St K V}
    {it : Option (PID × K × Spec.Bound K)} (hs : s.toSh = S.sh) (h : Rested cfg s it) (recSz : Nat) :
    ∃ st N, (∀ f, N ≤ f → collectStat cfg recSz S.sh f S.sh.root 0 [] = some st) ∧
      ∀ d, ∃ ps : List PID, ps.Nodup ∧
        (∀ p, p ∈ ps ↔ Spec.ReachAt S.sh d p ∧ ∃ c, S.sh.mt p = some c ∧ c.isRemoved = false) ∧
        (d < st.length ↔ ps ≠ []) ∧
        ∀ u, st[d]? = some u → u.1 = ps.length ∧ u.2.1 = (ps.map (usedAt recSz S.sh)).sum ∧
          u.2.1 ≤ u.2.2 := by
  have hin : ∀ d p, Spec.Below S.sh d p ↔
      Spec.ReachAt S.sh d p ∧ ∃ c, S.sh.mt p = some c ∧ c.isRemoved = false := by
    rw [← hs]; exact Rested.indexed h
  have hret := C49_returns_partial hc hre recSz fun d p hp => by
    obtain ⟨_, c, h3, h4⟩ := (hin d p).1 hp
    exact ⟨c, h3, h4, h.no_wait (by rw [show s.mt = S.sh.mt from congrArg Sh.mt hs]; exact h3)⟩
  obtain ⟨N, hN⟩ := hret
  obtain ⟨st, hst⟩ := hN N (Nat.le_refl _)
  refine ⟨st, N, fun f hf => ?_, fun d => ?_⟩
  · exact collectStat_mono N f _ _ _ _ hf hst
  · obtain ⟨ps, g1, g2, g3, g4⟩ := C49_counts_partial hc hre hst d
    refine ⟨ps, g1, fun p => (g2 p).trans (hin d p), g3, fun u hu => ?_⟩
    obtain ⟨a1, a2, a3, _⟩ := g4 u hu
    exact ⟨a1, a2, a3⟩

/-- **C49 for one thread.**  Between the calls of a session `CollectStatisticalData` returns; it has
an entry for each level, the entry counts each live page of the level exactly once, and the actual
usage is the sum over these pages of base nodes and delta records, and at most the virtual usage.
(That nodes hanging from merge records are left out of the virtual usage is possible for one thread
as well, see `C49_reserved_false`.) -/
theorem C49_one_thread (hR : Roomy cfg) (hc : CfgOK2 cfg) {m : K → Option V} {sh0 sh : Sh K V}
    (hi : Init cfg m sh0) {l : List (Spec.Call K V × Spec.Ret K V)}
    {it : Option (PID × K × Spec.Bound K)} (h : Session cfg sh0 l sh it) (recSz : Nat) :
    ∃ st N, (∀ f, N ≤ f → collectStat cfg recSz sh f sh.root 0 [] = some st) ∧
      ∀ d, ∃ ps : List PID, ps.Nodup ∧
        (∀ p, p ∈ ps ↔ Spec.ReachAt sh d p ∧ ∃ c, sh.mt p = some c ∧ c.isRemoved = false) ∧
        (d < st.length ↔ ps ≠ []) ∧
        ∀ u, st[d]? = some u → u.1 = ps.length ∧ u.2.1 = (ps.map (usedAt recSz sh)).sum ∧
          u.2.1 ≤ u.2.2 := by
  obtain ⟨S, h1, h2, _⟩ := h.run 0
  obtain ⟨s, h3, h4⟩ := h.rested hR hc hi
  subst h2
  exact Rested.stat hc ⟨sh0, _, hi, h1⟩ h3 h4 recSz

/-- The statistics after the sequence of `exCalls`. -/
example : ∃ (l : List (Spec.Op Nat Nat × Spec.Res Nat)) (sh : Sh Nat Nat),
    Session roomyCfg (initSh roomyCfg) (l.map fun x => (.op x.1, .res x.2)) sh none ∧
    (collectStat roomyCfg 64 sh 10 sh.root 0 []).map (List.map Prod.fst) = some [1, 2] ∧
    sh.npid = 6 := by
  obtain ⟨l, sh, h1, h2⟩ := session_witness (cfg := roomyCfg) (f := 60) (n := 200) (os := exCalls)
    (sh0 := initSh roomyCfg)
    (g := fun _ sh => ((collectStat roomyCfg 64 sh 10 sh.root 0 []).map (List.map Prod.fst),
      sh.npid))
    (x := (some [1, 2], 6)) (by decide +kernel)
  simp only [Prod.mk.injEq] at h2
  exact ⟨l, sh, h1, h2⟩

end BwTree.Props
