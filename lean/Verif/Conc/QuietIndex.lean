import Verif.Conc.Settle
import Verif.Conc.Init
import Verif.Spec.Quiet
import Verif.Tree.Exact
import Verif.Tree.SpecLemmas

/-!
# The index of a quiet tree (proof side)
-/

namespace BwTree

set_option linter.unusedSectionVars false

variable {K V : Type} [LinearOrder K] {cfg : Cfg K} {s : St K V} {S : Sys K V}

/-- In a quiet state the contents of a page are in the table. -/
theorem Mind.quiet (hS : Sound cfg s S) (hM : Mind s S) (hq : ∀ t, S.th t = .idle) {p : PID}
    {c : Chain K V} {F : Nat} {low : Option K} (hc : s.lv.cont p = some c)
    (hi : s.info p = some (F, low)) :
    s.mt p = some c ∧ c.isRemoved = false ∧ PageWF cfg s.lv F low c := by
  have hI := hS.inv
  have hw := hI.l.page p c F low hc hi
  refine ⟨?_, hw.not_removed, hw⟩
  have hc' : s.cont p = some c := hc
  unfold St.cont at hc'
  rw [hi] at hc'
  simp only at hc'
  split at hc'
  · simp only [Option.map_eq_some_iff] at hc'
    obtain ⟨n, hp, rfl⟩ := hc'
    obtain ⟨u, hu⟩ := Option.ne_none_iff_exists'.mp (hI.p.pend p n hp).1
    obtain ⟨call, x, _, g1, _⟩ := hM p u n hu hp
    rw [hq u] at g1; cases g1
  · exact hc'

/-- The right sibling of a live page of a quiet tree is live. -/
theorem Mind.next (hS : Sound cfg s S) (hM : Mind s S) (hq : ∀ t, S.th t = .idle) {p : PID}
    {c : Chain K V} {F : Nat} {low : Option K} (hc : s.lv.cont p = some c)
    (hi : s.info p = some (F, low)) {h : K} (hh : c.high = some h) :
    ∃ c', s.info c.nextPid = some (F, some h) ∧ s.mt c.nextPid = some c' ∧ c'.isRemoved = false ∧
      PageWF cfg s.lv F (some h) c' := by
  have hw := hS.inv.l.page p c F low hc hi
  have b1 : s.info c.nextPid = some (F, some h) := hw.link h hh
  obtain ⟨c', b2⟩ := hS.inv.l.linkl p c h hc hh
  exact ⟨c', b1, hM.quiet hS hq b2 b1⟩

/-- A record in force of a live index node of a quiet tree leads to a live page. -/
theorem Mind.child (hS : Sound cfg s S) (hM : Mind s S) (hq : ∀ t, S.th t = .idle) {p q : PID}
    {c : Chain K V} {F : Nat} {low : Option K} (hc : s.lv.cont p = some c)
    (hi : s.info p = some (F, low)) {k : K} (hk : Spec.look k c = some (.child q)) :
    ∃ c', s.info q = some (s.fcf F, some k) ∧ s.mt q = some c' ∧ c'.isRemoved = false ∧
      PageWF cfg s.lv (s.fcf F) (some k) c' := by
  have hw := hS.inv.l.page p c F low hc hi
  have hm : (k, Pay.child q) ∈ c.flatBody := alook_mem (by rw [← look_eq hw.wf]; exact hk)
  have b1 : s.info q = some (s.fcf F, some k) := (hw.ents.flat hw.wf).2 _ hm q rfl
  obtain ⟨_, c', b2⟩ := hS.inv.l.ents p c F low k q hc hi hm
  exact ⟨c', b1, hM.quiet hS hq b2 b1⟩

/-- Pages on an up-to-date route of a quiet tree are live. -/
theorem Mind.route (hS : Sound cfg s S) (hM : Mind s S) (hq : ∀ t, S.th t = .idle) {key : K}
    {closed : Bool} (hu : Spec.UpToDate s.toSh key closed)
    (hl : ∀ p b, Spec.LeftRoute s.toSh p → s.mt p ≠ some (.removed b)) {p : PID}
    (hr : Spec.Route s.toSh key closed p) :
    ∃ F low c, s.info p = some (F, low) ∧ LowOK low key closed ∧ s.mt p = some c ∧
      c.isRemoved = false ∧ PageWF cfg s.lv F low c ∧ (low = none → Spec.LeftRoute s.toSh p) := by
  have hI := hS.inv
  have left : ∀ {p F low}, s.info p = some (F, low) → Spec.LeftRoute s.toSh p →
      ∃ c, s.mt p = some c ∧ c.isRemoved = false ∧ PageWF cfg s.lv F low c := by
    intro p F low hi hp
    obtain ⟨c, h1, _⟩ := hI.p.slot p F low hi
    have h2 : c.isRemoved = false := by
      cases c with
      | removed b => exact absurd h1 (hl p b hp)
      | base n => rfl
      | delta d nx => rfl
    exact ⟨c, h1, h2, (hI.live hi h1 h2).2⟩
  have down : ∀ {p q F low c}, s.info p = some (F, low) → s.mt p = some c → c.isRemoved = false →
      PageWF cfg s.lv F low c → (low = none → Spec.LeftRoute s.toSh p) → c.isLeaf = false →
      Spec.ChildOf c q → ∃ F low c, s.info q = some (F, low) ∧ s.mt q = some c ∧
        c.isRemoved = false ∧ PageWF cfg s.lv F low c ∧ (low = none → Spec.LeftRoute s.toSh q) := by
    intro p q F low c i1 i2 i3 i4 i5 i6 hco
    have hF : F ≠ 0 := by
      have := i4.isLeaf
      rw [i6] at this
      simpa using this.symm
    have hwf : ChainWF cfg true low c := by
      have := i4.wf
      simpa [hF] using this
    rcases hco with ⟨h1, h2⟩ | ⟨k, hk⟩
    · have hlow : low = none := i4.wf.low_eq.symm.trans h1
      obtain ⟨q', h3, h4⟩ := hwf.leftmostChild i4.ents
      rw [h2] at h3; cases h3
      have hq' : Spec.LeftRoute s.toSh q := .child (i5 hlow) i2 i6 h2
      rw [hlow] at h4
      obtain ⟨c', g1, g2, g3⟩ := left h4 hq'
      exact ⟨_, _, c', h4, g1, g2, g3, fun _ => hq'⟩
    · obtain ⟨c', g1, g2, g3, g4⟩ := hM.child hS hq (hI.live i1 i2 i3).1 i1 hk
      exact ⟨_, _, c', g1, g2, g3, g4, fun e => by cases e⟩
  have step : ∀ {p F low c}, s.info p = some (F, low) → LowOK low key closed →
      PageWF cfg s.lv F low c → c.isLeaf = false →
      (∃ q sep, childStep key closed c = .child q ∧ s.info q = some (s.fcf F, sep) ∧
        LowOK sep key closed) ∨
      (∃ w sep, childStep key closed c = .cell w ∧ s.cellInfo w = some (s.fcf F, sep) ∧
        LowOK (some sep) key closed) ∨
      (childStep key closed c = .sibling c.nextPid ∧ ¬ HighOK c.high key closed) := by
    intro p F low c i1 i2 i4 i6
    have hF : F ≠ 0 := by
      have := i4.isLeaf
      rw [i6] at this
      simpa using this.symm
    have hwf : ChainWF cfg true low c := by
      have := i4.wf
      simpa [hF] using this
    exact childStep_spec hwf i4.ents key closed i2
  induction hr with
  | root =>
    obtain ⟨F, hF⟩ := hI.p.root
    obtain ⟨c, h1, h2, h3⟩ := left hF .root
    exact ⟨F, none, c, hF, (by intro l h; cases h), h1, h2, h3, fun _ => .root⟩
  | child hp hm hlf hst ih =>
    obtain ⟨F, low, c, i1, i0, i2, i3, i4, i5⟩ := ih
    have hm' := i2.symm.trans hm
    cases hm'
    obtain ⟨F', low', c', j1, j2⟩ := down i1 i2 i3 i4 i5 hlf (hu _ _ _ hp hm hlf (Or.inl hst))
    refine ⟨F', low', c', j1, ?_, j2⟩
    rcases step i1 i0 i4 hlf with ⟨q, sep, e1, e2, e3⟩ | ⟨w, sep, e1, _⟩ | ⟨e1, _⟩
    · rw [hst] at e1; cases e1
      rw [j1] at e2; cases e2
      exact e3
    · rw [hst] at e1; cases e1
    · rw [hst] at e1; cases e1
  | cell hp hm hlf hst ih =>
    obtain ⟨F, low, c, i1, i0, i2, i3, i4, i5⟩ := ih
    have hm' := i2.symm.trans hm
    cases hm'
    obtain ⟨F', low', c', j1, j2⟩ :=
      down i1 i2 i3 i4 i5 hlf (hu _ _ _ hp hm hlf (Or.inr ⟨_, hst, rfl⟩))
    refine ⟨F', low', c', j1, ?_, j2⟩
    rcases step i1 i0 i4 hlf with ⟨q, sep, e1, _⟩ | ⟨w, sep, e1, e2, e3⟩ | ⟨e1, _⟩
    · rw [hst] at e1; cases e1
    · rw [hst] at e1; cases e1
      rcases hI.p.cell _ _ _ e2 with e | ⟨lq, d1, d2⟩
      · exact absurd e (hI.info_ne_zero j1)
      · rw [j1] at d1; cases d1
        intro x hx
        have a1 := d2 x hx
        have a2 := e3 sep rfl
        cases closed <;> simp at a1 a2 ⊢ <;> order
    · rw [hst] at e1; cases e1
  | sibling hp hm hlf hst ih =>
    obtain ⟨F, low, c, i1, i0, i2, i3, i4, i5⟩ := ih
    have hm' := i2.symm.trans hm
    cases hm'
    rcases step i1 i0 i4 hlf with ⟨q, sep, e1, _⟩ | ⟨w, sep, e1, _⟩ | ⟨e1, e2⟩
    · rw [hst] at e1; cases e1
    · rw [hst] at e1; cases e1
    · rw [hst] at e1; cases e1
      obtain ⟨b, b1, b2, b3⟩ := i4.sibling e2
      obtain ⟨c', g1, g2, g3, g4⟩ := hM.next hS hq (hI.live i1 i2 i3).1 i1 b1
      exact ⟨_, _, c', g1, b3, g2, g3, g4, fun e => by cases e⟩
  | @leaf p c' h hp hm hlf hh hk ih =>
    obtain ⟨F, low, c, i1, i0, i2, i3, i4, i5⟩ := ih
    have hm' := i2.symm.trans hm
    cases hm'
    obtain ⟨c'', g1, g2, g3, g4⟩ := hM.next hS hq (hI.live i1 i2 i3).1 i1 hh
    refine ⟨_, _, c'', g1, ?_, g2, g3, g4, fun e => by cases e⟩
    intro x hx
    cases hx
    exact hk

/-- A search in a node follows one of its records. -/
theorem childStep_childOf {n : Node K V} (hw : NodeWF cfg n) (hi : n.inner = true) {key : K}
    {closed : Bool} {q : PID} (h : childStep key closed (.base n) = .child q) :
    Spec.ChildOf (.base n) q := by
  have hs : n.searchChild key closed = some q := by
    unfold childStep at h
    simp only [dcSearchChild] at h
    split at h
    · next e => split at e <;> cases e
    · cases h
    · cases h
    · cases h
    · next e =>
      split at e <;> cases e
      split at h
      · next e' => rw [e']; cases h; rfl
      · cases h
    · cases h
  obtain ⟨x, hx, hq⟩ : ∃ x ∈ n.recs, x.2 = .child q := by
    unfold Node.searchChild at hs
    split at hs
    · cases hs
    · simp only at hs
      split at hs
      · rename_i e
        cases hs
        exact ⟨_, List.mem_of_getElem? e, rfl⟩
      · cases hs
  have hin : x ∈ n.body → Spec.ChildOf (.base n) q := fun hb => by
    refine Or.inr ⟨x.1, ?_⟩
    have hc : ChainWF cfg true n.low (.base n) := ⟨hi, rfl, hw⟩
    rw [look_eq hc]
    exact alook_of_mem hw.sorted (by rw [← hq]; exact hb)
  obtain ⟨r, rs, e2, _⟩ := hw.first hi
  cases hl : n.leftInner with
  | false => exact hin (by simpa [Node.body, hl] using hx)
  | true =>
    rw [e2] at hx
    rcases List.mem_cons.1 hx with rfl | hx
    · refine Or.inl ⟨(show n.low = none by simpa [Node.leftInner, hi] using hl), ?_⟩
      obtain ⟨k, v⟩ := x
      cases hq
      simp [Chain.leftmostChild, e2]
    · exact hin (by simpa [Node.body, hl, e2] using hx)

end BwTree
