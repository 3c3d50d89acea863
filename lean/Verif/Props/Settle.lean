import Verif.Conc.Settle
import Verif.Props.Waits

/-!
# C73: no merge is left half done

`TryMerge` (`bw_tree.hpp` 1434-1502) takes the contents of a page out of the table and puts them back
into the left sibling, or into the page if the merge is not possible.
-/

namespace BwTree.Props

open BwTree

set_option linter.unusedSectionVars false

variable {K V : Type} [LinearOrder K] {cfg : Cfg K}

/-- **C73.**  At every moment every key belongs to a leaf in the table that has its record, or to a
leaf that a thread has replaced by a removal mark; this thread is inside its call and is not about to
return. -/
theorem C73_pending_partial (hc : CfgOK2 cfg) {m : K → Option V} {sh : Sh K V} (hi : Init cfg m sh)
    {h : List (Spec.Event K V)} {S : Sys K V} (hr : Run cfg (Sys.start sh) h S) :
    ∃ mS ops, Spec.Accepts ⟨m, fun _ => .idle⟩ h ⟨mS, ops⟩ ∧ ∀ k, ∃ p c, c.isRemoved = false ∧
      c.isLeaf = true ∧ Spec.Covers c k ∧ Spec.look k c = (mS k).map Pay.val ∧
      (S.sh.mt p = some c ∨ isMark (S.sh.mt p) = true ∧ ∃ t call x, S.mark p = some (t, c) ∧
        S.th t = .run call x ∧ ∀ r, x ≠ .ret r) := by
  obtain ⟨s, h1, h2, h3⟩ := hi.minded hc hr
  have hsh := h1.sh
  refine ⟨s.m, s.ops, h3, fun k => ?_⟩
  obtain ⟨p, c, low, hcont, hi, hr⟩ := h1.inv.l.cover k
  have hi' : s.info p = some (0, low) := hi
  have hw := h1.inv.l.page p c 0 low hcont hi
  have hv := h1.inv.l.val p c low k hcont hi hr
  have hleaf : c.isLeaf = true := hw.isLeaf
  have hcont' : s.cont p = some c := hcont
  unfold St.cont at hcont'
  rw [hi'] at hcont'
  simp only at hcont'
  cases hm : s.mt p with
  | none => rw [hm] at hcont'; cases hcont'
  | some x =>
    rw [hm] at hcont'
    by_cases hx : ∃ b, x = .removed b
    · obtain ⟨b, rfl⟩ := hx
      simp only [Option.map_eq_some_iff] at hcont'
      obtain ⟨n, hp, rfl⟩ := hcont'
      have ho := (h1.inv.p.pend p n hp).1
      obtain ⟨u, hu⟩ := Option.ne_none_iff_exists'.mp ho
      obtain ⟨hd, e1, e2, inner, low', e3⟩ := h1.mark p u n (by rw [hm]; rfl) hu hp
      have hin : n.inner = false := by simpa [Chain.isLeaf] using hleaf
      obtain ⟨call, x, n', g1, _, _, _, _, g2⟩ := h2 p u n hu hp
      refine ⟨p, hd, ?_, ?_, ?_, ?_, Or.inr ⟨by rw [← hsh, hm]; rfl, u, call, x, e1, g1, ?_⟩⟩
      · cases hd with
        | removed b => exact e3.elim
        | base n => rfl
        | delta d nx => rfl
      · rw [e2.1] at hin; simpa using hin
      · have := (covers_iff hw.wf.low_eq k).mpr hr
        simp only [Spec.Covers, Chain.low, Chain.high] at this ⊢
        rw [e2.2.1, e2.2.2.1] at this; exact this
      · rw [← isCons_look e2 e3 k, look_eq hw.wf]; exact hv
      · rintro r rfl; exact g2
    · have : c = x := by
        cases x with
        | removed b => exact absurd ⟨b, rfl⟩ hx
        | base n => exact (Option.some.inj hcont').symm
        | delta d nx => exact (Option.some.inj hcont').symm
      subst this
      exact ⟨p, c, hw.not_removed, hleaf, (covers_iff hw.wf.low_eq k).mpr hr,
        by rw [look_eq hw.wf]; exact hv, Or.inl (by rw [← hsh]; exact hm)⟩

/-- **C73, quiet states.**  When no call is active, the leaves in the table hold the whole map: every
key belongs to exactly one leaf, the leaves are linked in the order of the keys, no leaf has a removed
right sibling, and the search reaches no other leaves.  (Whether a search reaches a given leaf is
another matter, see `C47_false`.) -/
theorem C73_quiet_leaves_partial (hc : CfgOK2 cfg) {m : K → Option V} {sh : Sh K V}
    (hi : Init cfg m sh) {h : List (Spec.Event K V)} {S : Sys K V}
    (hr : Run cfg (Sys.start sh) h S) (hq : ∀ t, S.th t = .idle) :
    ∃ mS ops P, Spec.Accepts ⟨m, fun _ => .idle⟩ h ⟨mS, ops⟩ ∧ Spec.LeafLevel S.sh mS P := by
  obtain ⟨s, h1, h2, h3⟩ := hi.minded hc hr
  have hI := h1.inv
  have hcont : ∀ p c low, s.lv.cont p = some c → s.info p = some (0, low) →
      s.mt p = some c ∧ c.isRemoved = false ∧ PageWF cfg s.lv 0 low c := by
    intro p c low hc' hi'
    have hw := hI.l.page p c 0 low hc' hi'
    refine ⟨?_, hw.not_removed, hw⟩
    have hc' : s.cont p = some c := hc'
    unfold St.cont at hc'
    rw [hi'] at hc'
    simp only at hc'
    split at hc'
    · simp only [Option.map_eq_some_iff] at hc'
      obtain ⟨n, hp, rfl⟩ := hc'
      obtain ⟨u, hu⟩ := Option.ne_none_iff_exists'.mp (hI.p.pend p n hp).1
      have hleaf := hw.isLeaf
      obtain ⟨call, x, _, g1, _⟩ := h2 p u n hu hp
      rw [hq u] at g1; cases g1
    · exact hc'
  refine ⟨s.m, s.ops, fun p => ∃ low c, s.info p = some (0, low) ∧ s.mt p = some c ∧
    c.isRemoved = false, h3, ?_⟩
  rw [← h1.sh]
  have page : ∀ p c, (∃ low c, s.info p = some (0, low) ∧ s.mt p = some c ∧ c.isRemoved = false) →
      s.mt p = some c → ∃ low, s.info p = some (0, low) ∧ s.lv.cont p = some c ∧
        PageWF cfg s.lv 0 low c := by
    rintro p c ⟨low, c', e1, e2, e3⟩ e4
    rw [e2] at e4; cases e4
    exact ⟨low, e1, hI.live e1 e2 e3⟩
  refine ⟨?_, fun k => ?_, ?_, ?_, ?_, ?_⟩
  · rintro p ⟨low, c, e1, e2, e3⟩
    exact ⟨c, e2, e3, (hI.live e1 e2 e3).2.isLeaf⟩
  · obtain ⟨p, c, low, e1, e2, e3⟩ := hI.l.cover k
    obtain ⟨g1, g2, g3⟩ := hcont p c low e1 e2
    exact ⟨p, c, ⟨low, c, e2, g1, g2⟩, g1, (covers_iff g3.wf.low_eq k).mpr e3⟩
  · intro p q c c' k hp hq' e1 e2 e3 e4
    obtain ⟨low, a1, a2, a3⟩ := page p c hp e1
    obtain ⟨low', b1, b2, b3⟩ := page q c' hq' e2
    by_contra hne
    rw [covers_iff a3.wf.low_eq] at e3
    rw [covers_iff b3.wf.low_eq] at e4
    rcases hI.l.disj p q c c' 0 low low' a2 b2 a1 b1 hne with ⟨h, l, f1, f2, f3⟩ | ⟨h, l, f1, f2, f3⟩
    · exact absurd (lt_of_lt_of_le (e3.2 h f1) (le_trans f3 (e4.1 l f2))) (lt_irrefl _)
    · exact absurd (lt_of_lt_of_le (e4.2 h f1) (le_trans f3 (e3.1 l f2))) (lt_irrefl _)
  · intro p c k hp e1 e2
    obtain ⟨low, a1, a2, a3⟩ := page p c hp e1
    rw [look_eq a3.wf]
    exact hI.l.val p c low k a2 a1 ((covers_iff a3.wf.low_eq k).mp e2)
  · intro p c h hp e1 e2
    obtain ⟨low, a1, a2, a3⟩ := page p c hp e1
    have b1 : s.info c.nextPid = some (0, some h) := a3.link h e2
    obtain ⟨c', b2⟩ := hI.l.linkl p c h a2 e2
    obtain ⟨g1, g2, g3⟩ := hcont _ _ _ b2 b1
    exact ⟨⟨_, c', b1, g1, g2⟩, c', g1, g3.wf.low_eq⟩
  · intro p c hl hleaf
    obtain ⟨F, low, e1, e2, e3, e4, e5⟩ := hI.live_page hl
    have hF : F = 0 := by rw [hleaf] at e5; simpa using e5.symm
    subst hF
    exact ⟨low, c, e1, hl.slot, hl.live⟩

/-! ## Examples -/

/-- In the middle of a merge: the record of key 8 is in no page of the table; the leaf that holds it
was taken out by thread 0. -/
example : ∃ (h : List (Spec.Event Nat Nat)) (S : Sys Nat Nat) (mS : Nat → Option Nat),
    Run smallCfg (Sys.start (initSh smallCfg)) h S ∧ isMark (S.sh.mt 2) = true ∧ S.th 0 ≠ .idle ∧
    ∀ k, ∃ p c, c.isRemoved = false ∧ Spec.look k c = (mS k).map Pay.val ∧
      (S.sh.mt p = some c ∨ ∃ t call x, S.mark p = some (t, c) ∧ S.th t = .run call x) := by
  obtain ⟨h, S, h1, _, h2⟩ := scenario_witness (cfg := smallCfg) (cs := exMid)
    (fun _ S => (isMark (S.sh.mt 2), idleAt S 0)) (x := (true, false)) (by decide +kernel)
  simp only [Prod.mk.injEq] at h2
  obtain ⟨mS, _, _, h3⟩ := C73_pending_partial smallCfg_ok .empty h1
  refine ⟨h, S, mS, h1, h2.1, fun e => ?_, fun k => ?_⟩
  · have := h2.2
    simp [idleAt, e] at this
  · obtain ⟨p, c, e1, _, _, e2, e3⟩ := h3 k
    refine ⟨p, c, e1, e2, e3.imp id ?_⟩
    rintro ⟨_, t, call, x, g1, g2, _⟩
    exact ⟨t, call, x, g1, g2⟩

/-- A quiet tree with removal marks: the leaves in the table hold all records that are left. -/
example : ∃ (h : List (Spec.Event Nat Nat)) (S : Sys Nat Nat) (mS : Nat → Option Nat) (P : PID → Prop),
    Run smallCfg (Sys.start (initSh smallCfg)) h S ∧ (∃ p, isMark (S.sh.mt p) = true) ∧
    Spec.LeafLevel S.sh mS P := by
  obtain ⟨h, S, h1, _, h2⟩ := scenario_witness (cfg := smallCfg)
    (cs := exIns ((List.range 12).map fun i => 100 * (i + 1)) ++ exDel [100, 200, 300, 400])
    (fun h S => (quietAt h S, (List.range S.sh.npid).any fun p => isMark (S.sh.mt p)))
    (x := (true, true)) (by decide +kernel)
  simp only [Prod.mk.injEq, List.any_eq_true] at h2
  obtain ⟨hq, p, _, hp⟩ := h2
  obtain ⟨mS, _, P, _, h3⟩ := C73_quiet_leaves_partial smallCfg_ok .empty h1 (quietAt_spec h1 hq)
  exact ⟨h, S, mS, P, h1, ⟨p, hp⟩, h3⟩

end BwTree.Props
