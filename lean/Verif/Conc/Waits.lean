import Verif.Conc.Owes

/-!
# Every wait has a thread that ends it (proof side)
-/

namespace BwTree

set_option linter.unusedSectionVars false

variable {K V : Type} [LinearOrder K] {cfg : Cfg K} {s s' : St K V} {S S' : Sys K V}

/-- A waiting page is published. -/
theorem Inv.wait_info (hI : Inv cfg s) {p : PID} {c : Chain K V} (hm : s.mt p = some c)
    (hw : c.needWait cfg = true) : s.info p ≠ none := by
  intro e
  obtain ⟨n, rfl, _⟩ := hI.p.unpub p c e hm
  cases hw

theorem Inv.mt_zero (hI : Inv cfg s) : s.mt 0 = none := (hI.p.fresh 0 (Or.inr rfl)).1

theorem EntsOK.words {P : Option K → PID → Prop} {Q : K → Nat → Prop} {w : Nat} :
    ∀ {c : Chain K V}, EntsOK P Q c → w ∈ c.words → ∃ k, Q k w
  | .base n, _, h => by cases h
  | .removed b, _, h => by cases h
  | .delta d nx, he, h => by
    obtain ⟨h1, _, h3, _⟩ := he
    unfold Chain.words at h
    split at h
    · rename_i w' e
      rcases List.mem_cons.1 h with rfl | h
      · exact ⟨_, h3 _ e⟩
      · exact EntsOK.words h1 h
    · exact EntsOK.words h1 h

/-- The words in the table have been allocated. -/
theorem Inv.word_lt (hI : Inv cfg s) {p : PID} {c : Chain K V} {w : Nat} (hm : s.mt p = some c)
    (hw : w ∈ c.words) : w < s.ncell := by
  cases hi : s.info p with
  | none =>
    obtain ⟨n, rfl, _⟩ := hI.p.unpub p c hi hm
    cases hw
  | some x =>
    obtain ⟨F, low⟩ := x
    cases hr : c.isRemoved with
    | true => cases c with
      | base n => cases hr
      | removed b => cases hw
      | delta d nx => cases hr
    | false =>
      obtain ⟨k, hk⟩ := (hI.live hi hm hr).2.ents.words hw
      by_contra hn
      rw [show s.lv.cellInfo w = s.cellInfo w from rfl, hI.p.cfresh w (by omega)] at hk
      cases hk

/-! ## Words -/

/-- Every unset word is going to be set by a thread. -/
structure Duty (cfg : Cfg K) (S : Sys K V) : Prop where
  tidy : ∀ t c x, S.th t = .run c x → Tidy cfg Never x
  words : ∀ p c w, S.sh.mt p = some c → w ∈ c.words → S.sh.cells w ≠ 0 ∨
    ∃ t call x, S.th t = .run call x ∧ Sets w (fun _ => False) x

/-- Calls and returns. -/
theorem SysStep.quiet (ht : cfg.thr ≤ cfg.maxDelta) (hp : 0 < cfg.maxDelta) {e : Spec.Event K V}
    (hs : SysStep cfg S (some e) S') : S'.sh = S.sh ∧ ∃ t y, S'.th = upd S.th t y ∧
      (∀ c x, S.th t = .run c x → ∃ r, x = .ret r) ∧ (∀ c x, y = .run c x → Tidy cfg Never x) := by
  cases hs with
  | op t f o hi =>
    refine ⟨rfl, t, _, rfl, fun c x h => (by rw [hi] at h; cases h), fun c x h => ?_⟩
    cases h
    exact (runOp_tidy ht hp f).seq fun _ => trivial
  | scan t f b e hi =>
    refine ⟨rfl, t, _, rfl, fun c x h => (by rw [hi] at h; cases h), fun c x h => ?_⟩
    cases h
    exact (scanFirst_tidy f).seq fun _ => trivial
  | next t f p k e hi hit =>
    refine ⟨rfl, t, _, rfl, fun c x h => (by rw [hi] at h; cases h), fun c x h => ?_⟩
    cases h
    exact (scanFrom_tidy f _).seq fun _ => trivial
  | retOp t o r hr =>
    exact ⟨rfl, t, _, rfl, fun c x h => (by rw [hr] at h; cases h; exact ⟨_, rfl⟩),
      fun c x h => by cases h⟩
  | retVisit t b e r hr =>
    exact ⟨rfl, t, _, rfl, fun c x h => (by rw [hr] at h; cases h; exact ⟨_, rfl⟩),
      fun c x h => by cases h⟩

/-- A thread that is going to set a word goes on doing so. -/
theorem Sets.sys (ht : cfg.thr ≤ cfg.maxDelta) (hp : 0 < cfg.maxDelta) (hI : Inv cfg s)
    (hsh : s.toSh = S.sh) {l : Option (Spec.Event K V)} (hs : SysStep cfg S l S') {w t : Nat}
    {call : Spec.Call K V} {x : Prog K V (Out K V)} (hth : S.th t = .run call x)
    (h : Sets w (fun _ => False) x) : S'.sh.cells w ≠ 0 ∨
      ∃ x', S'.th t = .run call x' ∧ Sets w (fun _ => False) x' := by
  cases l with
  | some e =>
    obtain ⟨_, u, y, h2, h3, _⟩ := hs.quiet ht hp
    have hne : t ≠ u := by
      rintro rfl
      obtain ⟨r, rfl⟩ := h3 _ _ hth
      exact h
    exact Or.inr ⟨x, by rw [h2, upd_ne _ _ hne]; exact hth, h⟩
  | none =>
    cases hs with
    | step u c y y' sh' h1 h2 =>
      by_cases e : t = u
      · subst e
        rw [hth] at h1; cases h1
        refine (h.step (by rw [← hsh]; exact hI.mt_zero) h2).imp id fun h => ⟨y', upd_same .., h⟩
      · exact Or.inr ⟨x, (upd_ne _ _ e).trans hth, h⟩

theorem Duty.step (ht : cfg.thr ≤ cfg.maxDelta) (hp : 0 < cfg.maxDelta) (hI : Inv cfg s)
    (hsh : s.toSh = S.sh) (hD : Duty cfg S) {l : Option (Spec.Event K V)} (hs : SysStep cfg S l S') :
    Duty cfg S' := by
  have h0 : S.sh.mt 0 = none := by rw [← hsh]; exact hI.mt_zero
  have old : ∀ p c w, S.sh.mt p = some c → w ∈ c.words → (S.sh.cells w ≠ 0 → S'.sh.cells w ≠ 0) →
      S'.sh.cells w ≠ 0 ∨ ∃ t call x, S'.th t = .run call x ∧ Sets w (fun _ => False) x := by
    intro p c w hm hw hc
    rcases hD.words p c w hm hw with h | ⟨t, call, x, h1, h2⟩
    · exact Or.inl (hc h)
    · rcases h2.sys ht hp hI hsh hs h1 with h | ⟨x', h3, h4⟩
      · exact Or.inl h
      · exact Or.inr ⟨t, call, x', h3, h4⟩
  cases l with
  | some e =>
    obtain ⟨h1, u, y, h2, h3, h4⟩ := hs.quiet ht hp
    refine ⟨fun t c x h => ?_, fun p c w hm hw => ?_⟩
    · rw [h2] at h
      by_cases e : t = u
      · subst e; rw [upd_same] at h; exact h4 c x h
      · rw [upd_ne _ _ e] at h; exact hD.tidy t c x h
    · rw [h1] at hm
      exact old p c w hm hw (by rw [h1]; exact id)
  | none =>
    have hs' := hs
    cases hs with
    | step u call x x' sh' h1 h2 =>
      have hx := hD.tidy u call x h1
      refine ⟨fun t c y h => ?_, fun p c w hm hw => ?_⟩
      · by_cases e : t = u
        · subst e
          have h := (upd_same S.th t _).symm.trans h
          cases h
          exact hx.step h0 h2
        · exact hD.tidy t c y ((upd_ne _ _ e).symm.trans h)
      · rcases hx.slot h0 h2 hm hw with ⟨c', e1, e2⟩ | h
        · refine old p c' w e1 e2 fun h => hx.cells h2 ?_ h
          rw [← hsh]
          exact hI.word_lt (by rw [show s.mt p = S.sh.mt p from congrFun (congrArg Sh.mt hsh) p]; exact e1) e2
        · exact Or.inr ⟨u, call, x', upd_same .., h⟩

theorem Init.base {m : K → Option V} {sh : Sh K V} (hi : Init cfg m sh) {p : PID} {c : Chain K V}
    (hm : sh.mt p = some c) : ∃ n, c = .base n := by
  cases hi with
  | empty =>
    have hm : upd (fun _ => none) 1 (some (Chain.base (emptyLeaf cfg))) p = some c := hm
    unfold upd at hm
    split at hm
    · cases hm; exact ⟨_, rfl⟩
    · cases hm
  | @bulk ids threads es T root npid fix inj fresh ne sorted run bound =>
    have hm : (T p).map Chain.base = some c := hm
    rw [Option.map_eq_some_iff] at hm
    obtain ⟨n, _, rfl⟩ := hm
    exact ⟨n, rfl⟩

theorem Duty.start {m : K → Option V} {sh : Sh K V} (hi : Init cfg m sh) :
    Duty cfg (Sys.start sh) := by
  refine ⟨fun t c x h => (by cases h), fun p c w hm hw => ?_⟩
  obtain ⟨n, rfl⟩ := hi.base hm
  cases hw

theorem Init.duty (ht : cfg.thr ≤ cfg.maxDelta) (hc : CfgOK2 cfg) {m : K → Option V} {sh : Sh K V}
    (hi : Init cfg m sh) {h : List (Spec.Event K V)} {S : Sys K V}
    (hr : Run cfg (Sys.start sh) h S) : Duty cfg S := by
  induction hr with
  | nil => exact .start hi
  | tau hr hs ih =>
    obtain ⟨s, h1, _⟩ := hi.run hc hr
    exact ih.step ht hc.maxPos h1.inv h1.sh hs
  | event hr hs ih =>
    obtain ⟨s, h1, _⟩ := hi.run hc hr
    exact ih.step ht hc.maxPos h1.inv h1.sh hs

/-! ## Pages -/

/-- The owner of a waiting page is going to release it. -/
def Watch (cfg : Cfg K) (s : St K V) (S : Sys K V) : Prop :=
  ∀ p c u, s.mt p = some c → c.needWait cfg = true → s.own p = some u →
    ∃ call x, S.th u = .run call x ∧ Releases p 5 c x

theorem Chain.bare_needWait (hp : 0 < cfg.maxDelta) {c : Chain K V} (h : c.bare = true) :
    c.needWait cfg = false := by
  cases c with
  | base n => rfl
  | removed b => exact Chain.needWait_removed hp b
  | delta d nx => cases h

theorem Watch.step (ht : cfg.thr ≤ cfg.maxDelta) (hc : CfgOK2 cfg) (hS : Sound cfg s S)
    (hD : Duty cfg S) (hW : Watch cfg s S) {l : Option (Spec.Event K V)} (hs : SureStep cfg S l S') :
    ∃ s', Sound cfg s' S' ∧ Watch cfg s' S' := by
  have hp := hc.maxPos
  cases hs with
  | event hs =>
    obtain ⟨ops, h1, _⟩ := hS.event hc hs
    obtain ⟨_, u, y, h2, h3, _⟩ := hs.quiet ht hp
    refine ⟨_, h1, fun p c v hm hw ho => ?_⟩
    obtain ⟨call, x, e1, e2⟩ := hW p c v hm hw ho
    have hne : v ≠ u := by
      rintro rfl
      obtain ⟨r, rfl⟩ := h3 _ _ e1
      cases e2
    exact ⟨call, x, by rw [h2, upd_ne _ _ hne]; exact e1, e2⟩
  | access t call x x' sh' h1 h2 =>
    obtain ⟨s', g1, g2, _⟩ := hS.access (rg := fun _ => .free) trivial h1 h2.step
    refine ⟨s', g1, fun p c v hm hw ho => ?_⟩
    have hmt : s'.mt p = sh'.mt p := congrFun (congrArg Sh.mt g1.sh) p
    have hmt0 : ∀ q, s.mt q = S.sh.mt q := fun q => congrFun (congrArg Sh.mt hS.sh) q
    by_cases hv : v = t
    · subst hv
      refine ⟨call, x', upd_same .., ?_⟩
      by_cases hold : ∃ c', s.mt p = some c' ∧ c'.needWait cfg = true
      · obtain ⟨c', e1, e2⟩ := hold
        cases e3 : s.own p with
        | none => exact absurd e3 (hS.inv.p.frozen p c' (hS.inv.wait_info e1 e2) e1 e2)
        | some u =>
          by_cases hu : u = v
          · subst hu
            obtain ⟨call', y, e4, e5⟩ := hW p c' u e1 e2 e3
            rw [h1] at e4; cases e4
            rcases e5.step (by rw [← hmt0]; exact e1) h2 with ⟨c2, e6, e7⟩ | ⟨e6, m, e7, e8⟩
            · rw [hmt, e6] at hm; cases hm
              rw [Chain.bare_needWait hp e7] at hw; cases hw
            · rw [hmt, e6] at hm; cases hm
              exact e8.le (by omega)
          · have := ((g2.rely u hu).own p e3).1
            rw [ho] at this; cases this; exact absurd rfl hu
      · refine (hD.tidy v call x h1).wait hp h2.step (by rw [← hmt]; exact hm) hw fun c' e => ?_
        cases e' : c'.needWait cfg with
        | false => rfl
        | true => exact absurd ⟨c', by rw [hmt0]; exact e, e'⟩ hold
    · have ho' : s.own p = some v := by
        rcases g2.acq p v ho with h | ⟨h, _⟩
        · exact h
        · exact absurd h hv
      have hsame := ((g2.rely v hv).own p ho').2.1
      rw [hsame] at hm
      obtain ⟨call', y, e1, e2⟩ := hW p c v hm hw ho'
      exact ⟨call', y, (upd_ne _ _ hv).trans e1, e2⟩

/-- A page that makes visitors wait is going to be released by a thread inside its call. -/
theorem Init.releases (ht : cfg.thr ≤ cfg.maxDelta) (hc : CfgOK2 cfg) {m : K → Option V} {sh : Sh K V}
    (hi : Init cfg m sh) {h : List (Spec.Event K V)} {S : Sys K V}
    (hr : SureRun cfg (Sys.start sh) h S) {p : PID} {c : Chain K V} (hm : S.sh.mt p = some c)
    (hw : c.needWait cfg = true) : ∃ t call x, S.th t = .run call x ∧ Releases p 5 c x := by
  have key : ∃ s, Sound cfg s S ∧ Watch cfg s S := by
    clear hm hw
    induction hr with
    | nil =>
      obtain ⟨s0, h0, _⟩ := hi.sound hc
      refine ⟨s0, h0, fun p c u hm hw ho => ?_⟩
      obtain ⟨n, rfl⟩ := hi.base (p := p) (c := c) (by
        rw [← hm]; exact (congrFun (congrArg Sh.mt h0.sh) p).symm)
      cases hw
    | tau hr hs ih =>
      obtain ⟨s, h1, h2⟩ := ih
      exact h2.step ht hc h1 (hi.duty ht hc hr.run) hs
    | event hr hs ih =>
      obtain ⟨s, h1, h2⟩ := ih
      exact h2.step ht hc h1 (hi.duty ht hc hr.run) hs
  obtain ⟨s, h1, h2⟩ := key
  have hm' : s.mt p = some c := by rw [show s.mt p = S.sh.mt p from congrFun (congrArg Sh.mt h1.sh) p]; exact hm
  cases ho : s.own p with
  | none => exact absurd ho (h1.inv.p.frozen p c (h1.inv.wait_info hm' hw) hm' hw)
  | some u =>
    obtain ⟨call, x, e1, e2⟩ := h2 p c u hm' hw ho
    exact ⟨u, call, x, e1, e2⟩

end BwTree
