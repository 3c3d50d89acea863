import Verif.Conc.Smo
import Verif.Tree.Exact

/-!
# Program logic for a thread that runs alone (helper lemmas)

`ro` is for programs that only read; `sp` for all programs.  In contrast to `wp`, the flags are
excluded and undefined behaviour is allowed (`wp` excludes it).
-/

namespace BwTree

set_option linter.unusedSectionVars false

section
variable {K V : Type} {α β : Type}

/-- The program only reads, does not reach a flag, and every result satisfies `Q`. -/
def ro (sh : Sh K V) : Prog K V α → (α → Prop) → Prop
  | .ret a, Q => Q a
  | .ub, _ => True
  | .stuck, _ => True
  | .flag _, _ => False
  | .loadRoot k, Q => ro sh (k sh.root) Q
  | .load p k, Q => ∀ c, sh.mt p = some c → ro sh (k c) Q
  | .loadCell w k, Q => ro sh (k (sh.cells w)) Q
  | .storeRoot _ _, _ => False
  | .casRoot _ _ _, _ => False
  | .store _ _ _, _ => False
  | .cas _ _ _ _, _ => False
  | .newPid _, _ => False
  | .newCell _, _ => False
  | .storeCell _ _ _, _ => False

/-- The program, running alone with ghost updates of choice, does not reach a flag and ends in `Q`. -/
def sp : Prog K V α → (α → St K V → Prop) → St K V → Prop
  | .ret a, Q, s => Q a s
  | .ub, _, _ => True
  | .stuck, _, _ => True
  | .flag _, _, _ => False
  | .loadRoot k, Q, s => sp (k s.root) Q s
  | .load p k, Q, s => ∀ c, s.mt p = some c → sp (k c) Q s
  | .loadCell w k, Q, s => sp (k (s.cells w)) Q s
  | .storeRoot p k, Q, s => ∃ s' : St K V, s'.toSh = { s.toSh with root := p } ∧ sp k Q s'
  | .casRoot o n k, Q, s => (s.root ≠ o → sp (k false) Q s) ∧
      (s.root = o → ∃ s' : St K V, s'.toSh = { s.toSh with root := n } ∧ sp (k true) Q s')
  | .store p c k, Q, s => ∃ s' : St K V, s'.toSh = { s.toSh with mt := upd s.mt p (some c) } ∧ sp k Q s'
  | .cas p o n k, Q, s => sp (k false) Q s ∧
      (s.mt p = some o → ∃ s' : St K V, s'.toSh = { s.toSh with mt := upd s.mt p (some n) } ∧
        sp (k true) Q s')
  | .newPid k, Q, s => ∃ s' : St K V, s'.toSh = { s.toSh with npid := s.npid + 1 } ∧ sp (k s.npid) Q s'
  | .newCell k, Q, s => ∃ s' : St K V,
      s'.toSh = { s.toSh with ncell := s.ncell + 1, cells := upd s.cells s.ncell 0 } ∧
      sp (k s.ncell) Q s'
  | .storeCell w p k, Q, s => ∃ s' : St K V, s'.toSh = { s.toSh with cells := upd s.cells w p } ∧ sp k Q s'

theorem ro_bind {sh : Sh K V} {p : Prog K V α} {g : α → Prog K V β} {Q : β → Prop}
    (h : ro sh p (fun a => ro sh (g a) Q)) : ro sh (p.bind g) Q := by
  induction p with
  | ret a => exact h
  | ub => trivial
  | stuck => trivial
  | flag k => exact h
  | loadRoot k ih => exact ih _ h
  | load p k ih => exact fun c hc => ih c (h c hc)
  | loadCell w k ih => exact ih _ h
  | _ => exact h.elim

theorem ro_mono {sh : Sh K V} {p : Prog K V α} {P Q : α → Prop} (h : ro sh p P)
    (hPQ : ∀ a, P a → Q a) : ro sh p Q := by
  induction p with
  | ret a => exact hPQ _ h
  | ub => trivial
  | stuck => trivial
  | flag k => exact h
  | loadRoot k ih => exact ih _ h
  | load p k ih => exact fun c hc => ih c (h c hc)
  | loadCell w k ih => exact ih _ h
  | _ => exact h.elim

theorem ro_then {sh : Sh K V} {p : Prog K V α} {g : α → Prog K V β} {P : α → Prop} {Q : β → Prop}
    (h : ro sh p P) (hg : ∀ a, P a → ro sh (g a) Q) : ro sh (p.bind g) Q :=
  ro_bind (ro_mono h hg)

theorem sp_of_ro {s : St K V} {p : Prog K V α} {g : α → Prog K V β} {P : α → Prop}
    {Q : β → St K V → Prop} (h : ro s.toSh p P) (hg : ∀ a, P a → sp (g a) Q s) :
    sp (p.bind g) Q s := by
  induction p with
  | ret a => exact hg _ h
  | ub => trivial
  | stuck => trivial
  | flag k => exact h
  | loadRoot k ih => exact ih _ h
  | load p k ih => exact fun c hc => ih c (h c hc)
  | loadCell w k ih => exact ih _ h
  | _ => exact h.elim

theorem sp_ro {s : St K V} {p : Prog K V α} {P : α → Prop}
    {Q : α → St K V → Prop} (h : ro s.toSh p P) (hg : ∀ a, P a → Q a s) : sp p Q s := by
  induction p with
  | ret a => exact hg _ h
  | ub => trivial
  | stuck => trivial
  | flag k => exact h
  | loadRoot k ih => exact ih _ h
  | load p k ih => exact fun c hc => ih c (h c hc)
  | loadCell w k ih => exact ih _ h
  | _ => exact h.elim

theorem sp_mono {p : Prog K V α} {P Q : α → St K V → Prop} : ∀ {s : St K V}, sp p P s →
    (∀ a s', P a s' → Q a s') → sp p Q s := by
  induction p with
  | ret a => intro s h hq; exact hq _ _ h
  | ub => intro s h hq; trivial
  | stuck => intro s h hq; trivial
  | flag k => intro s h hq; exact h
  | loadRoot k ih => intro s h hq; exact ih _ h hq
  | load p k ih => intro s h hq c hc; exact ih c (h c hc) hq
  | loadCell w k ih => intro s h hq; exact ih _ h hq
  | storeRoot p k ih => intro s h hq; obtain ⟨s', e, h⟩ := h; exact ⟨s', e, ih h hq⟩
  | casRoot o n k ih =>
    intro s h hq
    refine ⟨fun e => ih _ (h.1 e) hq, fun e => ?_⟩
    obtain ⟨s', e', h⟩ := h.2 e
    exact ⟨s', e', ih _ h hq⟩
  | store p c k ih => intro s h hq; obtain ⟨s', e, h⟩ := h; exact ⟨s', e, ih h hq⟩
  | cas p o n k ih =>
    intro s h hq
    refine ⟨ih _ h.1 hq, fun e => ?_⟩
    obtain ⟨s', e', h⟩ := h.2 e
    exact ⟨s', e', ih _ h hq⟩
  | newPid k ih => intro s h hq; obtain ⟨s', e, h⟩ := h; exact ⟨s', e, ih _ h hq⟩
  | newCell k ih => intro s h hq; obtain ⟨s', e, h⟩ := h; exact ⟨s', e, ih _ h hq⟩
  | storeCell w p k ih => intro s h hq; obtain ⟨s', e, h⟩ := h; exact ⟨s', e, ih h hq⟩

theorem sp_bind {p : Prog K V α} {g : α → Prog K V β} {Q : β → St K V → Prop} :
    ∀ {s : St K V}, sp p (fun a s => sp (g a) Q s) s → sp (p.bind g) Q s := by
  induction p with
  | ret a => intro s h; exact h
  | ub => intro s h; trivial
  | stuck => intro s h; trivial
  | flag k => intro s h; exact h
  | loadRoot k ih => intro s h; exact ih _ h
  | load p k ih => intro s h c hc; exact ih c (h c hc)
  | loadCell w k ih => intro s h; exact ih _ h
  | storeRoot p k ih => intro s h; obtain ⟨s', e, h⟩ := h; exact ⟨s', e, ih h⟩
  | casRoot o n k ih =>
    intro s h
    refine ⟨fun e => ih _ (h.1 e), fun e => ?_⟩
    obtain ⟨s', e', h⟩ := h.2 e
    exact ⟨s', e', ih _ h⟩
  | store p c k ih => intro s h; obtain ⟨s', e, h⟩ := h; exact ⟨s', e, ih h⟩
  | cas p o n k ih =>
    intro s h
    refine ⟨ih _ h.1, fun e => ?_⟩
    obtain ⟨s', e', h⟩ := h.2 e
    exact ⟨s', e', ih _ h⟩
  | newPid k ih => intro s h; obtain ⟨s', e, h⟩ := h; exact ⟨s', e, ih _ h⟩
  | newCell k ih => intro s h; obtain ⟨s', e, h⟩ := h; exact ⟨s', e, ih _ h⟩
  | storeCell w p k ih => intro s h; obtain ⟨s', e, h⟩ := h; exact ⟨s', e, ih h⟩

theorem sp_then {p : Prog K V α} {g : α → Prog K V β} {P : α → St K V → Prop}
    {Q : β → St K V → Prop} {s : St K V} (h : sp p P s) (hg : ∀ a s', P a s' → sp (g a) Q s') :
    sp (p.bind g) Q s := sp_bind (sp_mono h hg)

theorem sp_ret {a : α} {Q : α → St K V → Prop} {s : St K V} (h : Q a s) : sp (.ret a) Q s := h

end

/-! ## Searches with a target in a fixed state -/

variable {K V : Type} [LinearOrder K] {cfg : Cfg K} {s s' : St K V} {F : Nat}
  {key : K} {closed : Bool}

theorem waitCell_ro {w : Nat} (f : Nat) :
    ro s.toSh (waitCell (K := K) (V := V) f w) (fun q => q = s.cells w ∧ q ≠ 0) := by
  induction f with
  | zero => trivial
  | succ f ih =>
    show ro s.toSh (if s.cells w = 0 then waitCell f w else .ret (s.cells w)) _
    by_cases e : s.cells w = 0
    · rw [if_pos e]; exact ih
    · rw [if_neg e]; exact ⟨rfl, e⟩

theorem loadValidHead_ro {p : PID} (f : Nat) :
    ro s.toSh (loadValidHead cfg f p) (fun c => s.mt p = some c ∧ c.needWait cfg = false) := by
  induction f with
  | zero => trivial
  | succ f ih =>
    intro c hc
    show ro s.toSh (if c.needWait cfg then loadValidHead cfg f p else .ret c) _
    cases hw : c.needWait cfg with
    | true => simpa using ih
    | false => exact ⟨hc, hw⟩

theorem searchChild_gen {tgt : PID} (hI : Inv cfg s) (ht : tgt ≠ 0) : ∀ (f : Nat) {stk : Stk} {F : Nat},
    stk ≠ [] → StkOK .free s F key closed stk → F ≠ 0 →
    ro s.toSh (searchChild key closed tgt f stk) (ScPost .free s F key closed tgt) := by
  intro f
  induction f with
  | zero => intro stk F _ _ _; trivial
  | succ f ih =>
    intro stk F hne hs hF
    cases stk with
    | nil => exact absurd rfl hne
    | cons p rest =>
    intro c hc
    obtain ⟨c', hc', hleaf⟩ := hs.slot hI
    change s.mt p = some c at hc
    rw [hc] at hc'; cases hc'
    cases hrem : c.isRemoved with
    | true =>
      obtain ⟨b, rfl⟩ := isRemoved_true hrem
      have hll : (Chain.removed (K := K) (V := V) b).liveLeaf = false := by
        simp [Chain.liveLeaf, Chain.isRemoved]
      have hst : childStep key closed (Chain.removed (K := K) (V := V) b) = .removed := rfl
      simp only [hll, hst, Bool.false_eq_true, if_false]
      by_cases hrest : rest = []
      · simp only [hrest, if_true, ht, ne_eq, not_false_eq_true]
        exact Or.inr (Or.inl ⟨rfl, rfl, ht⟩)
      · simp only [hrest, if_false]
        obtain ⟨G, hG0, hGF, hG⟩ := hs.tail hrest
        have hGlt := hG.adj.head_lt hI.l hrest
        apply ro_then (ih hrest hG (Nat.pos_iff_ne_zero.1 hG0))
        intro x hp
        rcases hp with ⟨e1, e2, e3, F', low, e4, e5, e6⟩ | ⟨e1, e2, e3⟩ | ⟨e1, e2, F', e3, e4⟩
        · simp only [e1, if_true]
          refine Or.inl ⟨rfl, e2, e3, F', low, ?_, e5, e6⟩
          have := hI.l.fcf G hG0 hGlt
          change s.fcf G < G at this
          omega
        · simp only [e1, e2, Bool.false_eq_true, if_false, if_true]
          exact Or.inr (Or.inl ⟨rfl, rfl, e3⟩)
        · simp only [e1, e2, Bool.false_eq_true, if_false]
          have hF' : F' = F := by rw [e4 (Or.inl ht), hGF]
          subst hF'
          exact ih e2 e3 hF
    | false =>
      obtain ⟨low, l1, l2, l3, l4⟩ := hs.live hI hc hrem
      have hll : c.liveLeaf = decide (F = 0) := by simp [Chain.liveLeaf, hrem, hleaf]
      simp only [hll, hF, decide_false, Bool.false_eq_true, if_false]
      have hwf := l4.wf
      simp only [hF, ne_eq, not_false_eq_true, decide_true] at hwf
      rcases childStep_spec hwf l4.ents key closed l2 with
        ⟨q, sep, h1, h2, h3⟩ | ⟨w, sep, h1, h2, h3⟩ | ⟨h1, h2⟩
      · simp only [h1]
        exact Or.inr (Or.inr ⟨rfl, by simp, _, hs.push (by simp) (Nat.pos_of_ne_zero hF) h2 h3,
          fun _ => rfl⟩)
      · simp only [h1]
        apply ro_then (waitCell_ro f)
        rintro q ⟨rfl, hq⟩
        rcases hI.p.cell w _ _ h2 with e' | ⟨lq, e1, e2⟩
        · exact absurd e' hq
        refine Or.inr (Or.inr ⟨rfl, by simp, _,
          hs.push (by simp) (Nat.pos_of_ne_zero hF) e1 ?_, fun _ => rfl⟩)
        intro x hx
        have a1 := e2 x hx
        have a2 := h3 sep rfl
        cases closed <;> simp at a1 a2 ⊢ <;> order
      · simp only [h1]
        obtain ⟨b, b1, b2, b3⟩ := l4.sibling h2
        by_cases ht' : c.nextPid = tgt
        · simp only [ht', if_true]
          rw [ht'] at b2
          exact Or.inl ⟨rfl, by simp, ht, F, _, Nat.le_refl _, b2, hs⟩
        · simp only [ht', if_false]
          exact ih (by simp) (hs.swap b2 b3) hF

theorem getHead_gen {tgt : PID} {Ft : Nat} {lt : Option K} (hI : Inv cfg s)
    (ht : s.info tgt = some (Ft, lt)) : ∀ (f : Nat) {stk : Stk} {F : Nat}, Ft ≤ F → stk ≠ [] →
    StkOK .free s F key closed stk →
    ro s.toSh (getHead cfg key closed tgt f stk) (GhPost cfg .free s F key closed tgt) := by
  intro f
  induction f with
  | zero => intro stk F _ _ _; trivial
  | succ f ih =>
    intro stk F hle hne hs
    cases stk with
    | nil => exact absurd rfl hne
    | cons p rest =>
    have htz : tgt ≠ 0 := hI.info_ne_zero ht
    apply ro_then (loadValidHead_ro f)
    rintro c ⟨hc, hw⟩
    cases hrem : c.isRemoved with
    | true =>
      obtain ⟨b, rfl⟩ := isRemoved_true hrem
      have hst : dcValidate key closed (Chain.removed (K := K) (V := V) b) = .removed := rfl
      simp only [hst]
      by_cases hrest : rest = []
      · simp only [hrest, if_true, htz, ne_eq, not_false_eq_true]
        trivial
      · simp only [hrest, if_false]
        obtain ⟨G, hG0, hGF, hG⟩ := hs.tail hrest
        have hGlt := hG.adj.head_lt hI.l hrest
        have hlt := hI.l.fcf G hG0 hGlt
        change s.fcf G < G at hlt
        apply ro_then (searchChild_gen hI htz f hrest hG (Nat.pos_iff_ne_zero.1 hG0))
        intro x hp
        rcases hp with ⟨_, _, _, F', low, e4, e5, _⟩ | ⟨_, e2, _⟩ | ⟨_, e2, F', e3, e4⟩
        · rw [ht] at e5; cases e5; omega
        · simp only [e2, if_true]
          trivial
        · simp only [e2, if_false]
          have hF' : F' = F := by rw [e4 (Or.inl htz), hGF]
          subst hF'
          exact ih hle e2 e3
    | false =>
      obtain ⟨low, l1, l2, l3, l4⟩ := hs.live hI hc hrem
      by_cases hh : HighOK c.high key closed
      · have hst := (dcValidate_spec l4.wf key closed).1 hh
        simp only [hst]
        exact ⟨p, rest, low, rfl, hc, hw, hrem, l1, l2, l4, hs, Or.inl hh⟩
      · have hst := (dcValidate_spec l4.wf key closed).2 hh
        simp only [hst]
        obtain ⟨b, b1, b2, b3⟩ := l4.sibling hh
        by_cases e : c.nextPid = tgt
        · simp only [e, if_true]
          rw [e] at b2
          exact ⟨p, rest, low, rfl, hc, hw, hrem, l1, l2, l4, hs, Or.inr ⟨hh, b, b1, b2⟩⟩
        · simp only [e, if_false]
          exact ih hle (by simp) (hs.swap b2 b3)

theorem getHeadForMerge_gen (hF : 0 < F) (hI : Inv cfg s) : ∀ (f : Nat) {sib : Option K} {stk : Stk},
    stk ≠ [] → StkOK .free s F key true stk →
    ro s.toSh (getHeadForMerge cfg key f sib stk) (GmPost cfg .free s F key) := by
  intro f
  induction f with
  | zero => intro sib stk _ _; trivial
  | succ f ih =>
    intro sib stk hne hs
    cases stk with
    | nil => exact absurd rfl hne
    | cons p rest =>
    apply ro_then (loadValidHead_ro f)
    rintro c ⟨hc, hw⟩
    cases hrem : c.isRemoved with
    | true =>
      obtain ⟨b, rfl⟩ := isRemoved_true hrem
      have hst := mergeStep_removed (V := V) (cfg := cfg) key sib b
      simp only [hst]
      intro e; cases e
    | false =>
      obtain ⟨low, l1, l2, l3, l4⟩ := hs.live hI hc hrem
      have hwf := l4.wf
      simp only [Nat.pos_iff_ne_zero.1 hF, ne_eq, not_false_eq_true, decide_true] at hwf
      rcases mergeStep_spec hwf key sib with ⟨e1, e2⟩ | e1 | ⟨e1, e2⟩
      · simp only [e1]
        intro _
        exact ⟨p, rest, low, rfl, hc, hw, hrem, l1, l2, l4, hs, e2⟩
      · simp only [e1]
        intro e; cases e
      · simp only [e1]
        obtain ⟨b, b1, b2, b3⟩ := l4.sibling e2
        exact ih (by simp) (hs.swap b2 b3)

end BwTree
