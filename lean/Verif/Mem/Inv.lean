import Verif.Mem.System
import Verif.Gc.Inv

/-!
# The memory invariant (proof side)
-/

namespace BwTree.Mem

open BwTree.Gc (Obj Act Loose)

set_option linter.unusedSectionVars false

/-! ## Steps of the collector protocol -/

/-- Neither beginning nor end of a guard. -/
def Quiet : Act → Prop
  | .enter _ => False
  | .leave _ => False
  | _ => True

/-- Nothing happens, or one step that is neither beginning nor end of a guard. -/
def QStep (g g' : Gc.St) : Prop := g' = g ∨ ∃ a, Quiet a ∧ Gc.Pre g a ∧ g' = Gc.eff g a

section
variable {g g' : Gc.St}

theorem QStep.act {a : Act} (hq : Quiet a) (hp : Gc.Pre g a) : QStep g (Gc.eff g a) :=
  Or.inr ⟨a, hq, hp, rfl⟩

theorem QStep.reach (h : QStep g g') (hr : Gc.Reachable g) : Gc.Reachable g' := by
  rcases h with rfl | ⟨a, _, hp, rfl⟩
  · exact hr
  · exact .step hr hp

theorem QStep.guard (h : QStep g g') (u : Nat) : g'.guard u = g.guard u := by
  rcases h with rfl | ⟨a, hq, hp, rfl⟩
  · rfl
  · cases a with
    | enter t => cases hq
    | leave t => cases hq
    | load t p =>
      simp only [Gc.eff]
      split <;> rfl
    | _ => rfl

theorem mem_set_cons {f : Nat → List (Obj × List Obj)} {t u : Nat} {x y : Obj × List Obj}
    (h : x ∈ f u) : x ∈ Gc.set f t (y :: f t) u := by
  by_cases e : u = t
  · subst e
    rw [Gc.set_same]
    exact List.mem_cons_of_mem _ h
  · rwa [Gc.set_other _ _ e]

theorem QStep.held (h : QStep g g') {u : Nat} {x : Obj × List Obj} (hx : x ∈ g.held u) :
    x ∈ g'.held u := by
  rcases h with rfl | ⟨a, hq, hp, rfl⟩
  · exact hx
  · cases a with
    | enter t => cases hq
    | leave t => cases hq
    | load t p =>
      simp only [Gc.eff]
      split
      · exact mem_set_cons hx
      · exact hx
    | push t p o h => exact mem_set_cons hx
    | publish t p o => exact mem_set_cons hx
    | merge t p m n q d h => exact mem_set_cons hx
    | _ => exact hx

theorem ne_of_loose {o x : Obj} (ho : ¬ Loose g o) (hx : Loose g x) : o ≠ x := by
  rintro rfl
  exact ho hx

theorem QStep.below (h : QStep g g') (hI : Gc.Inv g) {o : Obj} (ho : ¬ Loose g o) :
    g'.below o = g.below o ∧ g'.isMark o = g.isMark o := by
  rcases h with rfl | ⟨a, hq, hp, rfl⟩
  · exact ⟨rfl, rfl⟩
  · have key : ∀ (x : Obj) (l : List Obj) (b : Bool), Loose g x →
        Gc.set g.below x l o = g.below o ∧ Gc.set g.isMark x b o = g.isMark o := fun x l b hx =>
      ⟨Gc.set_other _ _ (ne_of_loose ho hx), Gc.set_other _ _ (ne_of_loose ho hx)⟩
    cases a with
    | enter t => cases hq
    | leave t => cases hq
    | load t p =>
      simp only [Gc.eff]
      split <;> exact ⟨rfl, rfl⟩
    | push t p x h => exact key _ _ _ (Or.inr (Or.inl ⟨t, hp.2.2.2.2⟩))
    | replace t p x h => exact key _ _ _ (Or.inr (Or.inl ⟨t, hp.2.2.2.2⟩))
    | publish t p x => exact key _ _ _ (Or.inr (Or.inl ⟨t, hp.2⟩))
    | mark t p m n h => exact key _ _ _ (Or.inr (Or.inl ⟨t, hp.2.2.2.2.1⟩))
    | restore t p m n => exact key _ _ _ (Or.inr (Or.inr ⟨p, (hI.remSlot p _ hp).2.2⟩))
    | merge t p m n q d h => exact key _ _ _ (Or.inr (Or.inl ⟨t, hp.2.2.2.2⟩))
    | _ => exact ⟨rfl, rfl⟩

end

/-! ## Memory -/

variable {K V : Type} [LinearOrder K] {cfg : Cfg K}

theorem Repr.unique {mem : Obj → Rec K V} {h : Obj} {c c' : Chain K V} {l l' : List Obj}
    (a : Repr mem h c l) (b : Repr mem h c' l') : c = c' ∧ l = l' := by
  induction a generalizing c' l' with
  | node e =>
    cases b with
    | node e' => rw [e] at e'; cases e'; exact ⟨rfl, rfl⟩
    | mark e' => rw [e] at e'; cases e'
    | delta e' _ _ => rw [e] at e'; cases e'
    | merge e' _ _ => rw [e] at e'; cases e'
  | mark e =>
    cases b with
    | node e' => rw [e] at e'; cases e'
    | mark e' => rw [e] at e'; cases e'; exact ⟨rfl, rfl⟩
    | delta e' _ _ => rw [e] at e'; cases e'
    | merge e' _ _ => rw [e] at e'; cases e'
  | delta e hn _ ih =>
    cases b with
    | node e' => rw [e] at e'; cases e'
    | mark e' => rw [e] at e'; cases e'
    | delta e' _ r =>
      rw [e] at e'
      cases e'
      obtain ⟨rfl, rfl⟩ := ih r
      exact ⟨rfl, rfl⟩
    | merge e' _ _ => rw [e] at e'; cases e'
  | merge e e2 _ ih =>
    cases b with
    | node e' => rw [e] at e'; cases e'
    | mark e' => rw [e] at e'; cases e'
    | delta e' _ r => rw [e] at e'; cases e'
    | merge e' e2' r =>
      rw [e] at e'
      cases e'
      rw [e2] at e2'
      cases e2'
      obtain ⟨rfl, rfl⟩ := ih r
      exact ⟨rfl, rfl⟩

theorem Repr.frame {mem mem' : Obj → Rec K V} {h : Obj} {c : Chain K V} {l : List Obj}
    (a : Repr mem h c l) (hm : ∀ o ∈ h :: l, mem' o = mem o) : Repr mem' h c l := by
  induction a with
  | @node h n e => exact .node ((hm h (by simp)).trans e)
  | @mark h b e => exact .mark ((hm h (by simp)).trans e)
  | @delta h x d c l e hn _ ih =>
    exact .delta ((hm h (by simp)).trans e) hn (ih fun o ho => hm o (by
      rcases List.mem_cons.1 ho with rfl | ho <;> simp [*]))
  | @merge h x y d n c l e e2 _ ih =>
    exact .merge ((hm h (by simp)).trans e) ((hm y (by simp)).trans e2) (ih fun o ho => hm o (by
      rcases List.mem_cons.1 ho with rfl | ho <;> simp [*]))

/-- The object with a word of a chain. -/
theorem Repr.cell {mem : Obj → Rec K V} {h : Obj} {c : Chain K V} {l : List Obj} {w : Nat}
    (a : Repr mem h c l) (hw : CellIn w c) :
    ∃ o ∈ h :: l, ∃ d x, mem o = .delta d x ∧ d.pay = .cell w := by
  induction a with
  | node _ => cases hw
  | mark _ => cases hw
  | @delta h x d c l e hn _ ih =>
    rcases hw with e2 | hw
    · exact ⟨h, by simp, d, x, e, e2⟩
    · obtain ⟨o, ho, h2⟩ := ih hw
      exact ⟨o, List.mem_cons_of_mem _ ho, h2⟩
  | @merge h x y d n c l e e2 _ ih =>
    rcases hw with e2 | hw
    · cases e2
    · obtain ⟨o, ho, h2⟩ := ih hw
      exact ⟨o, List.mem_cons_of_mem _ (List.mem_cons_of_mem _ ho), h2⟩

/-- Only private and free objects, and those that become free, are written. -/
def MemKeep (g g' : Gc.St) (mem mem' : Obj → Rec K V) : Prop :=
  ∀ o, mem' o = mem o ∨ g.loc o = .free ∨ (∃ u, g.loc o = .priv u) ∨ g'.loc o = .free

theorem MemKeep.rfl {g g' : Gc.St} {mem : Obj → Rec K V} : MemKeep g g' mem mem :=
  fun _ => Or.inl (Eq.refl _)

theorem MemKeep.set {g g' : Gc.St} {mem : Obj → Rec K V} {x : Obj} {r : Rec K V}
    (h : g.loc x = .free ∨ (∃ u, g.loc x = .priv u) ∨ g'.loc x = .free) :
    MemKeep g g' mem (Gc.set mem x r) := by
  intro o
  by_cases e : o = x
  · subst e; exact Or.inr h
  · exact Or.inl (Gc.set_other _ _ e)

theorem MemKeep.eq {g g' : Gc.St} {mem mem' : Obj → Rec K V} (h : MemKeep g g' mem mem') {o : Obj}
    (h1 : ¬ Loose g o) (h2 : ¬ Loose g' o) : mem' o = mem o := by
  rcases h o with h | h | h | h
  · exact h
  · exact absurd (Or.inl h) h1
  · exact absurd (Or.inr (Or.inl h)) h1
  · exact absurd (Or.inl h) h2

/-- A head a thread holds. -/
def HdOk (P : PSt K V) (t : Nat) (c : Chain K V) (h : Obj) : Prop :=
  (∃ l, (h, l) ∈ P.gc.held t) ∧ Repr P.mem h c (P.gc.below h)

/-- A slot and the chain it stands for. -/
def SlotOk (P : PSt K V) (c : Chain K V) (h : Obj) : Prop :=
  Repr P.mem h c (P.gc.below h) ∧ P.gc.isMark h = c.isRemoved

/-- The memory stands for the mapping table `mt`, the threads hold what their frames say. -/
structure MInv (P : PSt K V) (mt : PID → Option (Chain K V)) : Prop where
  gcr : Gc.Reachable P.gc
  slot : ∀ p h, P.gc.slot p = some h → ∃ c, mt p = some c ∧ SlotOk P c h
  empty : ∀ p, P.gc.slot p = none → mt p = none
  hd : ∀ t p c h, (p, c, h) ∈ (P.fr t).hd → HdOk P t c h
  run : ∀ t, P.th t ≠ .idle → P.gc.guard t ≠ none
  idle : ∀ t, P.th t = .idle → P.gc.guard t = none ∧ P.fr t = .empty
  remNd : ∀ t, ((P.fr t).rems.map Prod.fst).Nodup
  rem : ∀ t p m, (p, m) ∈ (P.fr t).rems → ∃ mk y, P.gc.rem p = some ⟨t, mk, y⟩ ∧ P.mem y = .node m
  remIn : ∀ p r, P.gc.rem p = some r → ∃ m, (p, m) ∈ (P.fr r.t).rems
  new : ∀ t p, p ∈ (P.fr t).new → P.gc.slot p = none ∧ (p : Nat) < P.npid
  newNd : ∀ t, (P.fr t).new.Nodup
  newDisj : ∀ t u p, p ∈ (P.fr t).new → p ∈ (P.fr u).new → t = u
  fresh : ∀ p : Nat, (P.npid : Nat) ≤ p → P.gc.slot p = none
  cellFresh : ∀ w, P.ncell ≤ w → P.cellAt w = none
  cs : ∀ t w, w ∈ (P.fr t).cs → P.cellAt w = none ∧ w < P.ncell
  csNd : ∀ t, (P.fr t).cs.Nodup
  csDisj : ∀ t u w, w ∈ (P.fr t).cs → w ∈ (P.fr u).cs → t = u
  cellA : ∀ o d x w, ¬ Loose P.gc o → P.mem o = .delta d x → d.pay = .cell w → P.cellAt w = some o

section
variable {P P' : PSt K V} {mt mt' : PID → Option (Chain K V)}

theorem MInv.chain_loose (h : MInv P mt) {p : Nat} {x o : Obj} (hs : P.gc.slot p = some x)
    (ho : o ∈ P.gc.chain x) : ¬ Loose P.gc o :=
  fun hl => hl.not_pub p (h.gcr.inv.pub p x hs o ho)

theorem MInv.guard_hd (h : MInv P mt) {t : Nat} {x : PID × Chain K V × Obj}
    (hx : x ∈ (P.fr t).hd) : ∃ g, P.gc.guard t = some g := by
  have : P.th t ≠ .idle := by
    intro e
    rw [(h.idle t e).2] at hx
    cases hx
  cases e : P.gc.guard t with
  | none => exact absurd e (h.run t this)
  | some g => exact ⟨g, rfl⟩

theorem held_safe {g : Gc.St} (hr : Gc.Reachable g) {t n : Nat} (hg : g.guard t = some n) {h o : Obj}
    {l : List Obj} (hh : (h, l) ∈ g.held t) (ho : o ∈ g.chain h) : ¬ Loose g o :=
  fun hl => hl.not_safe ((hr.inv.held t n hg _ hh).2 o ho)

theorem HdOk.step (hr : Gc.Reachable P.gc) (hq : QStep P.gc P'.gc)
    (hm : MemKeep P.gc P'.gc P.mem P'.mem) {t n : Nat} (hg : P.gc.guard t = some n) {c : Chain K V}
    {x : Obj} (h : HdOk P t c x) : HdOk P' t c x := by
  obtain ⟨⟨l, hl⟩, hR⟩ := h
  have hl' := hq.held hl
  have hg' := (hq.guard t).trans hg
  have hr' := hq.reach hr
  have e : P'.gc.below x = P.gc.below x :=
    ((hr'.inv.held t n hg' _ hl').1).trans ((hr.inv.held t n hg _ hl).1).symm
  refine ⟨⟨l, hl'⟩, ?_⟩
  rw [e]
  refine hR.frame fun o ho => hm.eq (held_safe hr hg hl ho) (held_safe hr' hg' hl' ?_)
  show o ∈ x :: P'.gc.below x
  rw [e]
  exact ho

theorem SlotOk.step (hr : Gc.Reachable P.gc) (hq : QStep P.gc P'.gc)
    (hm : MemKeep P.gc P'.gc P.mem P'.mem) {p : Nat} {c : Chain K V} {x : Obj}
    (hs : P.gc.slot p = some x) (hs' : P'.gc.slot p = some x) (h : SlotOk P c x) :
    SlotOk P' c x := by
  have hr' := hq.reach hr
  have hl : ∀ o ∈ P.gc.chain x, ¬ Loose P.gc o :=
    fun o ho hl => hl.not_pub p (hr.inv.pub p x hs o ho)
  obtain ⟨e1, e2⟩ := hq.below hr.inv (hl x (by simp [Gc.St.chain]))
  refine ⟨?_, e2.trans h.2⟩
  rw [e1]
  refine h.1.frame fun o ho => hm.eq (hl o ho) fun hl => hl.not_pub p (hr'.inv.pub p x hs' o ?_)
  show o ∈ x :: P'.gc.below x
  rw [e1]
  exact ho

/-- Steps of thread `t` between beginning and end of its guard. -/
theorem MInv.step (h : MInv P mt) (t : Nat) (hq : QStep P.gc P'.gc)
    (hm : MemKeep P.gc P'.gc P.mem P'.mem)
    (hth : ∀ u, P'.th u = .idle ↔ P.th u = .idle)
    (hfr : ∀ u, u ≠ t → P'.fr u = P.fr u)
    (hidle : P.th t = .idle → P'.fr t = P.fr t)
    (hslot : ∀ p x, P'.gc.slot p = some x → (P.gc.slot p = some x ∧ mt' p = mt p) ∨
      ∃ c, mt' p = some c ∧ SlotOk P' c x)
    (hnone : ∀ p, P'.gc.slot p = none → P.gc.slot p = none ∧ mt' p = mt p)
    (hnew : ∀ p, P.gc.slot p = none → P'.gc.slot p = none ∨ p ∈ (P.fr t).new)
    (hhd : ∀ p c x, (p, c, x) ∈ (P'.fr t).hd → (p, c, x) ∈ (P.fr t).hd ∨ HdOk P' t c x)
    (hremNd : ((P'.fr t).rems.map Prod.fst).Nodup)
    (hrem : ∀ p m, (p, m) ∈ (P'.fr t).rems → ((p, m) ∈ (P.fr t).rems ∧ P'.gc.rem p = P.gc.rem p) ∨
      ∃ mk y, P'.gc.rem p = some ⟨t, mk, y⟩ ∧ P'.mem y = .node m)
    (hremo : ∀ p r, r.t ≠ t → (P.gc.rem p = some r ↔ P'.gc.rem p = some r))
    (hremIn : ∀ p r, r.t = t → P'.gc.rem p = some r → ∃ m, (p, m) ∈ (P'.fr t).rems)
    (hnew' : ∀ p, p ∈ (P'.fr t).new → (p ∈ (P.fr t).new ∨ (P.npid : Nat) ≤ p) ∧
      (p : Nat) < P'.npid ∧ P'.gc.slot p = none)
    (hnewNd : (P'.fr t).new.Nodup) (hnp : (P.npid : Nat) ≤ P'.npid)
    (hcs : ∀ w, w ∈ (P'.fr t).cs → (w ∈ (P.fr t).cs ∨ P.ncell ≤ w) ∧ w < P'.ncell ∧
      P'.cellAt w = none)
    (hcsNd : (P'.fr t).cs.Nodup) (hnc : P.ncell ≤ P'.ncell)
    (hcell : ∀ w, P'.cellAt w = P.cellAt w ∨ w ∈ (P.fr t).cs)
    (hobj : ∀ o, ¬ Loose P'.gc o → ¬ Loose P.gc o ∨
      ∀ d x w, P'.mem o = .delta d x → d.pay = .cell w → P'.cellAt w = some o) :
    MInv P' mt' := by
  have hr' := hq.reach h.gcr
  have hkeep : ∀ u p c x, (p, c, x) ∈ (P.fr u).hd → HdOk P' u c x := by
    intro u p c x hx
    obtain ⟨g, hg⟩ := h.guard_hd hx
    exact (h.hd u p c x hx).step h.gcr hq hm hg
  have hremk : ∀ u p m mk y, P.gc.rem p = some ⟨u, mk, y⟩ → P'.gc.rem p = some ⟨u, mk, y⟩ →
      P.mem y = .node m → P'.mem y = .node m := by
    intro u p m mk y h1 h2 h3
    have l1 := (h.gcr.inv.remSlot p _ h1).2.2
    have l2 := (hr'.inv.remSlot p _ h2).2.2
    rcases hm y with e | e | ⟨v, e⟩ | e
    · rw [e, h3]
    · rw [l1] at e; cases e
    · rw [l1] at e; cases e
    · rw [l2] at e; cases e
  have hcs0 : ∀ u w, u ≠ t → w ∈ (P.fr u).cs → P'.cellAt w = P.cellAt w := by
    intro u w hu hw
    rcases hcell w with e | e
    · exact e
    · exact absurd (h.csDisj u t w hw e) hu
  refine ⟨hr', ?_, ?_, ?_, ?_, ?_, ?_, ?_, ?_, ?_, ?_, ?_, ?_, ?_, ?_, ?_, ?_, ?_⟩
  · intro p x hx
    rcases hslot p x hx with ⟨h1, h2⟩ | h1
    · obtain ⟨c, e, hc⟩ := h.slot p x h1
      exact ⟨c, h2.trans e, hc.step h.gcr hq hm h1 hx⟩
    · exact h1
  · intro p hp
    obtain ⟨h1, h2⟩ := hnone p hp
    rw [h2]
    exact h.empty p h1
  · intro u p c x hx
    by_cases hu : u = t
    · subst hu
      rcases hhd p c x hx with h1 | h1
      · exact hkeep u p c x h1
      · exact h1
    · rw [hfr u hu] at hx
      exact hkeep u p c x hx
  · intro u hu
    rw [hq.guard]
    exact h.run u fun e => hu ((hth u).2 e)
  · intro u hu
    rw [hq.guard]
    have hu' := (hth u).1 hu
    obtain ⟨h1, h2⟩ := h.idle u hu'
    refine ⟨h1, ?_⟩
    by_cases e : u = t
    · subst e; rw [hidle hu']; exact h2
    · rw [hfr u e]; exact h2
  · intro u
    by_cases e : u = t
    · subst e; exact hremNd
    · rw [hfr u e]; exact h.remNd u
  · intro u p m hx
    by_cases e : u = t
    · subst e
      rcases hrem p m hx with ⟨h1, h2⟩ | h1
      · obtain ⟨mk, y, e1, e2⟩ := h.rem u p m h1
        exact ⟨mk, y, h2.trans e1, hremk u p m mk y e1 (h2.trans e1) e2⟩
      · exact h1
    · rw [hfr u e] at hx
      obtain ⟨mk, y, e1, e2⟩ := h.rem u p m hx
      have := (hremo p _ e).1 e1
      exact ⟨mk, y, this, hremk u p m mk y e1 this e2⟩
  · intro p r hp
    by_cases e : r.t = t
    · rw [e]
      exact hremIn p r e hp
    · obtain ⟨m, hm⟩ := h.remIn p r ((hremo p r e).2 hp)
      exact ⟨m, by rw [hfr _ e]; exact hm⟩
  · intro u p hp
    by_cases e : u = t
    · subst e
      obtain ⟨_, h2, h3⟩ := hnew' p hp
      exact ⟨h3, h2⟩
    · rw [hfr u e] at hp
      obtain ⟨h1, h2⟩ := h.new u p hp
      refine ⟨?_, Nat.lt_of_lt_of_le h2 hnp⟩
      rcases hnew p h1 with h3 | h3
      · exact h3
      · exact absurd (h.newDisj u t p hp h3) e
  · intro u
    by_cases e : u = t
    · subst e; exact hnewNd
    · rw [hfr u e]; exact h.newNd u
  · have half : ∀ u p, u ≠ t → p ∈ (P.fr u).new → p ∉ (P'.fr t).new := by
      intro u p hu hp hp'
      rcases (hnew' p hp').1 with h1 | h1
      · exact hu (h.newDisj u t p hp h1)
      · have := (h.new u p hp).2
        exact absurd this (Nat.not_lt.2 h1)
    intro u v p hu hv
    by_cases eu : u = t
    · by_cases ev : v = t
      · rw [eu, ev]
      · subst eu
        rw [hfr v ev] at hv
        exact absurd hu (half v p ev hv)
    · rw [hfr u eu] at hu
      by_cases ev : v = t
      · subst ev
        exact absurd hv (half u p eu hu)
      · rw [hfr v ev] at hv
        exact h.newDisj u v p hu hv
  · intro p hp
    have h1 := h.fresh p (Nat.le_trans hnp hp)
    rcases hnew p h1 with h2 | h2
    · exact h2
    · have := (h.new t p h2).2
      exact absurd this (Nat.not_lt.2 (Nat.le_trans hnp hp))
  · intro w hw
    have h1 := h.cellFresh w (Nat.le_trans hnc hw)
    rcases hcell w with h2 | h2
    · rw [h2]; exact h1
    · have := (h.cs t w h2).2
      exact absurd this (Nat.not_lt.2 (Nat.le_trans hnc hw))
  · intro u w hw
    by_cases e : u = t
    · subst e
      obtain ⟨_, h2, h3⟩ := hcs w hw
      exact ⟨h3, h2⟩
    · rw [hfr u e] at hw
      obtain ⟨h1, h2⟩ := h.cs u w hw
      exact ⟨(hcs0 u w e hw).trans h1, Nat.lt_of_lt_of_le h2 hnc⟩
  · intro u
    by_cases e : u = t
    · subst e; exact hcsNd
    · rw [hfr u e]; exact h.csNd u
  · have half : ∀ u p, u ≠ t → p ∈ (P.fr u).cs → p ∉ (P'.fr t).cs := by
      intro u p hu hp hp'
      rcases (hcs p hp').1 with h1 | h1
      · exact hu (h.csDisj u t p hp h1)
      · have := (h.cs u p hp).2
        exact absurd this (Nat.not_lt.2 h1)
    intro u v p hu hv
    by_cases eu : u = t
    · by_cases ev : v = t
      · rw [eu, ev]
      · subst eu
        rw [hfr v ev] at hv
        exact absurd hu (half v p ev hv)
    · rw [hfr u eu] at hu
      by_cases ev : v = t
      · subst ev
        exact absurd hv (half u p eu hu)
      · rw [hfr v ev] at hv
        exact h.csDisj u v p hu hv
  · intro o d x w ho hm' hw
    rcases hobj o ho with h1 | h1
    · have e := hm.eq h1 ho
      have := h.cellA o d x w h1 (e.symm.trans hm') hw
      rcases hcell w with h2 | h2
      · rw [h2]; exact this
      · rw [(h.cs t w h2).1] at this; cases this
    · exact h1 d x w hm' hw

/-- The frames do not change. -/
theorem MInv.gcStep (h : MInv P mt) (hq : QStep P.gc P'.gc)
    (hm : MemKeep P.gc P'.gc P.mem P'.mem) (hth : ∀ u, P'.th u = .idle ↔ P.th u = .idle)
    (hfr : P'.fr = P.fr) (hsl : P'.gc.slot = P.gc.slot) (hre : P'.gc.rem = P.gc.rem)
    (hnp : P'.npid = P.npid) (hnc : P'.ncell = P.ncell) (hca : P'.cellAt = P.cellAt)
    (hobj : ∀ o, ¬ Loose P'.gc o → ¬ Loose P.gc o) : MInv P' mt := by
  refine h.step 0 hq hm hth (fun u _ => by rw [hfr]) (fun _ => by rw [hfr]) ?_ ?_ ?_ ?_ ?_ ?_ ?_ ?_ ?_
    ?_ ?_ ?_ ?_ ?_ ?_ ?_
  · intro p x hx; rw [hsl] at hx; exact Or.inl ⟨hx, rfl⟩
  · intro p hp; rw [hsl] at hp; exact ⟨hp, rfl⟩
  · intro p hp; rw [hsl]; exact Or.inl hp
  · intro p c x hx; rw [hfr] at hx; exact Or.inl hx
  · rw [hfr]; exact h.remNd 0
  · intro p m hx; rw [hfr] at hx; rw [hre]; exact Or.inl ⟨hx, rfl⟩
  · intro p r _; rw [hre]
  · intro p r hr hp
    rw [hre] at hp
    rw [hfr, ← hr]
    exact h.remIn p r hp
  · intro p hp
    rw [hfr] at hp
    rw [hsl, hnp]
    exact ⟨Or.inl hp, (h.new 0 p hp).2, (h.new 0 p hp).1⟩
  · rw [hfr]; exact h.newNd 0
  · rw [hnp]
  · intro w hw
    rw [hfr] at hw
    rw [hca, hnc]
    exact ⟨Or.inl hw, (h.cs 0 w hw).2, (h.cs 0 w hw).1⟩
  · rw [hfr]; exact h.csNd 0
  · rw [hnc]
  · intro w; rw [hca]; exact Or.inl rfl
  · intro o ho; exact Or.inl (hobj o ho)

end

end BwTree.Mem
