import Verif.Gc.Model

/-!
# Life of objects: invariant
-/

namespace BwTree.Gc

/-- An object a thread that took its guard at time `g` may still read. -/
def Safe (s : St) (g : Nat) (o : Obj) : Prop :=
  (∃ p, s.loc o = .pub p) ∨ (∃ t, s.loc o = .pend t) ∨ ∃ r, s.loc o = .retired r ∧ g ≤ r

structure Inv (s : St) : Prop where
  /-- the objects of a chain belong to its page -/
  pub : ∀ p h, s.slot p = some h → ∀ o ∈ s.chain h, s.loc o = .pub p
  nodup : ∀ p h, s.slot p = some h → (s.chain h).Nodup
  pubIn : ∀ o p, s.loc o = .pub p → ∃ h, s.slot p = some h ∧ o ∈ s.chain h
  todo : ∀ t o, o ∈ s.todo t ↔ s.loc o = .pend t
  todoNodup : ∀ t, (s.todo t).Nodup
  remSlot : ∀ p r, s.rem p = some r → s.slot p = some r.mark ∧ s.isMark r.mark = true ∧
    s.loc r.node = .rem p
  remIn : ∀ o p, s.loc o = .rem p → ∃ r, s.rem p = some r ∧ r.node = o
  remGuard : ∀ p r, s.rem p = some r → s.guard r.t ≠ none
  markBelow : ∀ p h, s.slot p = some h → s.isMark h = true → s.below h = []
  held : ∀ t g, s.guard t = some g → ∀ x ∈ s.held t, s.below x.1 = x.2 ∧
    ∀ o ∈ s.chain x.1, Safe s g o
  guardTime : ∀ t g, s.guard t = some g → g ≤ s.time
  cnt1 : ∀ o r, s.loc o = .retired r → s.cnt o = 1 ∧ r < s.time
  cnt0 : ∀ o, (∀ r, s.loc o ≠ .retired r) → s.loc o ≠ .free → s.cnt o = 0

theorem Inv.init : Inv init := by
  constructor <;> simp [Gc.init]

@[simp] theorem set_same {α : Type} (f : Nat → α) (i : Nat) (x : α) : set f i x i = x := by
  simp [set]

theorem set_other {α : Type} (f : Nat → α) {i j : Nat} (x : α) (h : j ≠ i) : set f i x j = f j := by
  simp [set, h]

section
variable {s : St}

/-- A step that changes no object keeps the invariant. -/
theorem Inv.enter (h : Inv s) {t : Nat} (hp : Pre s (.enter t)) : Inv (eff s (.enter t)) where
  pub := h.pub
  nodup := h.nodup
  pubIn := h.pubIn
  todo := h.todo
  todoNodup := h.todoNodup
  remSlot := h.remSlot
  remIn := h.remIn
  remGuard := by
    intro p r hr
    have := h.remGuard p r hr
    show set s.guard t (some s.time) r.t ≠ none
    by_cases e : r.t = t
    · rw [e, set_same]; simp
    · rwa [set_other _ _ e]
  markBelow := h.markBelow
  held := by
    intro u g hg x hx
    by_cases e : u = t
    · subst e
      simp [eff] at hx
    · have hg' : s.guard u = some g := by simpa [eff, set_other _ _ e] using hg
      have hx' : x ∈ s.held u := by simpa [eff, set_other _ _ e] using hx
      exact h.held u g hg' x hx'
  guardTime := by
    intro u g hg
    by_cases e : u = t
    · subst e
      have : some s.time = some g := by simpa [eff] using hg
      exact Nat.le_of_eq (Option.some.inj this).symm
    · exact h.guardTime u g (by simpa [eff, set_other _ _ e] using hg)
  cnt1 := h.cnt1
  cnt0 := h.cnt0

theorem Inv.leave (h : Inv s) {t : Nat} (hp : Pre s (.leave t)) : Inv (eff s (.leave t)) where
  pub := h.pub
  nodup := h.nodup
  pubIn := h.pubIn
  todo := h.todo
  todoNodup := h.todoNodup
  remSlot := h.remSlot
  remIn := h.remIn
  remGuard := by
    intro p r hr
    show set s.guard t none r.t ≠ none
    rw [set_other _ _ (hp.2.2 p r hr)]
    exact h.remGuard p r hr
  markBelow := h.markBelow
  held := by
    intro u g hg x hx
    by_cases e : u = t
    · subst e
      simp [eff] at hx
    · have hg' : s.guard u = some g := by simpa [eff, set_other _ _ e] using hg
      have hx' : x ∈ s.held u := by simpa [eff, set_other _ _ e] using hx
      exact h.held u g hg' x hx'
  guardTime := by
    intro u g hg
    by_cases e : u = t
    · subst e
      simp [eff] at hg
    · exact h.guardTime u g (by simpa [eff, set_other _ _ e] using hg)
  cnt1 := h.cnt1
  cnt0 := h.cnt0

/-- Objects in chains of the table or behind held pointers are neither free nor private nor nodes of
removals. -/
theorem Inv.chain_ne (h : Inv s) {p : Nat} {x o : Obj} (hs : s.slot p = some x)
    (ho : ∀ q, s.loc o ≠ .pub q) : o ∉ s.chain x := fun hm => ho p (h.pub p x hs o hm)

theorem Safe.ne {g : Nat} {o o' : Obj} (h : Safe s g o)
    (ho : s.loc o' = .free ∨ (∃ t, s.loc o' = .priv t) ∨ ∃ p, s.loc o' = .rem p) : o ≠ o' := by
  rintro rfl
  rcases h with ⟨_, h⟩ | ⟨_, h⟩ | ⟨_, h, _⟩ <;> rcases ho with h' | ⟨_, h'⟩ | ⟨_, h'⟩ <;>
    rw [h] at h' <;> cases h'

/-! ### Parts of steps -/

/-- Page `p` is emptied by thread `t`. -/
def takeOut (s : St) (t p : Nat) (x : Obj) : St := { s with
  slot := set s.slot p none, loc := move s.loc (s.chain x) (.pend t),
  todo := set s.todo t (s.chain x ++ s.todo t) }

theorem move_in {loc : Obj → Loc} {l : List Obj} {x : Loc} {o : Obj} (h : o ∈ l) :
    move loc l x o = x := by simp [move, h]

theorem move_out {loc : Obj → Loc} {l : List Obj} {x : Loc} {o : Obj} (h : o ∉ l) :
    move loc l x o = loc o := by simp [move, h]

theorem Inv.takeOut (h : Inv s) {t p : Nat} {x : Obj} (hs : s.slot p = some x)
    (hr : s.rem p = none) : Inv (takeOut s t p x) := by
  have hin : ∀ o, o ∈ s.chain x → s.loc o = .pub p := h.pub p x hs
  have hother : ∀ q y, q ≠ p → s.slot q = some y → ∀ o ∈ s.chain y, o ∉ s.chain x := by
    intro q y hq hy o ho hx
    have := (h.pub q y hy o ho).symm.trans (hin o hx)
    exact hq (by injection this)
  have hslot : ∀ q y, (Gc.takeOut s t p x).slot q = some y → q ≠ p ∧ s.slot q = some y := by
    intro q y hy
    by_cases e : q = p
    · subst e; simp [Gc.takeOut] at hy
    · exact ⟨e, by simpa [Gc.takeOut, set_other _ _ e] using hy⟩
  refine ⟨?_, ?_, ?_, ?_, ?_, ?_, ?_, h.remGuard, ?_, ?_, h.guardTime, ?_, ?_⟩
  · intro q y hy o ho
    obtain ⟨e, hy⟩ := hslot q y hy
    have := hother q y e hy o ho
    show move _ _ _ _ = _
    rw [move_out this]
    exact h.pub q y hy o ho
  · intro q y hy
    exact h.nodup q y (hslot q y hy).2
  · intro o q ho
    by_cases hx : o ∈ s.chain x
    · have : Loc.pend t = .pub q := (move_in hx).symm.trans ho
      cases this
    · have ho' : s.loc o = .pub q := (move_out hx).symm.trans ho
      obtain ⟨y, h1, h2⟩ := h.pubIn o q ho'
      refine ⟨y, ?_, h2⟩
      show set s.slot p none q = _
      rw [set_other]
      · exact h1
      · rintro rfl
        rw [hs] at h1
        cases h1
        exact hx h2
  · intro u o
    show o ∈ set s.todo t (s.chain x ++ s.todo t) u ↔ move _ _ _ _ = _
    by_cases hx : o ∈ s.chain x
    · rw [move_in hx]
      by_cases e : u = t
      · subst e; simp [hx]
      · rw [set_other _ _ e, h.todo, hin o hx]
        simp [Ne.symm e]
    · rw [move_out hx]
      by_cases e : u = t
      · subst e; simp [hx, h.todo]
      · rw [set_other _ _ e, h.todo]
  · intro u
    show (set s.todo t (s.chain x ++ s.todo t) u).Nodup
    by_cases e : u = t
    · subst e
      rw [set_same, List.nodup_append]
      refine ⟨h.nodup p x hs, h.todoNodup u, ?_⟩
      rintro a ha b hb rfl
      have := ((h.todo u a).1 hb).symm.trans (hin a ha)
      cases this
    · rw [set_other _ _ e]; exact h.todoNodup u
  · intro q r hq
    obtain ⟨h1, h2, h3⟩ := h.remSlot q r hq
    have e : q ≠ p := by
      rintro rfl
      have : s.rem q = some r := hq
      rw [hr] at this
      cases this
    refine ⟨by show set s.slot p none q = _; rw [set_other _ _ e]; exact h1, h2, ?_⟩
    show move _ _ _ _ = _
    rw [move_out]
    · exact h3
    · intro hm
      have := h3.symm.trans (hin _ hm)
      cases this
  · intro o q ho
    by_cases hx : o ∈ s.chain x
    · have : Loc.pend t = .rem q := (move_in hx).symm.trans ho
      cases this
    · exact h.remIn o q ((move_out hx).symm.trans ho)
  · intro q y hy
    exact h.markBelow q y (hslot q y hy).2
  · intro u g hg y hy
    obtain ⟨h1, h2⟩ := h.held u g hg y hy
    refine ⟨h1, fun o ho => ?_⟩
    by_cases hx : o ∈ s.chain x
    · exact Or.inr (Or.inl ⟨t, move_in hx⟩)
    · have := h2 o ho
      unfold Safe at this ⊢
      rw [show (Gc.takeOut s t p x).loc o = s.loc o from move_out hx]
      exact this
  · intro o r ho
    by_cases hx : o ∈ s.chain x
    · have : Loc.pend t = .retired r := (move_in hx).symm.trans ho
      cases this
    · exact h.cnt1 o r ((move_out hx).symm.trans ho)
  · intro o h1 h2
    by_cases hx : o ∈ s.chain x
    · exact h.cnt0 o (by rw [hin o hx]; simp) (by rw [hin o hx]; simp)
    · have e : (Gc.takeOut s t p x).loc o = s.loc o := move_out hx
      rw [e] at h2
      exact h.cnt0 o (fun r => by rw [← e]; exact h1 r) h2

/-- In no chain, not held by a guarded thread, not waiting for the collector. -/
def Loose (s : St) (o : Obj) : Prop :=
  s.loc o = .free ∨ (∃ t, s.loc o = .priv t) ∨ ∃ p, s.loc o = .rem p

theorem Loose.not_pub {o : Obj} (h : Loose s o) (p : Nat) : s.loc o ≠ .pub p := by
  rcases h with h | ⟨_, h⟩ | ⟨_, h⟩ <;> rw [h] <;> simp

theorem Loose.not_pend {o : Obj} (h : Loose s o) (p : Nat) : s.loc o ≠ .pend p := by
  rcases h with h | ⟨_, h⟩ | ⟨_, h⟩ <;> rw [h] <;> simp

theorem Loose.not_retired {o : Obj} (h : Loose s o) (p : Nat) : s.loc o ≠ .retired p := by
  rcases h with h | ⟨_, h⟩ | ⟨_, h⟩ <;> rw [h] <;> simp

theorem Loose.not_safe {g : Nat} {o : Obj} (h : Loose s o) : ¬ Safe s g o := fun hs =>
  Safe.ne hs h rfl

/-- Chains do not depend on the contents of loose objects. -/
theorem Inv.below_set (h : Inv s) {o : Obj} (ho : Loose s o) {p : Nat} {x : Obj}
    (hs : s.slot p = some x) (l : List Obj) : set s.below o l x = s.below x := by
  rw [set_other]
  rintro rfl
  exact ho.not_pub p (h.pub p x hs x (by simp [St.chain]))

/-- One object is changed. -/
def touch (s : St) (o : Obj) (x : Loc) (c : Nat) (b : Bool) (l : List Obj) : St := { s with
  loc := set s.loc o x, cnt := set s.cnt o c, isMark := set s.isMark o b,
  below := set s.below o l }

/-- Changes of a loose object that stays loose. -/
theorem Inv.loose (h : Inv s) {o : Obj} {x : Loc} {c : Nat} {b : Bool} {l : List Obj}
    (ho : s.loc o = .free ∨ ∃ t, s.loc o = .priv t)
    (hx : x = .free ∨ ∃ t, x = .priv t ∧ c = 0) : Inv (touch s o x c b l) := by
  have hl : Loose s o := by
    rcases ho with h | h
    · exact Or.inl h
    · exact Or.inr (Or.inl h)
  have hne : ∀ q y, s.slot q = some y → ∀ z ∈ s.chain y, z ≠ o := by
    rintro q y hy z hz rfl
    exact hl.not_pub q (h.pub q y hy z hz)
  have hch : ∀ q y, s.slot q = some y →
      (touch s o x c b l).chain y = s.chain y := by
    intro q y hy
    show y :: set s.below o l y = _
    rw [h.below_set hl hy]
    rfl
  have hxl : ∀ q, x ≠ .pub q ∧ x ≠ .pend q ∧ x ≠ .retired q ∧ x ≠ .rem q := by
    intro q
    rcases hx with rfl | ⟨t, rfl, _⟩ <;> simp
  have hloc : ∀ z, z ≠ o → set s.loc o x z = s.loc z := fun z hz => set_other _ _ hz
  have hor : ∀ q, s.loc o ≠ .rem q := by
    intro q
    rcases ho with h | ⟨_, h⟩ <;> rw [h] <;> simp
  refine ⟨?_, ?_, ?_, ?_, h.todoNodup, ?_, ?_, h.remGuard, ?_, ?_, h.guardTime, ?_, ?_⟩
  · intro q y hy z hz
    rw [hch q y hy] at hz
    show set s.loc o x z = _
    rw [hloc z (hne q y hy z hz)]
    exact h.pub q y hy z hz
  · intro q y hy
    rw [hch q y hy]
    exact h.nodup q y hy
  · intro z q hz
    have hzo : z ≠ o := by
      rintro rfl
      have : x = .pub q := (set_same s.loc z x).symm.trans hz
      exact (hxl q).1 this
    obtain ⟨y, h1, h2⟩ := h.pubIn z q ((hloc z hzo).symm.trans hz)
    exact ⟨y, h1, by rw [hch q y h1]; exact h2⟩
  · intro u z
    show z ∈ s.todo u ↔ set s.loc o x z = _
    by_cases e : z = o
    · subst e
      rw [h.todo, set_same]
      exact ⟨fun hh => absurd hh (hl.not_pend u), fun hh => absurd hh (hxl u).2.1⟩
    · rw [hloc z e, h.todo]
  · intro q r hq
    obtain ⟨h1, h2, h3⟩ := h.remSlot q r hq
    refine ⟨h1, ?_, ?_⟩
    · show set s.isMark o b r.mark = true
      rw [set_other]
      · exact h2
      · exact hne q r.mark h1 r.mark (by simp [St.chain])
    · show set s.loc o x r.node = _
      rw [hloc]
      · exact h3
      · rintro rfl
        exact hor q h3
  · intro z q hz
    have hzo : z ≠ o := by
      rintro rfl
      have : x = .rem q := (set_same s.loc z x).symm.trans hz
      exact (hxl q).2.2.2 this
    exact h.remIn z q ((hloc z hzo).symm.trans hz)
  · intro q y hy hm
    show set s.below o l y = []
    rw [h.below_set hl hy]
    refine h.markBelow q y hy ?_
    have : y ≠ o := hne q y hy y (by simp [St.chain])
    exact (set_other s.isMark b this).symm.trans hm
  · intro u g hg y hy
    obtain ⟨h1, h2⟩ := h.held u g hg y hy
    have hyo : y.1 ≠ o := by
      intro e
      have := h2 y.1 (by simp [St.chain])
      rw [e] at this
      exact hl.not_safe this
    refine ⟨(set_other s.below l hyo).trans h1, fun z hz => ?_⟩
    have hz' : z ∈ s.chain y.1 := by
      have : (touch s o x c b l).chain y.1 = s.chain y.1 := by
        show y.1 :: set s.below o l y.1 = _
        rw [set_other _ _ hyo]
        rfl
      rwa [this] at hz
    have hzo : z ≠ o := by
      rintro rfl
      exact hl.not_safe (h2 z hz')
    have := h2 z hz'
    unfold Safe at this ⊢
    show (∃ p, set s.loc o x z = _) ∨ (∃ t, set s.loc o x z = _) ∨ ∃ r, set s.loc o x z = _ ∧ _
    rw [hloc z hzo]
    exact this
  · intro z r hz
    have hzo : z ≠ o := by
      rintro rfl
      have : x = .retired r := (set_same s.loc z x).symm.trans hz
      exact (hxl r).2.2.1 this
    show set s.cnt o c z = 1 ∧ _
    rw [set_other _ _ hzo]
    exact h.cnt1 z r ((hloc z hzo).symm.trans hz)
  · intro z h1 h2
    show set s.cnt o c z = 0
    by_cases e : z = o
    · subst e
      rw [set_same]
      rcases hx with rfl | ⟨t, rfl, hc⟩
      · exact absurd (set_same s.loc z _) h2
      · exact hc
    · rw [set_other _ _ e]
      have e2 : set s.loc o x z = s.loc z := hloc z e
      exact h.cnt0 z (fun r => by rw [← e2]; exact h1 r) (by rw [← e2]; exact h2)

theorem set_self {α : Type} (f : Nat → α) (i : Nat) : set f i (f i) = f := by
  funext j
  by_cases e : j = i
  · subst e; simp
  · rw [set_other _ _ e]

theorem Inv.alloc (h : Inv s) {t : Nat} {o : Obj} (hp : Pre s (.alloc t o)) :
    Inv (eff s (.alloc t o)) := by
  have := h.loose (o := o) (x := .priv t) (c := 0) (b := s.isMark o) (l := s.below o) (Or.inl hp)
    (Or.inr ⟨t, rfl, rfl⟩)
  rw [touch, set_self, set_self] at this
  exact this

theorem Inv.release (h : Inv s) {t : Nat} {o : Obj} (hp : Pre s (.release t o)) :
    Inv (eff s (.release t o)) := by
  have := h.loose (o := o) (x := .free) (c := s.cnt o) (b := s.isMark o) (l := s.below o)
    (Or.inr ⟨t, hp⟩) (Or.inl rfl)
  rw [touch, set_self, set_self, set_self] at this
  exact this

/-- A private object is made a remove-node delta or another object. -/
theorem Inv.setMark (h : Inv s) {t : Nat} {o : Obj} (hp : s.loc o = .priv t) (b : Bool) :
    Inv { s with isMark := set s.isMark o b } := by
  have := h.loose (o := o) (x := s.loc o) (c := s.cnt o) (b := b) (l := s.below o)
    (Or.inr ⟨t, hp⟩) (Or.inr ⟨t, hp, h.cnt0 o (by rw [hp]; simp) (by rw [hp]; simp)⟩)
  rw [touch, set_self, set_self, set_self] at this
  exact this

/-- What is reached from page `p`. -/
def St.onPage (s : St) (p : Nat) : List Obj :=
  match s.slot p with
  | none => []
  | some x => s.chain x

theorem Inv.onPage (h : Inv s) {p : Nat} : ∀ o ∈ s.onPage p, s.loc o = .pub p := by
  intro o ho
  unfold St.onPage at ho
  split at ho
  · cases ho
  · next x hx => exact h.pub p x hx o ho

theorem Inv.onPage_nodup (h : Inv s) {p : Nat} : (s.onPage p).Nodup := by
  unfold St.onPage
  split
  · simp
  · next x hx => exact h.nodup p x hx

/-- Private objects `d` and `e` are put on page `p`. -/
def putOn (s : St) (p : Nat) (d : Obj) (e : List Obj) : St := { s with
  below := set s.below d (e ++ s.onPage p), slot := set s.slot p (some d),
  loc := move s.loc (d :: e) (.pub p) }

theorem Inv.putOn (h : Inv s) {p : Nat} {d : Obj} {e : List Obj}
    (hd : ∃ t, s.loc d = .priv t) (he : ∀ o ∈ e, ∃ t, s.loc o = .priv t) (hn : (d :: e).Nodup)
    (hm : ∀ x, s.slot p = some x → s.isMark x = false)
    (hdm : s.isMark d = true → e ++ s.onPage p = []) : Inv (putOn s p d e) := by
  have hpriv : ∀ o ∈ d :: e, ∃ t, s.loc o = .priv t := by
    intro o ho
    rcases List.mem_cons.1 ho with rfl | ho
    · exact hd
    · exact he o ho
  have hl : ∀ o ∈ d :: e, Loose s o := fun o ho => Or.inr (Or.inl (hpriv o ho))
  have hdl : Loose s d := hl d (by simp)
  have hloc : ∀ o, o ∉ d :: e → (Gc.putOn s p d e).loc o = s.loc o := fun o ho => move_out ho
  have hloc' : ∀ o, o ∈ d :: e → (Gc.putOn s p d e).loc o = .pub p := fun o ho => move_in ho
  have hslot : ∀ q, q ≠ p → (Gc.putOn s p d e).slot q = s.slot q := fun q hq => set_other _ _ hq
  have hslotp : (Gc.putOn s p d e).slot p = some d := set_same _ _ _
  have hchd : (Gc.putOn s p d e).chain d = d :: (e ++ s.onPage p) := by
    show d :: set s.below d _ d = _
    rw [set_same]
  have hch : ∀ x, x ≠ d → (Gc.putOn s p d e).chain x = s.chain x := by
    intro x hx
    show x :: set s.below d _ x = _
    rw [set_other _ _ hx]
    rfl
  have hne : ∀ q y, s.slot q = some y → y ≠ d := by
    rintro q y hy rfl
    exact hdl.not_pub q (h.pub q y hy y (by simp [St.chain]))
  have hrem : s.rem p = none := by
    cases hr : s.rem p with
    | none => rfl
    | some r =>
      obtain ⟨h1, h2, _⟩ := h.remSlot p r hr
      rw [hm _ h1] at h2
      cases h2
  refine ⟨?_, ?_, ?_, ?_, h.todoNodup, ?_, ?_, h.remGuard, ?_, ?_, h.guardTime, ?_, ?_⟩
  · intro q y hy z hz
    by_cases eq : q = p
    · subst eq
      rw [hslotp] at hy
      cases hy
      rw [hchd] at hz
      by_cases hze : z ∈ d :: e
      · exact hloc' z hze
      · rw [hloc z hze]
        refine h.onPage z ?_
        simp only [List.mem_cons, List.mem_append] at hz hze
        tauto
    · rw [hslot q eq] at hy
      rw [hch y (hne q y hy)] at hz
      have := h.pub q y hy z hz
      rw [hloc z (fun hh => (hl z hh).not_pub q this)]
      exact this
  · intro q y hy
    by_cases eq : q = p
    · subst eq
      rw [hslotp] at hy
      cases hy
      rw [hchd, ← List.cons_append, List.nodup_append]
      refine ⟨hn, h.onPage_nodup, ?_⟩
      rintro a ha b hb rfl
      exact (hl a ha).not_pub q (h.onPage a hb)
    · rw [hslot q eq] at hy
      rw [hch y (hne q y hy)]
      exact h.nodup q y hy
  · intro z q hz
    by_cases hze : z ∈ d :: e
    · rw [hloc' z hze] at hz
      cases hz
      refine ⟨d, hslotp, ?_⟩
      rw [hchd]
      simp only [List.mem_cons, List.mem_append] at hze ⊢
      tauto
    · rw [hloc z hze] at hz
      obtain ⟨y, h1, h2⟩ := h.pubIn z q hz
      by_cases eq : q = p
      · subst eq
        refine ⟨d, hslotp, ?_⟩
        rw [hchd]
        have : z ∈ s.onPage q := by
          unfold St.onPage
          rw [h1]
          exact h2
        simp [this]
      · exact ⟨y, by rw [hslot q eq]; exact h1, by rw [hch y (hne q y h1)]; exact h2⟩
  · intro u z
    show z ∈ s.todo u ↔ _
    rw [h.todo]
    by_cases hze : z ∈ d :: e
    · rw [hloc' z hze]
      exact ⟨fun hh => absurd hh ((hl z hze).not_pend u), fun hh => by cases hh⟩
    · rw [hloc z hze]
  · intro q r hq
    have hq' : s.rem q = some r := hq
    obtain ⟨h1, h2, h3⟩ := h.remSlot q r hq'
    have eq : q ≠ p := by
      rintro rfl
      rw [hrem] at hq'
      cases hq'
    refine ⟨by rw [hslot q eq]; exact h1, h2, ?_⟩
    rw [hloc]
    · exact h3
    · intro hh
      obtain ⟨t, ht⟩ := hpriv _ hh
      rw [h3] at ht
      cases ht
  · intro z q hz
    by_cases hze : z ∈ d :: e
    · rw [hloc' z hze] at hz
      cases hz
    · rw [hloc z hze] at hz
      exact h.remIn z q hz
  · intro q y hy hmk
    by_cases eq : q = p
    · subst eq
      rw [hslotp] at hy
      cases hy
      show set s.below d _ d = []
      rw [set_same]
      exact hdm hmk
    · rw [hslot q eq] at hy
      show set s.below d _ y = []
      rw [set_other _ _ (hne q y hy)]
      exact h.markBelow q y hy hmk
  · intro u g hg y hy
    obtain ⟨h1, h2⟩ := h.held u g hg y hy
    have hyd : y.1 ≠ d := by
      intro e'
      have := h2 y.1 (by simp [St.chain])
      rw [e'] at this
      exact hdl.not_safe this
    refine ⟨(set_other s.below _ hyd).trans h1, fun z hz => ?_⟩
    rw [hch y.1 hyd] at hz
    have hzs := h2 z hz
    have hze : z ∉ d :: e := fun hh => (hl z hh).not_safe hzs
    unfold Safe at hzs ⊢
    rw [hloc z hze]
    exact hzs
  · intro z r hz
    by_cases hze : z ∈ d :: e
    · rw [hloc' z hze] at hz
      cases hz
    · rw [hloc z hze] at hz
      exact h.cnt1 z r hz
  · intro z h1 h2
    by_cases hze : z ∈ d :: e
    · obtain ⟨t, ht⟩ := hpriv z hze
      exact h.cnt0 z (by rw [ht]; simp) (by rw [ht]; simp)
    · rw [hloc z hze] at h2
      exact h.cnt0 z (fun r => by rw [← hloc z hze]; exact h1 r) h2

/-- A thread keeps a pointer to the head of page `p`. -/
theorem Inv.hold (h : Inv s) {t p : Nat} {x : Obj} {l : List Obj} (hs : s.slot p = some x)
    (hl : l = s.below x) : Inv { s with held := set s.held t ((x, l) :: s.held t) } := by
  refine ⟨h.pub, h.nodup, h.pubIn, h.todo, h.todoNodup, h.remSlot, h.remIn, h.remGuard, h.markBelow,
    ?_, h.guardTime, h.cnt1, h.cnt0⟩
  intro u g hg y hy
  by_cases e : u = t
  · subst e
    have hy' : y = (x, l) ∨ y ∈ s.held u := by simpa using hy
    rcases hy' with rfl | hy'
    · exact ⟨hl.symm, fun o ho => Or.inl ⟨p, h.pub p x hs o ho⟩⟩
    · exact h.held u g hg y hy'
  · exact h.held u g hg y (by simpa [set_other _ _ e] using hy)

/-- The location of one object is changed. -/
def relabel (s : St) (o : Obj) (x : Loc) (R : Nat → Option Removal) (T : Nat → List Obj)
    (C : Obj → Nat) (tm : Nat) : St :=
  { s with loc := set s.loc o x, rem := R, todo := T, cnt := C, time := tm }

/-- What has to be checked when an object outside the table changes its location. -/
theorem Inv.relabel (h : Inv s) {o : Obj} {x : Loc} {R : Nat → Option Removal}
    {T : Nat → List Obj} {C : Obj → Nat} {tm : Nat}
    (ho : ∀ p, s.loc o ≠ .pub p) (hx : ∀ p, x ≠ .pub p)
    (hT : ∀ t z, z ∈ T t ↔ set s.loc o x z = .pend t) (hTn : ∀ t, (T t).Nodup)
    (hR : ∀ p r, R p = some r → s.slot p = some r.mark ∧ s.isMark r.mark = true ∧
      set s.loc o x r.node = .rem p)
    (hRi : ∀ z p, set s.loc o x z = .rem p → ∃ r, R p = some r ∧ r.node = z)
    (hRg : ∀ p r, R p = some r → s.guard r.t ≠ none)
    (hS : ∀ t g, s.guard t = some g → Safe s g o →
      (∃ t, x = .pend t) ∨ ∃ r, x = .retired r ∧ g ≤ r)
    (htm : s.time ≤ tm)
    (hC1 : ∀ z r, set s.loc o x z = .retired r → C z = 1 ∧ r < tm)
    (hC0 : ∀ z, (∀ r, set s.loc o x z ≠ .retired r) → set s.loc o x z ≠ .free → C z = 0) :
    Inv (relabel s o x R T C tm) := by
  have hloc : ∀ z, z ≠ o → (Gc.relabel s o x R T C tm).loc z = s.loc z := fun z hz => set_other _ _ hz
  have hloc' : (Gc.relabel s o x R T C tm).loc o = x := set_same _ _ _
  refine ⟨?_, h.nodup, ?_, hT, hTn, hR, hRi, hRg, h.markBelow, ?_, ?_, hC1, hC0⟩
  · intro q y hy z hz
    have := h.pub q y hy z hz
    rw [hloc z (by rintro rfl; exact ho q this)]
    exact this
  · intro z q hz
    have hzo : z ≠ o := by
      rintro rfl
      exact hx q (hloc'.symm.trans hz)
    exact h.pubIn z q ((hloc z hzo).symm.trans hz)
  · intro u g hg y hy
    obtain ⟨h1, h2⟩ := h.held u g hg y hy
    refine ⟨h1, fun z hz => ?_⟩
    have hzs := h2 z hz
    by_cases e : z = o
    · subst e
      unfold Safe
      rw [hloc']
      exact Or.inr (hS u g hg hzs)
    · unfold Safe at hzs ⊢
      rw [hloc z e]
      exact hzs
  · intro u g hg
    exact Nat.le_trans (h.guardTime u g hg) htm

/-- A removal begins: the node of thread `t` is set aside. -/
theorem Inv.beginRem (h : Inv s) {t p : Nat} {m n : Obj} (hs : s.slot p = some m)
    (hm : s.isMark m = true) (hn : s.loc n = .priv t) (hr : s.rem p = none)
    (hg : s.guard t ≠ none) :
    Inv { s with loc := set s.loc n (.rem p), rem := set s.rem p (some ⟨t, m, n⟩) } := by
  have hl : Loose s n := Or.inr (Or.inl ⟨t, hn⟩)
  refine h.relabel (o := n) (x := .rem p) (R := set s.rem p (some ⟨t, m, n⟩)) (T := s.todo)
    (C := s.cnt) (tm := s.time) hl.not_pub (by simp) ?_ h.todoNodup ?_ ?_ ?_ ?_ (Nat.le_refl _) ?_ ?_
  · intro u z
    rw [h.todo]
    by_cases e : z = n
    · subst e; simp [hn]
    · rw [set_other _ _ e]
  · intro q r hq
    by_cases e : q = p
    · subst e
      rw [set_same] at hq
      cases hq
      exact ⟨hs, hm, set_same _ _ _⟩
    · rw [set_other _ _ e] at hq
      obtain ⟨h1, h2, h3⟩ := h.remSlot q r hq
      refine ⟨h1, h2, ?_⟩
      rw [set_other]
      · exact h3
      · intro e'
        rw [e', hn] at h3
        cases h3
  · intro z q hz
    by_cases e : z = n
    · subst e
      rw [set_same] at hz
      cases hz
      exact ⟨_, set_same _ _ _, rfl⟩
    · rw [set_other _ _ e] at hz
      obtain ⟨r, h1, h2⟩ := h.remIn z q hz
      refine ⟨r, ?_, h2⟩
      rw [set_other]
      · exact h1
      · rintro rfl
        rw [hr] at h1
        cases h1
  · intro q r hq
    by_cases e : q = p
    · subst e
      rw [set_same] at hq
      cases hq
      exact hg
    · rw [set_other _ _ e] at hq
      exact h.remGuard q r hq
  · intro u g _ hs
    exact absurd hs hl.not_safe
  · intro z r hz
    by_cases e : z = n
    · subst e; rw [set_same] at hz; cases hz
    · rw [set_other _ _ e] at hz
      exact h.cnt1 z r hz
  · intro z h1 h2
    by_cases e : z = n
    · subst e
      exact h.cnt0 z (by rw [hn]; simp) (by rw [hn]; simp)
    · rw [set_other _ _ e] at h2
      exact h.cnt0 z (fun r => by have := h1 r; rwa [set_other _ _ e] at this) h2

/-- A removal ends: the node is the thread's own. -/
theorem Inv.endRem (h : Inv s) {t p : Nat} {m n : Obj} (hr : s.rem p = some ⟨t, m, n⟩) :
    Inv { s with loc := set s.loc n (.priv t), rem := set s.rem p none } := by
  have hn : s.loc n = .rem p := (h.remSlot p _ hr).2.2
  have hl : Loose s n := Or.inr (Or.inr ⟨p, hn⟩)
  refine h.relabel (o := n) (x := .priv t) (R := set s.rem p none) (T := s.todo)
    (C := s.cnt) (tm := s.time) hl.not_pub (by simp) ?_ h.todoNodup ?_ ?_ ?_ ?_ (Nat.le_refl _) ?_ ?_
  · intro u z
    rw [h.todo]
    by_cases e : z = n
    · subst e; simp [hn]
    · rw [set_other _ _ e]
  · intro q r hq
    by_cases e : q = p
    · subst e
      rw [set_same] at hq
      cases hq
    · rw [set_other _ _ e] at hq
      obtain ⟨h1, h2, h3⟩ := h.remSlot q r hq
      refine ⟨h1, h2, ?_⟩
      rw [set_other]
      · exact h3
      · intro e'
        rw [e', hn] at h3
        exact e (by injection h3 with h3; exact h3.symm)
  · intro z q hz
    by_cases e : z = n
    · subst e
      rw [set_same] at hz
      cases hz
    · rw [set_other _ _ e] at hz
      obtain ⟨r, h1, h2⟩ := h.remIn z q hz
      refine ⟨r, ?_, h2⟩
      rw [set_other]
      · exact h1
      · rintro rfl
        rw [hr] at h1
        cases h1
        exact e h2.symm
  · intro q r hq
    by_cases e : q = p
    · subst e
      rw [set_same] at hq
      cases hq
    · rw [set_other _ _ e] at hq
      exact h.remGuard q r hq
  · intro u g _ hs
    exact absurd hs hl.not_safe
  · intro z r hz
    by_cases e : z = n
    · subst e; rw [set_same] at hz; cases hz
    · rw [set_other _ _ e] at hz
      exact h.cnt1 z r hz
  · intro z h1 h2
    by_cases e : z = n
    · subst e
      exact h.cnt0 z (by rw [hn]; simp) (by rw [hn]; simp)
    · rw [set_other _ _ e] at h2
      exact h.cnt0 z (fun r => by have := h1 r; rwa [set_other _ _ e] at this) h2

/-- The table of removals when an object that is not a node of a removal changes. -/
theorem Inv.rem_set (h : Inv s) {o : Obj} {x : Loc} (ho : ∀ p, s.loc o ≠ .rem p)
    (hx : ∀ p, x ≠ .rem p) :
    (∀ p r, s.rem p = some r → s.slot p = some r.mark ∧ s.isMark r.mark = true ∧
      set s.loc o x r.node = .rem p) ∧
    ∀ z p, set s.loc o x z = .rem p → ∃ r, s.rem p = some r ∧ r.node = z := by
  constructor
  · intro p r hr
    obtain ⟨h1, h2, h3⟩ := h.remSlot p r hr
    refine ⟨h1, h2, ?_⟩
    rw [set_other]
    · exact h3
    · intro e
      rw [e] at h3
      exact ho p h3
  · intro z p hz
    by_cases e : z = o
    · subst e
      rw [set_same] at hz
      exact absurd hz (hx p)
    · rw [set_other _ _ e] at hz
      exact h.remIn z p hz

/-- A private object is to be handed to the collector. -/
theorem Inv.toPend (h : Inv s) {t : Nat} {n : Obj} (hn : s.loc n = .priv t) :
    Inv { s with loc := set s.loc n (.pend t), todo := set s.todo t (n :: s.todo t) } := by
  have hl : Loose s n := Or.inr (Or.inl ⟨t, hn⟩)
  obtain ⟨r1, r2⟩ := h.rem_set (o := n) (x := .pend t) (by simp [hn]) (by simp)
  refine h.relabel (o := n) (x := .pend t) (R := s.rem) (T := set s.todo t (n :: s.todo t))
    (C := s.cnt) (tm := s.time) hl.not_pub (by simp) ?_ ?_ r1 r2 h.remGuard ?_ (Nat.le_refl _) ?_ ?_
  · intro u z
    by_cases e : z = n
    · subst e
      rw [set_same]
      by_cases e' : u = t
      · subst e'; simp
      · rw [set_other _ _ e', h.todo, hn]; simp [Ne.symm e']
    · rw [set_other _ _ e]
      by_cases e' : u = t
      · subst e'; simp [e, h.todo]
      · rw [set_other _ _ e', h.todo]
  · intro u
    by_cases e : u = t
    · subst e
      rw [set_same, List.nodup_cons]
      exact ⟨fun hh => hl.not_pend u ((h.todo u n).1 hh), h.todoNodup u⟩
    · rw [set_other _ _ e]; exact h.todoNodup u
  · intro u g _ hs
    exact absurd hs hl.not_safe
  · intro z r hz
    by_cases e : z = n
    · subst e; rw [set_same] at hz; cases hz
    · rw [set_other _ _ e] at hz
      exact h.cnt1 z r hz
  · intro z h1 h2
    by_cases e : z = n
    · subst e
      exact h.cnt0 z (by rw [hn]; simp) (by rw [hn]; simp)
    · rw [set_other _ _ e] at h2
      exact h.cnt0 z (fun r => by have := h1 r; rwa [set_other _ _ e] at this) h2

theorem Inv.retire (h : Inv s) {t : Nat} {o : Obj} (hp : Pre s (.retire t o)) :
    Inv (eff s (.retire t o)) := by
  have ho : s.loc o = .pend t := (h.todo t o).1 hp
  obtain ⟨r1, r2⟩ := h.rem_set (o := o) (x := .retired s.time) (by simp [ho]) (by simp)
  refine h.relabel (o := o) (x := .retired s.time) (R := s.rem)
    (T := set s.todo t ((s.todo t).erase o)) (C := set s.cnt o (s.cnt o + 1)) (tm := s.time + 1)
    (by simp [ho]) (by simp) ?_ ?_ r1 r2 h.remGuard ?_ (Nat.le_succ _) ?_ ?_
  · intro u z
    by_cases e : z = o
    · subst e
      rw [set_same]
      by_cases e' : u = t
      · subst e'
        rw [set_same]
        simp [(h.todoNodup u).not_mem_erase]
      · rw [set_other _ _ e', h.todo, ho]; simp [Ne.symm e']
    · rw [set_other _ _ e]
      by_cases e' : u = t
      · subst e'
        rw [set_same, List.mem_erase_of_ne e, h.todo]
      · rw [set_other _ _ e', h.todo]
  · intro u
    by_cases e : u = t
    · subst e
      rw [set_same]
      exact (h.todoNodup u).erase o
    · rw [set_other _ _ e]; exact h.todoNodup u
  · intro u g hg _
    exact Or.inr ⟨s.time, rfl, h.guardTime u g hg⟩
  · intro z r hz
    by_cases e : z = o
    · subst e
      rw [set_same] at hz
      cases hz
      rw [set_same, h.cnt0 z (by rw [ho]; simp) (by rw [ho]; simp)]
      exact ⟨rfl, Nat.lt_succ_self _⟩
    · rw [set_other _ _ e] at hz
      rw [set_other _ _ e]
      exact ⟨(h.cnt1 z r hz).1, Nat.lt_succ_of_lt (h.cnt1 z r hz).2⟩
  · intro z h1 h2
    by_cases e : z = o
    · subst e
      exact absurd (set_same _ _ _) (h1 s.time)
    · rw [set_other _ _ e] at h2
      rw [set_other _ _ e]
      exact h.cnt0 z (fun r => by have := h1 r; rwa [set_other _ _ e] at this) h2

theorem Inv.free (h : Inv s) {o : Obj} (hp : Pre s (.free o)) : Inv (eff s (.free o)) := by
  obtain ⟨r, ho, hg⟩ := hp
  obtain ⟨r1, r2⟩ := h.rem_set (o := o) (x := .free) (by simp [ho]) (by simp)
  refine h.relabel (o := o) (x := .free) (R := s.rem) (T := s.todo) (C := s.cnt) (tm := s.time)
    (by simp [ho]) (by simp) ?_ h.todoNodup r1 r2 h.remGuard ?_ (Nat.le_refl _) ?_ ?_
  · intro u z
    rw [h.todo]
    by_cases e : z = o
    · subst e; simp [ho]
    · rw [set_other _ _ e]
  · intro u g hu hs
    rcases hs with ⟨_, hs⟩ | ⟨_, hs⟩ | ⟨r', hs, hr'⟩
    · rw [ho] at hs; cases hs
    · rw [ho] at hs; cases hs
    · rw [ho] at hs
      cases hs
      exact absurd (hg u g hu) (Nat.not_lt.2 hr')
  · intro z r hz
    by_cases e : z = o
    · subst e; rw [set_same] at hz; cases hz
    · rw [set_other _ _ e] at hz
      exact h.cnt1 z r hz
  · intro z h1 h2
    by_cases e : z = o
    · subst e
      exact absurd (set_same _ _ _) h2
    · rw [set_other _ _ e] at h2
      exact h.cnt0 z (fun r => by have := h1 r; rwa [set_other _ _ e] at this) h2

/-! ### Steps -/

theorem Inv.load (h : Inv s) {t p : Nat} : Inv (eff s (.load t p)) := by
  simp only [eff]
  split
  · next x hx => exact h.hold hx rfl
  · exact h

theorem onPage_some {p : Nat} {x : Obj} (hs : s.slot p = some x) : s.onPage p = s.chain x := by
  simp [St.onPage, hs]

theorem onPage_none {p : Nat} (hs : s.slot p = none) : s.onPage p = [] := by
  simp [St.onPage, hs]

theorem move_one (loc : Obj → Loc) (o : Obj) (x : Loc) : move loc [o] x = set loc o x := by
  funext z
  simp [move, set]

theorem Inv.push (h : Inv s) {t p : Nat} {o x : Obj} (hp : Pre s (.push t p o x)) :
    Inv (eff s (.push t p o x)) := by
  obtain ⟨_, _, hs, hm, ho⟩ := hp
  have hox : x ≠ o := by
    rintro rfl
    have := h.pub p x hs x (by simp [St.chain])
    rw [ho] at this
    cases this
  have h1 := (h.setMark ho false).putOn (p := p) (d := o) (e := []) ⟨t, ho⟩ (by simp) (by simp)
    (fun y hy => by
      have hy' : s.slot p = some y := hy
      rw [hs] at hy'
      cases hy'
      show set s.isMark o false x = false
      rw [set_other _ _ hox]
      exact hm)
    (fun hh => by
      have : set s.isMark o false o = true := hh
      rw [set_same] at this
      cases this)
  have h2 := h1.hold (t := t) (p := p) (x := o) (l := s.chain x) (set_same _ _ _) (by
    show _ = set s.below o _ o
    rw [set_same]
    show _ = [] ++ s.onPage p
    rw [onPage_some hs]; rfl)
  have e : St.onPage { s with isMark := set s.isMark o false } p = s.chain x := onPage_some hs
  simp only [Gc.putOn, move_one, List.nil_append, e] at h2
  exact h2

/-- A private node is stored into an empty slot. -/
theorem Inv.fill (h : Inv s) {t p : Nat} {n : Obj} (b : Bool) (hn : s.loc n = .priv t)
    (hs : s.slot p = none) : Inv { s with
      below := set s.below n [], isMark := set s.isMark n b, slot := set s.slot p (some n),
      loc := set s.loc n (.pub p) } := by
  have e : St.onPage { s with isMark := set s.isMark n b } p = [] := onPage_none hs
  have h1 := (h.setMark hn b).putOn (p := p) (d := n) (e := []) ⟨t, hn⟩ (by simp) (by simp)
    (fun y hy => by
      have hy' : s.slot p = some y := hy
      rw [hs] at hy'
      cases hy')
    (fun _ => by rw [e]; rfl)
  simp only [Gc.putOn, move_one, List.nil_append, e] at h1
  exact h1

theorem Inv.publish (h : Inv s) {t p : Nat} {n : Obj} (hp : Pre s (.publish t p n)) :
    Inv (eff s (.publish t p n)) := by
  obtain ⟨hs, hn⟩ := hp
  exact (h.fill false hn hs).hold (t := t) (p := p) (x := n) (l := []) (set_same _ _ _)
    (set_same _ _ _).symm

theorem set_set {α : Type} (f : Nat → α) (i : Nat) (x y : α) : set (set f i x) i y = set f i y := by
  funext j
  simp only [set]
  split <;> rfl

theorem Inv.rem_none (h : Inv s) {p : Nat} {x : Obj} (hs : s.slot p = some x)
    (hm : s.isMark x = false) : s.rem p = none := by
  cases hr : s.rem p with
  | none => rfl
  | some r =>
    obtain ⟨h1, h2, _⟩ := h.remSlot p r hr
    rw [hs] at h1
    cases h1
    rw [hm] at h2
    cases h2

theorem Inv.priv_not_chain (h : Inv s) {t p : Nat} {x o : Obj} (hs : s.slot p = some x)
    (ho : s.loc o = .priv t) : o ∉ s.chain x := by
  intro hm
  have := h.pub p x hs o hm
  rw [ho] at this
  cases this

theorem Inv.replace (h : Inv s) {t p : Nat} {n x : Obj} (hp : Pre s (.replace t p n x)) :
    Inv (eff s (.replace t p n x)) := by
  obtain ⟨_, _, hs, hm, hn⟩ := hp
  have h1 := h.takeOut (t := t) hs (h.rem_none hs hm)
  have hn' : (Gc.takeOut s t p x).loc n = .priv t := by
    show move _ _ _ _ = _
    rw [move_out (h.priv_not_chain hs hn)]
    exact hn
  have h2 := h1.fill (p := p) false hn' (set_same _ _ _)
  simp only [Gc.takeOut, set_set] at h2
  exact h2

theorem Inv.mark (h : Inv s) {t p : Nat} {m n x : Obj} (hp : Pre s (.mark t p m n x)) :
    Inv (eff s (.mark t p m n x)) := by
  obtain ⟨hg, _, hs, hm, hmp, hn, hmn⟩ := hp
  have hr := h.rem_none hs hm
  have h1 := h.takeOut (t := t) hs hr
  have hm' : (Gc.takeOut s t p x).loc m = .priv t := by
    show move _ _ _ _ = _
    rw [move_out (h.priv_not_chain hs hmp)]
    exact hmp
  have h2 := h1.fill (p := p) true hm' (set_same _ _ _)
  simp only [Gc.takeOut, set_set] at h2
  have h3 := h2.beginRem (t := t) (p := p) (m := m) (n := n) (set_same _ _ _) (set_same _ _ _) (by
    show set _ _ _ _ = _
    rw [set_other _ _ (Ne.symm hmn), move_out (h.priv_not_chain hs hn)]
    exact hn) hr hg
  exact h3

theorem Inv.restore (h : Inv s) {t p : Nat} {m n : Obj} (hp : Pre s (.restore t p m n)) :
    Inv (eff s (.restore t p m n)) := by
  have hr : s.rem p = some ⟨t, m, n⟩ := hp
  obtain ⟨hs, hm, hn⟩ := h.remSlot p _ hr
  simp only at hs hm hn
  have hch : s.chain m = [m] := by
    simp [St.chain, h.markBelow p m hs hm]
  have hmn : m ≠ n := by
    rintro rfl
    have := h.pub p m hs m (by simp [St.chain])
    rw [hn] at this
    cases this
  have h1 := h.endRem hr
  have h2 := h1.takeOut (t := t) (p := p) (x := m) hs (set_same _ _ _)
  have hch' : St.chain { s with loc := set s.loc n (.priv t), rem := set s.rem p none } m = [m] := hch
  simp only [Gc.takeOut, hch', move_one] at h2
  have h3 := h2.fill (t := t) (p := p) (n := n) false (by
    show set _ _ _ _ = _
    rw [set_other _ _ (Ne.symm hmn), set_same]) (set_same _ _ _)
  simp only [set_set] at h3
  have e : set (set (set s.loc n (.priv t)) m (.pend t)) n (.pub p) =
      set (set s.loc m (.pend t)) n (.pub p) := by
    funext z
    simp only [set]
    split
    · rfl
    · rfl
  rw [e] at h3
  exact h3

theorem Inv.merge (h : Inv s) {t p : Nat} {m n : Obj} {q : Nat} {d x : Obj}
    (hp : Pre s (.merge t p m n q d x)) : Inv (eff s (.merge t p m n q d x)) := by
  obtain ⟨hr, _, hs, hm, hd⟩ := hp
  have hn := (h.remSlot p _ hr).2.2
  simp only at hn
  have hdn : d ≠ n := by
    rintro rfl
    rw [hd] at hn
    cases hn
  have h1 := h.endRem hr
  have hd1 : set s.loc n (.priv t) d = .priv t := by rw [set_other _ _ hdn]; exact hd
  have hxd : x ≠ d := by
    rintro rfl
    have := h.pub q x hs x (by simp [St.chain])
    rw [hd] at this
    cases this
  have h2 := (h1.setMark (o := d) (t := t) hd1 false).putOn (p := q) (d := d) (e := [n]) ⟨t, hd1⟩
    (by
      intro o ho
      rw [List.mem_singleton] at ho
      subst ho
      exact ⟨t, set_same _ _ _⟩) (by simp [hdn])
    (fun y hy => by
      have hy' : s.slot q = some y := hy
      rw [hs] at hy'
      cases hy'
      show set s.isMark d false x = false
      rw [set_other _ _ hxd]
      exact hm)
    (fun hh => by
      have : set s.isMark d false d = true := hh
      rw [set_same] at this
      cases this)
  have e : St.onPage { s with
      loc := set s.loc n (.priv t), rem := set s.rem p none, isMark := set s.isMark d false } q =
      s.chain x := onPage_some hs
  have h3 := h2.hold (t := t) (p := q) (x := d) (l := n :: s.chain x) (set_same _ _ _) (by
    show _ = set s.below d _ d
    rw [set_same, e]; rfl)
  have e2 : move (set s.loc n (.priv t)) [d, n] (.pub q) =
      set (set s.loc d (.pub q)) n (.pub q) := by
    funext z
    simp only [move, set, List.mem_cons, List.not_mem_nil, or_false]
    by_cases h1 : z = d
    · simp [h1]
    · by_cases h2 : z = n <;> simp [h1, h2]
  simp only [Gc.putOn, e, e2, List.singleton_append] at h3
  exact h3

theorem Inv.dropRoot (h : Inv s) {t p : Nat} {m n : Obj} (hp : Pre s (.dropRoot t p m n)) :
    Inv (eff s (.dropRoot t p m n)) := by
  have h1 := (h.endRem (show s.rem p = some ⟨t, m, n⟩ from hp)).toPend (t := t) (n := n)
    (set_same _ _ _)
  simp only [set_set] at h1
  exact h1

theorem Inv.step (h : Inv s) {a : Act} (hp : Pre s a) : Inv (eff s a) := by
  cases a with
  | enter t => exact h.enter hp
  | leave t => exact h.leave hp
  | alloc t o => exact h.alloc hp
  | release t o => exact h.release hp
  | load t p => exact h.load
  | push t p o x => exact h.push hp
  | replace t p n x => exact h.replace hp
  | publish t p n => exact h.publish hp
  | mark t p m n x => exact h.mark hp
  | restore t p m n => exact h.restore hp
  | merge t p m n q d x => exact h.merge hp
  | dropRoot t p m n => exact h.dropRoot hp
  | retire t o => exact h.retire hp
  | free o => exact h.free hp

theorem Reachable.inv (h : Reachable s) : Inv s := by
  induction h with
  | init => exact Inv.init
  | step _ hp ih => exact ih.step hp

end

end BwTree.Gc
