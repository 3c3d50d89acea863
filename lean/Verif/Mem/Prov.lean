import Verif.Mem.Frame

/-!
# Where the pointers of a call come from (proof side)

`gp` says of a program: it exchanges only heads it has loaded from that page or published there, puts
only deltas in front of what it exchanges, stores nodes only under new page IDs, at its removal mark,
or at the head it has just rechecked, and reads the words of index-delete deltas only through heads
it holds.
-/

namespace BwTree.Mem

open BwTree.Gc (Obj)

set_option linter.unusedSectionVars false

variable {K V : Type} [LinearOrder K] {α β : Type}

/-- The discipline. -/
def gp (cfg : Cfg K) : Prog K V α → (α → Frm K V → Prop) → Frm K V → Prop
  | .ret a, Q, g => Q a g
  | .ub, _, _ => True
  | .stuck, _, _ => True
  | .flag _, _, _ => True
  | .loadRoot k, Q, g => ∀ r, gp cfg (k r) Q g
  | .storeRoot _ k, Q, g => gp cfg k Q g
  | .casRoot o _ k, Q, g => gp cfg (k false) Q g ∧
      (∃ m rs, g.rems = (o, m) :: rs) ∧ gp cfg (k true) Q g.pop
  | .load p k, Q, g => ∀ c h, gp cfg (k c) Q (g.load p c h)
  | .store p c k, Q, g => ∃ n, c = .base n ∧
      ((p ∈ g.new ∧ ∀ x, gp cfg k Q (g.pub p c x)) ∨
       (g.new = [] ∧ g.chk = none ∧ (∃ rs, g.rems = (p, n) :: rs) ∧ gp cfg k Q g.pop) ∨
       (g.new = [] ∧ (∃ o h, g.chk = some (p, o, h)) ∧ gp cfg k Q g.fail))
  | .cas p o n k, Q, g => (∃ h, (p, o, h) ∈ g.hd) ∧ gp cfg (k false) Q g.fail ∧
      (n = o → ∀ h, (p, o, h) ∈ g.hd → gp cfg (k true) Q (g.same p o h)) ∧
      (n ≠ o → match n with
        | .delta d o' => o' = o ∧ match d.pay with
          | .node m => (∃ q rs, g.rems = (q, m) :: rs) ∧
              ∀ x, gp cfg (k true) Q ((g.push p n x).pop)
          | .cell w => w ∈ g.cs ∧ ∀ x, gp cfg (k true) Q ((g.push p n x).dropCell w)
          | _ => ∀ x, gp cfg (k true) Q (g.push p n x)
        | .base _ => gp cfg (k true) Q g.fail
        | .removed _ => ∃ m, tryConsolidate cfg false o = some (.merge m) ∧
            gp cfg (k true) Q (g.mark p m))
  | .newPid k, Q, g => ∀ p, gp cfg (k p) Q (g.pid p)
  | .newCell k, Q, g => ∀ w, gp cfg (k w) Q (g.cell w)
  | .loadCell w k, Q, g => (∃ p c h, (p, c, h) ∈ g.hd ∧ CellIn w c) ∧ ∀ q, gp cfg (k q) Q g
  | .storeCell w _ k, Q, g => (∃ p c h, (p, c, h) ∈ g.hd ∧ CellIn w c) ∧ gp cfg k Q g

variable {cfg : Cfg K} {f : Nat}

theorem gp_mono {p : Prog K V α} {Q Q' : α → Frm K V → Prop} {g : Frm K V} (h : gp cfg p Q g)
    (hq : ∀ a g, Q a g → Q' a g) : gp cfg p Q' g := by
  induction p generalizing g with
  | ret a => exact hq _ _ h
  | ub => trivial
  | stuck => trivial
  | flag k => trivial
  | loadRoot k ih => exact fun r => ih r (h r)
  | storeRoot p k ih => exact ih h
  | casRoot o n k ih => exact ⟨ih _ h.1, h.2.1, ih _ h.2.2⟩
  | load p k ih => exact fun c a => ih c (h c a)
  | store p c k ih =>
    obtain ⟨n, e, h⟩ := h
    refine ⟨n, e, ?_⟩
    rcases h with ⟨a, b⟩ | ⟨a, b, c, d⟩ | ⟨a, b, c⟩
    · exact Or.inl ⟨a, fun x => ih (b x)⟩
    · exact Or.inr (Or.inl ⟨a, b, c, ih d⟩)
    · exact Or.inr (Or.inr ⟨a, b, ih c⟩)
  | cas p o n k ih =>
    obtain ⟨h1, h2, h3, h4⟩ := h
    refine ⟨h1, ih _ h2, fun e a ha => ih _ (h3 e a ha), fun e => ?_⟩
    have h4 := h4 e
    cases n with
    | base n => exact ih _ h4
    | removed b =>
      obtain ⟨m, a, b⟩ := h4
      exact ⟨m, a, ih _ b⟩
    | delta d o' =>
      obtain ⟨a, b⟩ := h4
      refine ⟨a, ?_⟩
      revert b
      cases d.pay with
      | node m => exact fun b => ⟨b.1, fun x => ih _ (b.2 x)⟩
      | cell w => exact fun b => ⟨b.1, fun x => ih _ (b.2 x)⟩
      | val v => exact fun b x => ih _ (b x)
      | child v => exact fun b x => ih _ (b x)
      | none => exact fun b x => ih _ (b x)
  | newPid k ih => exact fun r => ih r (h r)
  | newCell k ih => exact fun r => ih r (h r)
  | loadCell w k ih => exact ⟨h.1, fun r => ih r (h.2 r)⟩
  | storeCell w p k ih => exact ⟨h.1, ih h.2⟩

theorem gp_bind {p : Prog K V α} {k : α → Prog K V β} {Q : β → Frm K V → Prop} {g : Frm K V}
    (h : gp cfg p (fun a g => gp cfg (k a) Q g) g) : gp cfg (p.bind k) Q g := by
  induction p generalizing g with
  | ret a => exact h
  | ub => trivial
  | stuck => trivial
  | flag k => trivial
  | loadRoot k ih => exact fun r => ih r (h r)
  | storeRoot p k ih => exact ih h
  | casRoot o n k ih => exact ⟨ih _ h.1, h.2.1, ih _ h.2.2⟩
  | load p k ih => exact fun c a => ih c (h c a)
  | store p c k ih =>
    obtain ⟨n, e, h⟩ := h
    refine ⟨n, e, ?_⟩
    rcases h with ⟨a, b⟩ | ⟨a, b, c, d⟩ | ⟨a, b, c⟩
    · exact Or.inl ⟨a, fun x => ih (b x)⟩
    · exact Or.inr (Or.inl ⟨a, b, c, ih d⟩)
    · exact Or.inr (Or.inr ⟨a, b, ih c⟩)
  | cas p o n k ih =>
    obtain ⟨h1, h2, h3, h4⟩ := h
    refine ⟨h1, ih _ h2, fun e a ha => ih _ (h3 e a ha), fun e => ?_⟩
    have h4 := h4 e
    cases n with
    | base n => exact ih _ h4
    | removed b =>
      obtain ⟨m, a, b⟩ := h4
      exact ⟨m, a, ih _ b⟩
    | delta d o' =>
      obtain ⟨a, b⟩ := h4
      refine ⟨a, ?_⟩
      revert b
      cases d.pay with
      | node m => exact fun b => ⟨b.1, fun x => ih _ (b.2 x)⟩
      | cell w => exact fun b => ⟨b.1, fun x => ih _ (b.2 x)⟩
      | val v => exact fun b x => ih _ (b x)
      | child v => exact fun b x => ih _ (b x)
      | none => exact fun b x => ih _ (b x)
  | newPid k ih => exact fun r => ih r (h r)
  | newCell k ih => exact fun r => ih r (h r)
  | loadCell w k ih => exact ⟨h.1, fun r => ih r (h.2 r)⟩
  | storeCell w p k ih => exact ⟨h.1, ih h.2⟩

theorem gp_bind' {p : Prog K V α} {k : α → Prog K V β} {P : α → Frm K V → Prop}
    {Q : β → Frm K V → Prop} {g : Frm K V} (h : gp cfg p P g)
    (hk : ∀ a g, P a g → gp cfg (k a) Q g) : gp cfg (p.bind k) Q g :=
  gp_bind (gp_mono h hk)

/-! ## Searches -/

/-- Only the list of loaded heads has grown. -/
structure Grow (g g' : Frm K V) : Prop where
  hd : g.hd ⊆ g'.hd
  rems : g'.rems = g.rems
  new : g'.new = g.new
  chk : g'.chk = g.chk
  cs : g'.cs = g.cs

theorem Grow.rfl {g : Frm K V} : Grow g g := ⟨fun _ h => h, Eq.refl _, Eq.refl _, Eq.refl _, Eq.refl _⟩

theorem Grow.trans {g g' g'' : Frm K V} (h : Grow g g') (h' : Grow g' g'') : Grow g g'' :=
  ⟨fun _ x => h'.hd (h.hd x), h'.rems.trans h.rems, h'.new.trans h.new, h'.chk.trans h.chk,
    h'.cs.trans h.cs⟩

theorem Grow.load (g : Frm K V) (p : PID) (c : Chain K V) (h : Obj) : Grow g (g.load p c h) :=
  ⟨fun _ h => List.mem_cons_of_mem _ h, Eq.refl _, Eq.refl _, Eq.refl _, Eq.refl _⟩

theorem Frm.mem_load (g : Frm K V) (p : PID) (c : Chain K V) (h : Obj) :
    (p, c, h) ∈ (g.load p c h).hd := List.mem_cons_self

/-- A program that only loads. -/
abbrev gpS (cfg : Cfg K) (p : Prog K V α) (P : α → Frm K V → Prop) (g : Frm K V) : Prop :=
  gp cfg p (fun a g' => Grow g g' ∧ P a g') g

theorem gpS_bind {p : Prog K V α} {k : α → Prog K V β} {P : α → Frm K V → Prop}
    {Q : β → Frm K V → Prop} {g : Frm K V} (h : gpS cfg p P g)
    (hk : ∀ a g', Grow g g' → P a g' → gpS cfg (k a) Q g') : gpS cfg (p.bind k) Q g :=
  gp_bind' h fun a g' hg => gp_mono (hk a g' hg.1 hg.2) fun _ _ x => ⟨hg.1.trans x.1, x.2⟩

theorem gpS_load {p : PID} {k : Chain K V → Prog K V α} {P : α → Frm K V → Prop} {g : Frm K V}
    (h : ∀ c a, gpS cfg (k c) P (g.load p c a)) : gpS cfg (.load p k) P g :=
  fun c a => gp_mono (h c a) fun _ _ x => ⟨(Grow.load g p c a).trans x.1, x.2⟩

theorem gpS_ret {a : α} {P : α → Frm K V → Prop} {g : Frm K V} (h : P a g) :
    gpS cfg (.ret a) P g := ⟨Grow.rfl, h⟩

theorem ite_gp {c : Prop} [Decidable c] {a b : Prog K V α} {Q : α → Frm K V → Prop} {g : Frm K V}
    (h1 : c → gp cfg a Q g) (h2 : ¬ c → gp cfg b Q g) : gp cfg (if c then a else b) Q g := by
  split
  · exact h1 ‹_›
  · exact h2 ‹_›

theorem loadValidHead_gp (p : PID) (g : Frm K V) :
    gpS cfg (loadValidHead cfg f p) (fun c g' => ∃ h, (p, c, h) ∈ g'.hd) g := by
  induction f generalizing g with
  | zero => trivial
  | succ f ih =>
    exact gpS_load fun c a => ite_gp (fun _ => ih _) fun _ => gpS_ret ⟨a, g.mem_load p c a⟩

theorem waitCell_gp (w : Nat) (g : Frm K V) (hw : ∃ p c h, (p, c, h) ∈ g.hd ∧ CellIn w c) :
    gpS cfg (waitCell f w) (fun _ _ => True) g := by
  induction f with
  | zero => trivial
  | succ f ih => exact ⟨hw, fun q => ite_gp (fun _ => ih) fun _ => gpS_ret trivial⟩

theorem dcSearchChild_cell {key : K} {closed : Bool} {smo : Bool} {c : Chain K V} {w : Nat}
    (h : dcSearchChild key closed smo c = .cell w) : CellIn w c := by
  induction c generalizing smo with
  | base n => simp only [dcSearchChild] at h; split at h <;> cases h
  | removed b => cases h
  | delta d c ih =>
    rw [dcSearchChild] at h
    cases ht : d.ty with
    | insert =>
      rw [ht] at h
      simp only at h
      split at h
      · split at h <;> cases h
      · exact Or.inr (ih h)
    | modify => rw [ht] at h; cases h
    | delete =>
      rw [ht] at h
      simp only at h
      split at h
      · split at h
        · rename_i e
          cases h
          exact Or.inl e
        · cases h
      · exact Or.inr (ih h)
    | merge =>
      rw [ht] at h
      simp only at h
      split at h
      · split at h
        · split at h <;> cases h
        · cases h
      · exact Or.inr (ih h)

theorem childStep_cell {key : K} {closed : Bool} {c : Chain K V} {w : Nat}
    (h : childStep key closed c = .cell w) : CellIn w c := by
  rw [childStep] at h
  split at h <;> try cases h
  · rename_i e
    exact dcSearchChild_cell e
  · split at h <;> cases h

theorem searchChild_gp {key : K} {closed : Bool} {tgt : PID} (stk : Stk) (g : Frm K V) :
    gpS cfg (searchChild key closed tgt f stk) (fun _ _ => True) g := by
  induction f generalizing stk g with
  | zero => trivial
  | succ f ih =>
    cases stk with
    | nil => trivial
    | cons p rest =>
      refine gpS_load fun c a => ite_gp (fun _ => trivial) fun _ => ?_
      cases hc : childStep key closed c with
      | child q => exact gpS_ret trivial
      | cell w =>
        exact gpS_bind (waitCell_gp w _ ⟨p, c, a, g.mem_load p c a, childStep_cell hc⟩)
          fun _ _ _ _ => gpS_ret trivial
      | sibling q => exact ite_gp (fun _ => gpS_ret trivial) fun _ => ih _ _
      | removed =>
        refine ite_gp (fun _ => ite_gp (fun _ => gpS_ret trivial) fun _ r => ih _ _) fun _ => ?_
        exact gpS_bind (ih _ _) fun x g' _ _ => ite_gp (fun _ => gpS_ret trivial) fun _ =>
          ite_gp (fun _ => gpS_ret trivial) fun _ => ih _ _
      | ub => trivial

theorem searchLeafLoop_gp {key : K} {closed : Bool} (stk : Stk) (g : Frm K V) :
    gpS cfg (searchLeafLoop key closed f stk) (fun _ _ => True) g := by
  induction f generalizing stk g with
  | zero => trivial
  | succ f ih =>
    cases stk with
    | nil => trivial
    | cons p rest =>
      exact gpS_load fun c a => ite_gp (fun _ => gpS_ret trivial) fun _ =>
        gpS_bind (searchChild_gp _ _) fun x g' _ _ => ih _ _

theorem searchLeaf_gp {key : K} {closed : Bool} (g : Frm K V) :
    gpS cfg (searchLeaf key closed f) (fun _ _ => True) g :=
  fun _ => searchLeafLoop_gp _ _

theorem searchTarget_gp {key : K} {ti : Bool} {tgt : PID} (stk : Stk) (g : Frm K V) :
    gpS cfg (searchTarget key ti tgt f stk) (fun _ _ => True) g := by
  induction f generalizing stk g with
  | zero => trivial
  | succ f ih =>
    cases stk with
    | nil => exact fun r => ih _ _
    | cons p rest =>
      exact gpS_load fun c a => ite_gp (fun _ => ite_gp (fun _ => trivial) fun _ => gpS_ret trivial)
        fun _ => gpS_bind (searchChild_gp _ _) fun x g' _ _ =>
          ite_gp (fun _ => gpS_ret trivial) fun _ => ih _ _

/-- The head returned was loaded from the page on top of the stack. -/
def HeadOf (g : Frm K V) (c : Chain K V) : Stk → Prop
  | [] => True
  | p :: _ => ∃ h, (p, c, h) ∈ g.hd

theorem getHead_gp {key : K} {closed : Bool} {tgt : PID} (stk : Stk) (g : Frm K V) :
    gpS cfg (getHead cfg key closed tgt f stk)
      (fun o g' => ∀ c s, o = some (c, s) → HeadOf g' c s) g := by
  induction f generalizing stk g with
  | zero => trivial
  | succ f ih =>
    cases stk with
    | nil => trivial
    | cons p rest =>
      refine gpS_bind (loadValidHead_gp _ _) fun c g' _ hh => ?_
      have hret : ∀ c' s, some (c, p :: rest) = some (c', s) → HeadOf g' c' s := by
        intro c' s e
        cases Option.some.inj e
        exact hh
      cases dcValidate key closed c with
      | ok => exact gpS_ret hret
      | sibling q => exact ite_gp (fun _ => gpS_ret hret) fun _ => ih _ _
      | removed =>
        refine ite_gp (fun _ => ite_gp (fun _ => gpS_ret fun _ _ e => by cases e) fun _ => ?_)
          fun _ => ?_
        · exact gpS_bind (searchLeaf_gp _) fun x g' _ _ => ih _ _
        · exact gpS_bind (searchChild_gp _ _) fun x g' _ _ =>
            ite_gp (fun _ => gpS_ret fun _ _ e => by cases e) fun _ => ih _ _
      | ub => trivial

theorem getHeadKC_gp {key : K} (stk : Stk) (g : Frm K V) :
    gpS cfg (getHeadKC cfg key f stk) (fun x g' => HeadOf g' x.2.1 x.1) g := by
  induction f generalizing stk g with
  | zero => trivial
  | succ f ih =>
    cases stk with
    | nil => trivial
    | cons p rest =>
      refine gpS_bind (loadValidHead_gp _ _) fun c g' _ hh => ite_gp (fun _ => trivial) fun _ => ?_
      cases keyCheck key c with
      | ret b => exact gpS_ret hh
      | sibling q => exact ih _ _
      | removed =>
        exact ite_gp (fun _ => gpS_bind (searchLeaf_gp _) fun x g' _ _ => ih _ _) fun _ =>
          gpS_bind (searchChild_gp _ _) fun x g' _ _ => ih _ _
      | ub => trivial

theorem getHeadForMerge_gp {key : K} (sib : Option K) (stk : Stk) (g : Frm K V) :
    gpS cfg (getHeadForMerge cfg key f sib stk) (fun x g' => HeadOf g' x.2.1 x.1) g := by
  induction f generalizing sib stk g with
  | zero => trivial
  | succ f ih =>
    cases stk with
    | nil => trivial
    | cons p rest =>
      refine gpS_bind (loadValidHead_gp _ _) fun c g' _ hh => ?_
      cases (mergeStep cfg key sib c).1 with
      | ok => exact gpS_ret hh
      | abort => exact gpS_ret hh
      | sibling q => exact ih _ _ _
      | ub => trivial

/-! ## Structure modifications -/

/-- What a structure modification leaves behind: everything it has begun is finished. -/
structure Done (g g' : Frm K V) : Prop where
  rems : g'.rems = g.rems
  new : g'.new = []
  chk : g'.chk = none
  hd : g.hd ⊆ g'.hd

/-- The frame between two structure modifications. -/
structure Calm (g : Frm K V) : Prop where
  new : g.new = []
  chk : g.chk = none

theorem Calm.done {g : Frm K V} (h : Calm g) : Done g g := ⟨rfl, h.new, h.chk, fun _ x => x⟩

theorem Done.calm {g g' : Frm K V} (h : Done g g') : Calm g' := ⟨h.new, h.chk⟩

theorem Grow.calm {g g' : Frm K V} (h : Grow g g') (hc : Calm g) : Calm g' :=
  ⟨h.new.trans hc.new, h.chk.trans hc.chk⟩

theorem Grow.done {g g' g'' : Frm K V} (h : Grow g g') (hd : Done g' g'') : Done g g'' :=
  ⟨hd.rems.trans h.rems, hd.new, hd.chk, fun _ x => hd.hd (h.hd x)⟩

theorem Frm.fail_calm {g : Frm K V} (h : Calm g) : g.fail = g := by
  obtain ⟨_, _, _, _, _⟩ := g
  cases h.chk
  rfl

/-- The specification of `TrySMOs`. -/
def SmoGp (cfg : Cfg K) (smo : Chain K V → Stk → Prog K V Unit) : Prop :=
  ∀ (d : Delta K V) (c : Chain K V) (p : PID) (rest : Stk) (g : Frm K V), Calm g →
    (∃ h, (p, .delta d c, h) ∈ g.hd) →
    gp cfg (smo (.delta d c) (p :: rest)) (fun _ g' => Done g g') g

/-- A CAS that puts a delta (neither a merge nor an index-delete delta) in front of a loaded head. -/
theorem cas_push_gp {p : PID} {c : Chain K V} {d : Delta K V} {diff : Int} {k : Bool → Prog K V α}
    {Q : α → Frm K V → Prop} {g : Frm K V} (hh : ∃ h, (p, c, h) ∈ g.hd) (hg : Calm g)
    (hd1 : ∀ m, d.pay ≠ .node m) (hd2 : ∀ w, d.pay ≠ .cell w)
    (h1 : gp cfg (k false) Q g) (h2 : ∀ x, gp cfg (k true) Q (g.push p (Chain.push d c diff) x)) :
    gp cfg (.cas p c (Chain.push d c diff) k) Q g := by
  refine ⟨hh, by rwa [Frm.fail_calm hg], fun e => ?_, fun _ => ⟨rfl, ?_⟩⟩
  · have := congrArg sizeOf e
    simp [Chain.push] at this
  · simp only
    cases hp : d.pay with
    | node m => exact absurd hp (hd1 m)
    | cell w => exact absurd hp (hd2 w)
    | val v => exact h2
    | child v => exact h2
    | none => exact h2

theorem Chain.push_ne (d : Delta K V) (c : Chain K V) (diff : Int) : Chain.push d c diff ≠ c := by
  intro e
  have := congrArg sizeOf e
  simp [Chain.push] at this

theorem Calm.push {g : Frm K V} (hg : Calm g) (p : PID) (c : Chain K V) (x : Obj) :
    Calm (g.push p c x) := ⟨hg.new, rfl⟩

theorem Calm.doneP {g : Frm K V} (hg : Calm g) (p : PID) (c : Chain K V) (x : Obj) :
    Done g (g.push p c x) := ⟨rfl, hg.new, rfl, fun _ h => List.mem_cons_of_mem _ h⟩

theorem Done.trans {g g' g'' : Frm K V} (h : Done g g') (h' : Done g' g'') : Done g g'' :=
  ⟨h'.rems.trans h.rems, h'.new, h'.chk, fun _ x => h'.hd (h.hd x)⟩

theorem tryRootSplit_gp {sep : K} {rpid lpid : PID} {g : Frm K V} (hg : Calm g) :
    gp cfg (tryRootSplit (V := V) cfg sep rpid lpid) (fun _ g' => Done g g') g := by
  refine fun r => ite_gp (fun _ => hg.done) fun _ => ?_
  intro np
  refine ⟨_, rfl, Or.inl ⟨List.mem_cons_self, fun x => ?_⟩⟩
  refine ⟨rfl, ?_, hg.chk, fun _ h => List.mem_cons_of_mem _ h⟩
  show List.erase (np :: g.new) np = []
  rw [hg.new]
  simp

section
variable {smo : Chain K V → Stk → Prog K V Unit}

theorem splitLoop_gp (hs : SmoGp cfg smo) {sep : K} {high : Option K} {ri : Bool} {rpid lpid : PID}
    (stk : Stk) {g : Frm K V} (hg : Calm g) :
    gp cfg (splitLoop cfg smo sep high ri rpid lpid f stk) (fun _ g' => Done g g') g := by
  induction f generalizing stk g with
  | zero => cases stk <;> trivial
  | succ f ih =>
    cases stk with
    | nil =>
      refine gp_bind' (tryRootSplit_gp hg) fun b g1 h1 => ite_gp (fun _ => h1) fun _ => ?_
      refine gp_bind' (searchTarget_gp _ _) fun s g2 h2 => ?_
      cases s with
      | nil => trivial
      | cons x s =>
        exact gp_mono (ih _ (h2.1.calm h1.calm)) fun _ _ h => h1.trans (h2.1.done h)
    | cons x xs =>
      refine gp_bind' (getHead_gp _ _) fun o g1 h1 => ?_
      have hg1 := h1.1.calm hg
      rcases o with _ | ⟨c, _ | ⟨p, rest⟩⟩
      · exact gp_mono (ih _ hg1) fun _ _ h => h1.1.done h
      · trivial
      · refine cas_push_gp (h1.2 _ _ rfl) hg1 (fun _ e => by cases e) (fun _ e => by cases e) ?_
          fun x => ?_
        · exact gp_mono (ih _ hg1) fun _ _ h => h1.1.done h
        · refine ite_gp (fun _ => ite_gp (fun _ => ?_) fun _ => h1.1.done (hg1.doneP _ _ _))
            fun e => absurd rfl e
          exact gp_mono (hs _ _ _ _ _ (hg1.push _ _ _) ⟨x, List.mem_cons_self⟩)
            fun _ _ h => h1.1.done ((hg1.doneP _ _ _).trans h)

theorem split_gp (hs : SmoGp cfg smo) {l r : Node K V} {sep : K} {p : PID} {rest : Stk}
    {g : Frm K V} {o : Chain K V} {h : Obj} (hg : Calm g) :
    gp cfg (split cfg smo f l r sep (p :: rest)) (fun _ g' => Done g g') (g.same p o h) := by
  intro rp
  refine ⟨_, rfl, Or.inl ⟨List.mem_cons_self, fun x => ?_⟩⟩
  have hnew : (((g.same p o h).pid rp).pub rp (.base r) x).new = [] := by
    show List.erase (rp :: g.new) rp = []
    rw [hg.new]
    simp
  refine ⟨_, rfl, Or.inr (Or.inr ⟨hnew, ⟨o, h, rfl⟩, ?_⟩)⟩
  refine gp_mono (splitLoop_gp hs _ ⟨hnew, rfl⟩) fun _ _ h => ?_
  exact ⟨h.rems, h.new, h.chk, fun _ x => h.hd (List.mem_cons_of_mem _ x)⟩

/-- `w` is a word of this call that is not published, or is held. -/
theorem deleteLoop_gp (hs : SmoGp cfg smo) {dk : K} {high : Option K} {w : Nat} (sib : Option K)
    (stk : Stk)
    {g : Frm K V} (hg : Calm g) (hw : w ∈ g.cs) :
    gp cfg (deleteLoop cfg smo dk high w f sib stk)
      (fun o g' => Done g g' ∧ ∀ w', o = some w' → ∃ p c h, (p, c, h) ∈ g'.hd ∧ CellIn w' c) g := by
  induction f generalizing sib stk g with
  | zero => trivial
  | succ f ih =>
    refine gp_bind' (getHeadForMerge_gp _ _ _) fun x g1 h1 => ?_
    have hg1 := h1.1.calm hg
    refine ite_gp (fun _ => ?_) fun _ => ⟨h1.1.done hg1.done, fun _ e => by cases e⟩
    obtain ⟨_ | ⟨p, rest⟩, c, b⟩ := x
    · trivial
    · have hw1 : w ∈ g1.cs := by rw [h1.1.cs]; exact hw
      refine ⟨h1.2, ?_, fun e => absurd e (Chain.push_ne _ _ _), fun _ => ⟨rfl, hw1, fun x => ?_⟩⟩
      · rw [Frm.fail_calm hg1]
        exact gp_mono (ih _ _ hg1 hw1) fun _ _ h => ⟨h1.1.done h.1, h.2⟩
      · have hcell : ∀ w', some w = some w' → CellIn w'
            (Chain.push (deleteDelta dk high w) c (-(cfg.entLen true dk : Int))) := by
          intro w' e
          cases Option.some.inj e
          exact Or.inl rfl
        have hd : Done g ((g1.push p (Chain.push (deleteDelta dk high w) c (-(cfg.entLen true dk : Int))) x).dropCell w) :=
          h1.1.done ⟨rfl, hg1.new, rfl, fun _ h => List.mem_cons_of_mem _ h⟩
        refine ite_gp (fun _ => ite_gp (fun _ => ?_) fun _ =>
          ⟨hd, fun w' e => ⟨p, _, x, List.mem_cons_self, hcell w' e⟩⟩) fun e => absurd rfl e
        refine gp_bind' (hs _ _ _ _ _ hd.calm ⟨x, List.mem_cons_self⟩) fun _ g2 h2 => ?_
        exact ⟨hd.trans h2, fun w' e => ⟨p, _, x, h2.hd List.mem_cons_self, hcell w' e⟩⟩

theorem tryDeleteIndexEntry_gp (hs : SmoGp cfg smo) {n : Node K V} (stk : Stk) {g : Frm K V}
    (hg : Calm g) :
    gp cfg (tryDeleteIndexEntry cfg smo f n stk)
      (fun o g' => Done g g' ∧ ∀ w', o = some w' → ∃ p c h, (p, c, h) ∈ g'.hd ∧ CellIn w' c) g := by
  refine ite_gp (fun _ => ⟨hg.done, fun _ e => by cases e⟩) fun _ => ?_
  cases n.low with
  | none => exact ⟨hg.done, fun _ e => by cases e⟩
  | some dk =>
    intro w
    refine gp_mono (deleteLoop_gp hs _ _ (g := g.cell w) ⟨hg.new, hg.chk⟩ List.mem_cons_self) ?_
    exact fun _ _ h => ⟨⟨h.1.rems, h.1.new, h.1.chk, h.1.hd⟩, h.2⟩

/-- A removal is over. -/
structure Ended (g g' : Frm K V) : Prop where
  rems : g'.rems = g.rems.tail
  new : g'.new = []
  chk : g'.chk = none
  hd : g.hd ⊆ g'.hd

theorem mergeLoop_gp (hs : SmoGp cfg smo) {n : Node K V} {dk : K} {w : Nat} {rem : PID} (b : Bool)
    (stk : Stk) {g : Frm K V} (hg : Calm g) (hr : ∃ q rs, g.rems = (q, n) :: rs)
    (hw : ∃ p c h, (p, c, h) ∈ g.hd ∧ CellIn w c) :
    gp cfg (mergeLoop cfg smo n dk w rem f b stk) (fun _ g' => Ended g g') g := by
  induction f generalizing b stk g with
  | zero => trivial
  | succ f ih =>
    have step : ∀ {g1 : Frm K V} (b : Bool) (stk : Stk), Grow g g1 →
        gp cfg (mergeLoop cfg smo n dk w rem f b stk) (fun _ g' => Ended g g') g1 := by
      intro g1 b stk h1
      refine gp_mono (ih b stk (h1.calm hg) (by rw [h1.rems]; exact hr) ?_) fun _ g2 h2 => ?_
      · obtain ⟨p, c, a, x, y⟩ := hw
        exact ⟨p, c, a, h1.hd x, y⟩
      · exact ⟨by rw [h2.rems, h1.rems], h2.new, h2.chk, fun _ x => h2.hd (h1.hd x)⟩
    cases b with
    | true =>
      cases stk with
      | nil => exact gp_bind' (searchTarget_gp _ _) fun s g1 h1 => step _ _ h1.1
      | cons x xs =>
        exact gp_bind' (searchChild_gp _ _) fun y g1 h1 =>
          ite_gp (fun _ => step _ _ h1.1) fun _ => step _ _ h1.1
    | false =>
      refine gp_bind' (getHead_gp _ _) fun o g1 h1 => ?_
      have hg1 := h1.1.calm hg
      rcases o with _ | ⟨c, _ | ⟨p, rest⟩⟩
      · exact step _ _ h1.1
      · trivial
      · refine ⟨h1.2 _ _ rfl, ?_, fun e => absurd e (Chain.push_ne _ _ _), fun _ => ⟨rfl, ?_, fun x => ?_⟩⟩
        · rw [Frm.fail_calm hg1]
          exact step _ _ h1.1
        · rw [h1.1.rems]; exact hr
        · have he : Ended g ((g1.push p (Chain.push (mergeDelta n dk) c (cfg.nodeDiff n)) x).pop) :=
            ⟨by show g1.rems.tail = _; rw [h1.1.rems], hg1.new, rfl,
              fun _ h => List.mem_cons_of_mem _ (h1.1.hd h)⟩
          refine ⟨?_, ite_gp (fun _ => ?_) fun _ => he⟩
          · obtain ⟨p, c, a, x, y⟩ := hw
            exact ⟨p, c, a, he.hd x, y⟩
          · refine gp_mono (hs _ _ _ _ _ ⟨he.new, he.chk⟩ ⟨x, List.mem_cons_self⟩) fun _ g2 h2 => ?_
            exact ⟨h2.rems.trans he.rems, h2.new, h2.chk, fun _ x => h2.hd (he.hd x)⟩

theorem tryRemoveRoot_gp {n : Node K V} {pid : PID} (stk : Stk) {g : Frm K V} (hg : Calm g)
    (hr : ∃ rs, g.rems = (pid, n) :: rs) :
    gp cfg (tryRemoveRoot n pid stk)
      (fun b g' => (b = true → Ended g g') ∧ (b = false → Done g g')) g := by
  have hf : (false = true → Ended g g) ∧ (false = false → Done g g) :=
    ⟨fun e => (by cases e), fun _ => hg.done⟩
  refine ite_gp (fun _ => hf) fun _ => ?_
  cases (Chain.base n).leftmostChild with
  | none => trivial
  | some q =>
    intro c h
    have hd : Done g (g.load q c h) := (Grow.load g q c h).done ((Grow.load g q c h).calm hg).done
    refine ite_gp (fun _ => ⟨fun e => (by cases e), fun _ => hd⟩) fun _ => ?_
    obtain ⟨rs, e⟩ := hr
    refine ⟨⟨fun e => (by cases e), fun _ => hd⟩, ⟨n, rs, e⟩, fun _ => ?_, fun e => by cases e⟩
    exact ⟨rfl, hg.new, hg.chk, fun _ h => List.mem_cons_of_mem _ h⟩

theorem tryMerge_gp (hs : SmoGp cfg smo) {d : Delta K V} {c : Chain K V} {n : Node K V} {p : PID}
    {rest : Stk} {g : Frm K V} (hg : Calm g) {ck : Option (PID × Chain K V × Obj)}
    (hh : ∃ h, (p, .delta d c, h) ∈ g.hd)
    (ht : tryConsolidate cfg false (.delta d c) = some (.merge n)) :
    gp cfg (tryMerge cfg smo f (.delta d c) n (p :: rest)) (fun _ g' => Done g g')
      { g with chk := ck } := by
  refine ⟨hh, ?_, fun e => (by cases e), fun _ => ⟨n, ht, ?_⟩⟩
  · exact ⟨rfl, hg.new, rfl, fun _ h => h⟩
  · refine gp_bind' (tryDeleteIndexEntry_gp hs rest ⟨hg.new, rfl⟩) fun o g1 h1 => ?_
    have hr1 : g1.rems = (p, n) :: g.rems := h1.1.rems
    cases o with
    | none =>
      refine gp_bind' (tryRemoveRoot_gp _ h1.1.calm ⟨_, hr1⟩) fun b g2 h2 =>
        ite_gp (fun e => ?_) fun e => ?_
      · have := h2.1 e
        exact ⟨by rw [this.rems, hr1]; rfl, this.new, this.chk, fun _ x => this.hd (h1.1.hd x)⟩
      · have := h2.2 (by simpa using e)
        refine ⟨n, rfl, Or.inr (Or.inl ⟨this.new, this.chk, ⟨g.rems, this.rems.trans hr1⟩, ?_⟩)⟩
        refine ⟨?_, this.new, this.chk, fun _ x => this.hd (h1.1.hd x)⟩
        show g2.rems.tail = _
        rw [this.rems, hr1]; rfl
    | some w =>
      cases n.low with
      | none => trivial
      | some dk =>
        refine gp_mono (mergeLoop_gp hs _ _ h1.1.calm ⟨p, _, hr1⟩ (h1.2 _ rfl)) fun _ g2 h2 => ?_
        exact ⟨by rw [h2.rems, hr1]; rfl, h2.new, h2.chk, fun _ x => h2.hd (h1.1.hd x)⟩

end

theorem trySMOs_gp : SmoGp cfg (trySMOs (K := K) (V := V) cfg f) := by
  induction f with
  | zero => intro d c p rest g _ _; trivial
  | succ f ih =>
    intro d c p rest g hg hh
    refine ⟨hh, ?_, fun _ h _ => ?_, fun e => absurd rfl e⟩
    · rw [Frm.fail_calm hg]; exact hg.done
    · simp only [if_true]
      rcases ht : tryConsolidate cfg false (.delta d c) with _ | (n | ⟨l, r⟩ | n)
      · trivial
      · exact ⟨hh, ⟨rfl, hg.new, rfl, fun _ h => h⟩, fun e => (by cases e),
          fun _ => ⟨rfl, hg.new, rfl, fun _ h => h⟩⟩
      · simp only
        cases r.low with
        | none => trivial
        | some sep => exact split_gp ih hg
      · exact tryMerge_gp ih hg hh ht

/-! ## Public operations -/

theorem readLoop_gp {key : K} (stk : Stk) (g : Frm K V) :
    gpS cfg (readLoop key f stk) (fun _ _ => True) g := by
  induction f generalizing stk g with
  | zero => trivial
  | succ f ih =>
    cases stk with
    | nil => trivial
    | cons p rest =>
      refine gpS_load fun c a => ite_gp (fun _ => trivial) fun _ => ?_
      cases readChain key c with
      | ret o => exact gpS_ret trivial
      | sibling q => exact ih _ _
      | removed =>
        exact ite_gp (fun _ => trivial) fun _ =>
          gpS_bind (searchChild_gp _ _) fun x g' _ _ => ih _ _
      | ub => trivial

theorem writeDelta_pay {op : Spec.Op K V} {b : Bool} {d : Delta K V} {diff : Int}
    (h : writeDelta cfg op b = .inr (d, diff)) :
    (∀ m, d.pay ≠ .node m) ∧ ∀ w, d.pay ≠ .cell w := by
  cases op <;> cases b <;> simp [writeDelta] at h <;> obtain ⟨rfl, rfl⟩ := h <;>
    simp [putDelta, delDelta]

theorem writeLoop_gp {op : Spec.Op K V} {key : K} (stk : Stk) {g : Frm K V} (hg : Calm g) :
    gp cfg (writeLoop cfg op key f stk) (fun _ g' => Done g g') g := by
  induction f generalizing stk g with
  | zero => trivial
  | succ f ih =>
    refine gp_bind' (getHeadKC_gp _ _) fun x g1 h1 => ?_
    have hg1 := h1.1.calm hg
    rcases hw : writeDelta cfg op x.2.2 with r | ⟨d, diff⟩
    · exact h1.1.done hg1.done
    · obtain ⟨_ | ⟨p, rest⟩, c, b⟩ := x
      · trivial
      · refine cas_push_gp h1.2 hg1 (writeDelta_pay hw).1 (writeDelta_pay hw).2 ?_ fun x => ?_
        · exact gp_mono (ih _ hg1) fun _ _ h => h1.1.done h
        · refine ite_gp (fun _ => ite_gp (fun _ => ?_) fun _ => h1.1.done (hg1.doneP _ _ _))
            fun e => absurd rfl e
          refine gp_bind' (trySMOs_gp _ _ _ _ _ (hg1.push _ _ _) ⟨x, List.mem_cons_self⟩)
            fun _ g2 h2 => ?_
          exact h1.1.done ((hg1.doneP _ _ _).trans h2)

theorem runOp_gp (op : Spec.Op K V) {g : Frm K V} (hg : Calm g) :
    gp cfg (runOp cfg f op) (fun _ g' => Done g g') g := by
  refine gp_bind' (searchLeaf_gp _) fun stk g1 h1 => ?_
  have hg1 := h1.1.calm hg
  have hw : gp cfg (writeLoop cfg op (opKey op) f stk) (fun _ g' => Done g g') g1 :=
    gp_mono (writeLoop_gp _ hg1) fun _ _ h => h1.1.done h
  cases op with
  | read k =>
    refine gp_bind' (readLoop_gp _ _) fun o g2 h2 => ?_
    exact (h1.1.trans h2.1).done ((h1.1.trans h2.1).calm hg).done
  | write k v => exact hw
  | insert k v => exact hw
  | update k v => exact hw
  | delete k => exact hw

theorem scanFrom_gp {key : K} {closed : Bool} {e : Spec.Bound K} (stk : Stk) (g : Frm K V) :
    gpS cfg (scanFrom cfg key closed e f stk) (fun _ _ => True) g := by
  induction f generalizing stk g with
  | zero => trivial
  | succ f ih =>
    refine gpS_bind (getHead_gp _ _) fun o g' _ _ => ?_
    rcases o with _ | ⟨c, stk'⟩
    · trivial
    · refine ite_gp (fun _ => ih _ _) fun _ => ite_gp (fun _ => trivial) fun _ => ?_
      cases scanOut cfg (some (key, closed)) e c with
      | none => trivial
      | some x => exact gpS_ret trivial

theorem leftmostLoop_gp (p : PID) (g : Frm K V) :
    gpS cfg (leftmostLoop f p) (fun _ _ => True) g := by
  induction f generalizing p g with
  | zero => trivial
  | succ f ih =>
    refine gpS_load fun c a => ite_gp (fun _ => gpS_ret trivial) fun _ =>
      ite_gp (fun _ => trivial) fun _ => ?_
    cases c.leftmostChild with
    | none => trivial
    | some q => exact ih _ _

theorem scanLeft_gp {e : Spec.Bound K} (p : PID) (g : Frm K V) :
    gpS cfg (scanLeft cfg e f p) (fun _ _ => True) g := by
  induction f generalizing p g with
  | zero => trivial
  | succ f ih =>
    refine gpS_load fun c a => ite_gp (fun _ => ih _ _) fun _ => ?_
    cases scanOut cfg none e c with
    | none => trivial
    | some x => exact gpS_ret trivial

theorem scanFirst_gp {b e : Spec.Bound K} (g : Frm K V) :
    gpS cfg (scanFirst cfg f b e) (fun _ _ => True) g := by
  cases b with
  | some x => exact gpS_bind (searchLeaf_gp _) fun _ _ _ _ => scanFrom_gp _ _
  | none =>
    refine gpS_bind (P := fun _ _ => True) ?_ fun _ _ _ _ => scanLeft_gp _ _
    exact fun r => leftmostLoop_gp r g

theorem scanNext_gp {p : PID} {key : K} {e : Spec.Bound K} (g : Frm K V) :
    gpS cfg (scanNext cfg f p key e) (fun _ _ => True) g := scanFrom_gp _ _

end BwTree.Mem
