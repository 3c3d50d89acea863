import Verif.Conc.Code

/-!
# Ghost state, invariant and program logic (proof side)

Ghost state records what the physical state does not show: to which family (level) a page belongs
and its immutable lower bound, whether its index entry has been posted, which thread owns a frozen
page, the contents of a page whose removal is in progress, and the abstract map.
-/

namespace BwTree

set_option linter.unusedSectionVars false

variable {K V : Type} [LinearOrder K]

/-- Progress of the index entry of a page. -/
inductive Est where
  | unposted (t : Nat)
  | posted (F : Nat)
  | deleted
  deriving DecidableEq

/-- Ghost state. -/
structure Gh (K V : Type) where
  /-- family and lower bound of a published page. -/
  info : PID → Option (Nat × Option K)
  /-- number of families. -/
  nfam : Nat
  /-- family of the children; family 0 are the leaves. -/
  fcf : Nat → Nat
  est : PID → Est
  /-- the thread that may overwrite a frozen or removed page. -/
  own : PID → Option Nat
  /-- the contents of a removed page that has not been merged yet. -/
  pend : PID → Option (Node K V)
  /-- family of the target and separator of an index-delete word. -/
  cellInfo : Nat → Option (Nat × K)
  /-- the abstract map. -/
  m : K → Option V
  ops : Nat → Spec.OpSt K V

/-- Physical and ghost state. -/
structure St (K V : Type) extends Sh K V, Gh K V

/-- The contents of a page: what its slot holds, or what its remover holds. -/
def St.cont (s : St K V) (p : PID) : Option (Chain K V) :=
  match s.info p with
  | none => none
  | some _ =>
    match s.mt p with
    | some (.removed _) => (s.pend p).map .base
    | o => o

/-- The logical view. -/
structure Lv (K V : Type) where
  info : PID → Option (Nat × Option K)
  nfam : Nat
  fcf : Nat → Nat
  est : PID → Est
  cellInfo : Nat → Option (Nat × K)
  m : K → Option V
  cont : PID → Option (Chain K V)

/-- Logical view of a state. -/
def St.lv (s : St K V) : Lv K V :=
  { info := s.info, nfam := s.nfam, fcf := s.fcf, est := s.est, cellInfo := s.cellInfo, m := s.m,
    cont := s.cont }

/-- An upper bound is at most a lower bound. -/
def Before (hi lo : Option K) : Prop := ∃ h l, hi = some h ∧ lo = some l ∧ h ≤ l

/-- Requirements on the configuration. -/
structure CfgOK2 (cfg : Cfg K) : Prop extends CfgOK cfg where
  maxPos : 0 < cfg.maxDelta
  rootFits : cfg.hdr + 2 * cfg.idxLen + cfg.maxKey ≤ cfg.page
  min : ∀ inner, cfg.minSize ≤ max (cfg.hdr + cfg.recLen inner) ((cfg.page - cfg.hdr) / 2)
  minVar : cfg.maxKey = 0 ∨ cfg.minSize + cfg.maxKey ≤ (cfg.page - cfg.hdr) / 2

/-- Well-formed page. -/
structure PageWF (cfg : Cfg K) (L : Lv K V) (F : Nat) (low : Option K) (c : Chain K V) : Prop where
  wf : ChainWF cfg (decide (F ≠ 0)) low c
  ents : EntsOK (fun sep q => L.info q = some (L.fcf F, sep))
    (fun k w => L.cellInfo w = some (L.fcf F, k)) c
  link : ∀ h, c.high = some h → L.info c.nextPid = some (F, some h)
  size : c.size ≤ cfg.page + slack cfg (decide (F ≠ 0))
  base : c.baseSize ≤ cfg.page

/-- The logical invariant. -/
structure LInv (cfg : Cfg K) (L : Lv K V) : Prop where
  page : ∀ p c F low, L.cont p = some c → L.info p = some (F, low) → PageWF cfg L F low c
  known : ∀ p c, L.cont p = some c → ∃ F low, L.info p = some (F, low)
  disj : ∀ p q c c' F low low', L.cont p = some c → L.cont q = some c' →
    L.info p = some (F, low) → L.info q = some (F, low') → p ≠ q →
    Before c.high low' ∨ Before c'.high low
  ents : ∀ p c F low sep q, L.cont p = some c → L.info p = some (F, low) →
    (sep, Pay.child q) ∈ c.flatBody → L.est q = .posted F ∧ ∃ c', L.cont q = some c'
  val : ∀ p c low k, L.cont p = some c → L.info p = some (0, low) → InR low c.high k →
    alook c.flatBody k = (L.m k).map Pay.val
  cover : ∀ k, ∃ p c low, L.cont p = some c ∧ L.info p = some (0, low) ∧ InR low c.high k
  live : ∀ p F l, L.info p = some (F, some l) → L.est p ≠ .deleted → ∃ c, L.cont p = some c
  fam : ∀ p F low, L.info p = some (F, low) → F < L.nfam
  fcf : ∀ F, 0 < F → F < L.nfam → L.fcf F < F
  linkl : ∀ p c h, L.cont p = some c → c.high = some h → ∃ c', L.cont c.nextPid = some c'

/-- The physical invariant. -/
structure PInv (cfg : Cfg K) (s : St K V) : Prop where
  npos : 0 < s.npid
  fresh : ∀ p, (s.npid ≤ p ∨ p = 0) →
    s.mt p = none ∧ s.info p = none ∧ s.own p = none ∧ s.pend p = none
  slot : ∀ p F low, s.info p = some (F, low) →
    ∃ c, s.mt p = some c ∧ ∀ b, c = .removed b → b = decide (F = 0)
  frozen : ∀ p c, s.info p ≠ none → s.mt p = some c → c.needWait cfg = true → s.own p ≠ none
  owned : ∀ p t, s.own p = some t → s.info p ≠ none →
    ∃ c, s.mt p = some c ∧ (c.needWait cfg = true ∨ ((∃ b, c = .removed b) ∧ s.pend p ≠ none))
  pend : ∀ p n, s.pend p = some n → s.own p ≠ none ∧ s.info p ≠ none ∧
    (∃ b, s.mt p = some (.removed b)) ∧ n.size ≤ cfg.minSize
  del : ∀ p, s.est p = .deleted → s.info p ≠ none ∧ ∃ b, s.mt p = some (.removed b)
  root : ∃ F, s.info s.root = some (F, none)
  cell : ∀ w F k, s.cellInfo w = some (F, k) → s.cells w = 0 ∨
    ∃ low, s.info (s.cells w) = some (F, low) ∧ LowOK low k false
  cfresh : ∀ w, s.ncell ≤ w → s.cellInfo w = none
  unpub : ∀ p c, s.info p = none → s.mt p = some c →
    ∃ n, c = .base n ∧ NodeWF cfg n ∧ n.size ≤ cfg.page

/-- The invariant. -/
structure Inv (cfg : Cfg K) (s : St K V) : Prop where
  l : LInv cfg s.lv
  p : PInv cfg s

/-- What every step of every thread preserves. -/
structure Mono (s s' : St K V) : Prop where
  info : ∀ p x, s.info p = some x → s'.info p = some x
  nfam : s.nfam ≤ s'.nfam
  fcf : ∀ F, F < s.nfam → s'.fcf F = s.fcf F
  cell : ∀ w x, s.cellInfo w = some x → s'.cellInfo w = some x
  del : ∀ p, s.est p = .deleted → s'.est p = .deleted

/-- A page owned by `t` is unchanged. -/
def Same (t : Nat) (p : PID) (s s' : St K V) : Prop :=
  s.own p = some t → s'.own p = some t ∧ s'.mt p = s.mt p ∧ s'.pend p = s.pend p ∧
    (s.info p = none → s'.info p = none) ∧ (s'.est p = .deleted → s.est p = .deleted)

/-- What steps of other threads preserve for thread `t`. -/
structure Rely (t : Nat) (s s' : St K V) : Prop where
  mono : Mono s s'
  own : ∀ p, Same t p s s'
  unp : ∀ p, s.info p ≠ none → s.est p = .unposted t → s'.est p = .unposted t
  ops : s'.ops t = s.ops t

/-- What a thread may assume about the states it finds, on top of the invariant. -/
inductive Regime where
  /-- nothing. -/
  | free
  /-- the root pointer is `r`, a page of family `B`. -/
  | fixed (r : PID) (B : Nat)
  /-- there is no removal mark. -/
  | nomark

/-- The states of a regime. -/
def Regime.ok (s : St K V) : Regime → Prop
  | free => True
  | fixed r B => s.root = r ∧ s.info r = some (B, none)
  | nomark => ∀ p b, s.mt p ≠ some (.removed b)

/-- Families of the pages at the bottom of a stack. -/
def Regime.bot : Regime → Nat → Prop
  | free, _ => True
  | fixed _ B, F => F = B
  | nomark, _ => True

/-- Events that may happen in a regime. -/
def Regime.fl : Regime → Flag → Prop
  | free, _ => True
  | fixed _ B, k => k = .targetMissed ∨ k = .nullNext ∨ (k = .emptyStack ∧ B = 0)
  | nomark, k => k = .targetMissed

/-- Context of a program: the thread, pages it must not touch, whether it may linearize, and what it
may assume. -/
structure Ctx where
  t : Nat
  X : PID → Prop
  pure : Bool
  reg : Regime

/-- Steps on the abstract map: none, or the thread's own pending operation takes effect. -/
def Lin (C : Ctx) (s s' : St K V) : Prop :=
  (s'.m = s.m ∧ s'.ops = s.ops) ∨
  (C.pure = false ∧ ∃ op r, s.ops C.t = .pending op ∧ Spec.Step s.m op s'.m r ∧
    s'.ops = Spec.setOp s.ops C.t (.done op r))

/-- `n` is the base node a chain stands for. -/
def IsCons (c : Chain K V) (n : Node K V) : Prop :=
  n.inner = !c.isLeaf ∧ n.low = c.low ∧ n.high = c.high ∧ n.next = c.nextPid ∧ n.recs = c.flat

/-- What a step of a program guarantees. -/
structure Guar (C : Ctx) (s s' : St K V) : Prop where
  rely : ∀ u, u ≠ C.t → Rely u s s'
  mono : Mono s s'
  keep : ∀ p, C.X p → Same C.t p s s'
  lin : Lin C s s'
  acq : ∀ p u, s'.own p = some u → s.own p = some u ∨
    (u = C.t ∧ ∀ b, s.mt p ≠ some (.removed b))
  pnd : ∀ p n, s'.pend p = some n → s.pend p = some n ∨
    ∃ c, s.mt p = some c ∧ c.isRemoved = false ∧ IsCons c n

/-- A step that does not change the abstract map. -/
structure GuarM (C : Ctx) (s s' : St K V) : Prop where
  g : Guar C s s'
  m : s'.m = s.m

/-- A successful compare-and-swap that replaces `o` by `n`. -/
structure GuarC (C : Ctx) (o n : Chain K V) (s s' : St K V) : Prop where
  g : Guar C s s'
  m : ¬ RecDelta o n → s'.m = s.m

/-- What a plain store may overwrite: nothing, a removal mark of this thread (with the
node it took away), or the very head whose split is installed (the right half is in place). -/
def StoreOK (cfg : Cfg K) (t : Nat) (s : St K V) (p : PID) (c : Chain K V) : Prop :=
  s.mt p = none ∨
  (∃ b n, s.mt p = some (.removed b) ∧ s.own p = some t ∧ s.pend p = some n ∧ c = .base n) ∨
  ∃ head l r q, s.mt p = some head ∧ head.needWait cfg = true ∧
    tryConsolidate cfg false head = some (.split l r) ∧ c = .base { l with next := q } ∧
    s.mt q = some (.base r)

/-- What a successful compare-and-swap finds: a live published page. -/
def CasOK (s : St K V) (p : PID) (o : Chain K V) : Prop := o.isRemoved = false ∧ s.info p ≠ none

/-- What holds across a whole call. -/
structure Keep (C : Ctx) (s s' : St K V) : Prop where
  mono : Mono s s'
  keep : ∀ p, C.X p → Same C.t p s s'
  ops : C.pure = true → s'.ops C.t = s.ops C.t

/-- Weakest precondition: whatever the other threads do in between, every step preserves the
invariant and the guarantee (for a suitable ghost update), undefined behaviour is not reached, and
`Q` holds at the end. -/
def wp (cfg : Cfg K) (C : Ctx) {α : Type} : Prog K V α → (α → St K V → Prop) → St K V → Prop
  | .ret a, Q, s => Q a s
  | .ub, _, _ => False
  | .stuck, _, _ => True
  | .flag k, _, _ => C.reg.fl k
  | .loadRoot k, Q, s => ∀ s', Rely C.t s s' → Inv cfg s' → C.reg.ok s' →
      ∃ s'', s''.toSh = s'.toSh ∧ Inv cfg s'' ∧ GuarM C s' s'' ∧ wp cfg C (k s'.root) Q s''
  | .storeRoot p k, Q, s => ∀ s', Rely C.t s s' → Inv cfg s' → C.reg.ok s' →
      ∃ s'', s''.toSh = { s'.toSh with root := p } ∧ Inv cfg s'' ∧ GuarM C s' s'' ∧ wp cfg C k Q s''
  | .casRoot o n k, Q, s => ∀ s', Rely C.t s s' → Inv cfg s' → C.reg.ok s' →
      (s'.root ≠ o → ∃ s'', s''.toSh = s'.toSh ∧ Inv cfg s'' ∧ GuarM C s' s'' ∧
        wp cfg C (k false) Q s'') ∧
      (s'.root = o → ∃ s'', s''.toSh = { s'.toSh with root := n } ∧ Inv cfg s'' ∧
        (GuarM C s' s'' ∧ s''.pend o = none) ∧ wp cfg C (k true) Q s'')
  | .load p k, Q, s => ∀ s', Rely C.t s s' → Inv cfg s' → C.reg.ok s' →
      ∃ c, s'.mt p = some c ∧ ∃ s'', s''.toSh = s'.toSh ∧ Inv cfg s'' ∧ GuarM C s' s'' ∧
        wp cfg C (k c) Q s''
  | .store p c k, Q, s => ∀ s', Rely C.t s s' → Inv cfg s' → C.reg.ok s' → StoreOK cfg C.t s' p c ∧
      ∃ s'', s''.toSh = { s'.toSh with mt := upd s'.mt p (some c) } ∧ Inv cfg s'' ∧
        GuarM C s' s'' ∧ wp cfg C k Q s''
  | .cas p o n k, Q, s => ∀ s', Rely C.t s s' → Inv cfg s' → C.reg.ok s' →
      (∃ s'', s''.toSh = s'.toSh ∧ Inv cfg s'' ∧ GuarM C s' s'' ∧ wp cfg C (k false) Q s'') ∧
      (s'.mt p = some o → CasOK s' p o ∧
        ∃ s'', s''.toSh = { s'.toSh with mt := upd s'.mt p (some n) } ∧
        Inv cfg s'' ∧ GuarC C o n s' s'' ∧ wp cfg C (k true) Q s'')
  | .newPid k, Q, s => ∀ s', Rely C.t s s' → Inv cfg s' → C.reg.ok s' →
      ∃ s'', s''.toSh = { s'.toSh with npid := s'.npid + 1 } ∧ Inv cfg s'' ∧ GuarM C s' s'' ∧
        wp cfg C (k s'.npid) Q s''
  | .newCell k, Q, s => ∀ s', Rely C.t s s' → Inv cfg s' → C.reg.ok s' →
      ∃ s'', s''.toSh = { s'.toSh with ncell := s'.ncell + 1, cells := upd s'.cells s'.ncell 0 } ∧
        Inv cfg s'' ∧ GuarM C s' s'' ∧ wp cfg C (k s'.ncell) Q s''
  | .loadCell w k, Q, s => ∀ s', Rely C.t s s' → Inv cfg s' → C.reg.ok s' →
      ∃ s'', s''.toSh = s'.toSh ∧ Inv cfg s'' ∧ GuarM C s' s'' ∧ wp cfg C (k (s'.cells w)) Q s''
  | .storeCell w p k, Q, s => ∀ s', Rely C.t s s' → Inv cfg s' → C.reg.ok s' →
      ∃ s'', s''.toSh = { s'.toSh with cells := upd s'.cells w p } ∧ Inv cfg s'' ∧ GuarM C s' s'' ∧
        wp cfg C k Q s''

/-! ## The relations -/

section
variable {s s' s'' : St K V} {t : Nat} {C : Ctx} {cfg : Cfg K}

theorem Mono.rfl : Mono s s where
  info := fun _ _ h => h
  nfam := Nat.le_refl _
  fcf := fun _ _ => Eq.refl _
  cell := fun _ _ h => h
  del := fun _ h => h

theorem Mono.trans (h1 : Mono s s') (h2 : Mono s' s'') : Mono s s'' where
  info := fun p x h => h2.info p x (h1.info p x h)
  nfam := Nat.le_trans h1.nfam h2.nfam
  fcf := fun F h => (h2.fcf F (Nat.lt_of_lt_of_le h h1.nfam)).trans (h1.fcf F h)
  cell := fun p x h => h2.cell p x (h1.cell p x h)
  del := fun p h => h2.del p (h1.del p h)

theorem Mono.info_ne (h : Mono s s') {p : PID} (hn : s.info p ≠ none) : s'.info p ≠ none := by
  cases e : s.info p with
  | none => exact absurd e hn
  | some x => rw [h.info p x e]; simp

theorem Same.rfl {p : PID} : Same t p s s := fun h => ⟨h, Eq.refl _, Eq.refl _, id, id⟩

theorem Same.trans {p : PID} (h1 : Same t p s s') (h2 : Same t p s' s'') : Same t p s s'' := by
  intro h
  obtain ⟨a1, a2, a3, a4, a5⟩ := h1 h
  obtain ⟨b1, b2, b3, b4, b5⟩ := h2 a1
  exact ⟨b1, b2.trans a2, b3.trans a3, fun e => b4 (a4 e), fun e => a5 (b5 e)⟩

theorem Rely.rfl : Rely t s s := ⟨Mono.rfl, fun _ => Same.rfl, fun _ _ h => h, Eq.refl _⟩

theorem Rely.trans (h1 : Rely t s s') (h2 : Rely t s' s'') : Rely t s s'' :=
  ⟨h1.mono.trans h2.mono, fun p => (h1.own p).trans (h2.own p),
    fun p hn h => h2.unp p (h1.mono.info_ne hn) (h1.unp p hn h), h2.ops.trans h1.ops⟩

theorem Guar.rfl : Guar C s s :=
  ⟨fun _ _ => Rely.rfl, Mono.rfl, fun _ _ => Same.rfl, Or.inl ⟨Eq.refl _, Eq.refl _⟩,
    fun _ _ h => Or.inl h, fun _ _ h => Or.inl h⟩

theorem GuarM.rfl : GuarM C s s := ⟨Guar.rfl, Eq.refl _⟩

theorem Keep.rfl : Keep C s s := ⟨Mono.rfl, fun _ _ => Same.rfl, fun _ => Eq.refl _⟩

theorem Keep.trans (h1 : Keep C s s') (h2 : Keep C s' s'') : Keep C s s'' :=
  ⟨h1.mono.trans h2.mono, fun p hp => (h1.keep p hp).trans (h2.keep p hp),
    fun h => (h2.ops h).trans (h1.ops h)⟩

theorem Rely.keep (h : Rely C.t s s') : Keep C s s' := ⟨h.mono, fun p _ => h.own p, fun _ => h.ops⟩

theorem Guar.toKeep (h : Guar C s s') : Keep C s s' := by
  refine ⟨h.mono, h.keep, fun hp => ?_⟩
  rcases h.lin with e | ⟨e, _⟩
  · rw [e.2]
  · rw [hp] at e; cases e

end

/-! ## Rules -/

section
variable {cfg : Cfg K} {C : Ctx} {α β : Type}

theorem wp_bind {p : Prog K V α} {f : α → Prog K V β} {Q : β → St K V → Prop} :
    ∀ {s : St K V}, wp cfg C p (fun a s => wp cfg C (f a) Q s) s → wp cfg C (p.bind f) Q s := by
  induction p with
  | ret a => intro s h; exact h
  | ub => intro s h; exact h
  | stuck => intro s h; exact h
  | flag k => intro s h; exact h
  | loadRoot k ih =>
    intro s h s' r i o
    obtain ⟨s'', a, b, c, d⟩ := h s' r i o
    exact ⟨s'', a, b, c, ih _ d⟩
  | storeRoot p k ih =>
    intro s h s' r i o
    obtain ⟨s'', a, b, c, d⟩ := h s' r i o
    exact ⟨s'', a, b, c, ih d⟩
  | casRoot o n k ih =>
    intro s h s' r i o
    obtain ⟨h1, h2⟩ := h s' r i o
    refine ⟨fun e => ?_, fun e => ?_⟩
    · obtain ⟨s'', a, b, c, d⟩ := h1 e
      exact ⟨s'', a, b, c, ih _ d⟩
    · obtain ⟨s'', a, b, c, d⟩ := h2 e
      exact ⟨s'', a, b, c, ih _ d⟩
  | load p k ih =>
    intro s h s' r i o
    obtain ⟨x, y, s'', a, b, c, d⟩ := h s' r i o
    exact ⟨x, y, s'', a, b, c, ih _ d⟩
  | store p c k ih =>
    intro s h s' r i o
    obtain ⟨so, s'', a, b, c, d⟩ := h s' r i o
    exact ⟨so, s'', a, b, c, ih d⟩
  | cas p o n k ih =>
    intro s h s' r i o
    obtain ⟨⟨s'', a, b, c, d⟩, h2⟩ := h s' r i o
    refine ⟨⟨s'', a, b, c, ih _ d⟩, fun e => ?_⟩
    obtain ⟨so, s'', a, b, c, d⟩ := h2 e
    exact ⟨so, s'', a, b, c, ih _ d⟩
  | newPid k ih =>
    intro s h s' r i o
    obtain ⟨s'', a, b, c, d⟩ := h s' r i o
    exact ⟨s'', a, b, c, ih _ d⟩
  | newCell k ih =>
    intro s h s' r i o
    obtain ⟨s'', a, b, c, d⟩ := h s' r i o
    exact ⟨s'', a, b, c, ih _ d⟩
  | loadCell w k ih =>
    intro s h s' r i o
    obtain ⟨s'', a, b, c, d⟩ := h s' r i o
    exact ⟨s'', a, b, c, ih _ d⟩
  | storeCell w p k ih =>
    intro s h s' r i o
    obtain ⟨s'', a, b, c, d⟩ := h s' r i o
    exact ⟨s'', a, b, c, ih d⟩

/-- The context may be weakened: fewer protected pages, more freedom to linearize. -/
def Ctx.le (D C : Ctx) : Prop :=
  D.t = C.t ∧ (∀ p, C.X p → D.X p) ∧ (C.pure = true → D.pure = true) ∧ D.reg = C.reg

theorem Guar.weaken {D : Ctx} {s s' : St K V} (h : Guar D s s') (hd : D.le C) : Guar C s s' := by
  obtain ⟨h1, h2, h3, _⟩ := hd
  refine ⟨fun u hu => h.rely u (by rw [h1]; exact hu), h.mono, fun p hp => ?_, ?_,
    fun p u hu => by rw [← h1]; exact h.acq p u hu, h.pnd⟩
  · have := h.keep p (h2 p hp); rw [h1] at this; exact this
  · rcases h.lin with e | ⟨e1, op, r, e2, e3, e4⟩
    · exact Or.inl e
    · refine Or.inr ⟨?_, op, r, by rw [← h1]; exact e2, e3, by rw [← h1]; exact e4⟩
      cases hc : C.pure with
      | false => rfl
      | true => rw [h3 hc] at e1; cases e1

theorem GuarM.weaken {D : Ctx} {s s' : St K V} (h : GuarM D s s') (hd : D.le C) : GuarM C s s' :=
  ⟨h.g.weaken hd, h.m⟩

theorem GuarC.weaken {D : Ctx} {o n : Chain K V} {s s' : St K V} (h : GuarC D o n s s')
    (hd : D.le C) : GuarC C o n s s' := ⟨h.g.weaken hd, h.m⟩

/-- Frame rule: what holds across the call is known at the end. -/
theorem wp_frame {D : Ctx} {p : Prog K V α} {Q Q' : α → St K V → Prop} (hd : D.le C) :
    ∀ {s : St K V}, wp cfg D p Q s → Inv cfg s →
      (∀ a s', Inv cfg s' → Keep D s s' → Q a s' → Q' a s') → wp cfg C p Q' s := by
  have key : ∀ {s s' s'' : St K V}, Rely D.t s s' → Guar D s' s'' → Keep D s s'' :=
    fun r g => r.keep.trans g.toKeep
  have ht := hd.1
  have hg := hd.2.2.2
  induction p with
  | ret a => intro s h hi hq; exact hq a s hi Keep.rfl h
  | ub => intro s h _ _; exact h
  | stuck => intro s h _ _; trivial
  | flag k => intro s h _ _; show C.reg.fl k; rw [← hg]; exact h
  | loadRoot k ih =>
    intro s h _ hq s' r i o
    rw [← ht] at r
    rw [← hg] at o
    obtain ⟨s'', a, b, c, d⟩ := h s' r i o
    exact ⟨s'', a, b, c.weaken hd, ih _ d b fun x y i kp => hq x y i ((key r c.g).trans kp)⟩
  | storeRoot p k ih =>
    intro s h _ hq s' r i o
    rw [← ht] at r
    rw [← hg] at o
    obtain ⟨s'', a, b, c, d⟩ := h s' r i o
    exact ⟨s'', a, b, c.weaken hd, ih d b fun x y i kp => hq x y i ((key r c.g).trans kp)⟩
  | casRoot o n k ih =>
    intro s h _ hq s' r i o
    rw [← ht] at r
    rw [← hg] at o
    obtain ⟨h1, h2⟩ := h s' r i o
    refine ⟨fun e => ?_, fun e => ?_⟩
    · obtain ⟨s'', a, b, c, d⟩ := h1 e
      exact ⟨s'', a, b, c.weaken hd, ih _ d b fun x y i kp => hq x y i ((key r c.g).trans kp)⟩
    · obtain ⟨s'', a, b, c, d⟩ := h2 e
      exact ⟨s'', a, b, ⟨c.1.weaken hd, c.2⟩, ih _ d b fun x y i kp => hq x y i ((key r c.1.g).trans kp)⟩
  | load p k ih =>
    intro s h _ hq s' r i o
    rw [← ht] at r
    rw [← hg] at o
    obtain ⟨x, y, s'', a, b, c, d⟩ := h s' r i o
    exact ⟨x, y, s'', a, b, c.weaken hd, ih _ d b fun x y i kp => hq x y i ((key r c.g).trans kp)⟩
  | store p c k ih =>
    intro s h _ hq s' r i o
    rw [← ht] at r
    rw [← hg] at o
    obtain ⟨so, s'', a, b, c, d⟩ := h s' r i o
    rw [ht] at so
    exact ⟨so, s'', a, b, c.weaken hd, ih d b fun x y i kp => hq x y i ((key r c.g).trans kp)⟩
  | cas p o n k ih =>
    intro s h _ hq s' r i o
    rw [← ht] at r
    rw [← hg] at o
    obtain ⟨⟨s'', a, b, c, d⟩, h2⟩ := h s' r i o
    refine ⟨⟨s'', a, b, c.weaken hd, ih _ d b fun x y i kp => hq x y i ((key r c.g).trans kp)⟩,
      fun e => ?_⟩
    obtain ⟨so, s'', a, b, c, d⟩ := h2 e
    exact ⟨so, s'', a, b, c.weaken hd, ih _ d b fun x y i kp => hq x y i ((key r c.g).trans kp)⟩
  | newPid k ih =>
    intro s h _ hq s' r i o
    rw [← ht] at r
    rw [← hg] at o
    obtain ⟨s'', a, b, c, d⟩ := h s' r i o
    exact ⟨s'', a, b, c.weaken hd, ih _ d b fun x y i kp => hq x y i ((key r c.g).trans kp)⟩
  | newCell k ih =>
    intro s h _ hq s' r i o
    rw [← ht] at r
    rw [← hg] at o
    obtain ⟨s'', a, b, c, d⟩ := h s' r i o
    exact ⟨s'', a, b, c.weaken hd, ih _ d b fun x y i kp => hq x y i ((key r c.g).trans kp)⟩
  | loadCell w k ih =>
    intro s h _ hq s' r i o
    rw [← ht] at r
    rw [← hg] at o
    obtain ⟨s'', a, b, c, d⟩ := h s' r i o
    exact ⟨s'', a, b, c.weaken hd, ih _ d b fun x y i kp => hq x y i ((key r c.g).trans kp)⟩
  | storeCell w p k ih =>
    intro s h _ hq s' r i o
    rw [← ht] at r
    rw [← hg] at o
    obtain ⟨s'', a, b, c, d⟩ := h s' r i o
    exact ⟨s'', a, b, c.weaken hd, ih d b fun x y i kp => hq x y i ((key r c.g).trans kp)⟩

/-- Other threads cannot invalidate a weakest precondition. -/
theorem wp_rely {p : Prog K V α} {Q : α → St K V → Prop} {s s' : St K V}
    (hQ : ∀ a, Q a s → Q a s') (hr : Rely C.t s s') (h : wp cfg C p Q s) : wp cfg C p Q s' := by
  cases p with
  | ret a => exact hQ a h
  | ub => exact h
  | stuck => trivial
  | flag k => exact h
  | _ => intro s2 r2 i2 o2; exact h s2 (hr.trans r2) i2 o2

/-! ### Reads -/

theorem wp_loadRoot {k : PID → Prog K V α} {Q : α → St K V → Prop} {s : St K V}
    (h : ∀ s', Rely C.t s s' → Inv cfg s' → C.reg.ok s' → wp cfg C (k s'.root) Q s') :
    wp cfg C (.loadRoot k) Q s :=
  fun s' r i o => ⟨s', rfl, i, GuarM.rfl, h s' r i o⟩

theorem wp_load {p : PID} {k : Chain K V → Prog K V α} {Q : α → St K V → Prop} {s : St K V}
    (h : ∀ s', Rely C.t s s' → Inv cfg s' → C.reg.ok s' → ∃ c, s'.mt p = some c ∧ wp cfg C (k c) Q s') :
    wp cfg C (.load p k) Q s :=
  fun s' r i o => by
    obtain ⟨c, a, b⟩ := h s' r i o
    exact ⟨c, a, s', rfl, i, GuarM.rfl, b⟩

theorem wp_loadCell {w : Nat} {k : PID → Prog K V α} {Q : α → St K V → Prop} {s : St K V}
    (h : ∀ s', Rely C.t s s' → Inv cfg s' → C.reg.ok s' → wp cfg C (k (s'.cells w)) Q s') :
    wp cfg C (.loadCell w k) Q s :=
  fun s' r i o => ⟨s', rfl, i, GuarM.rfl, h s' r i o⟩

theorem wp_cas {p : PID} {o n : Chain K V} {k : Bool → Prog K V α} {Q : α → St K V → Prop}
    {s : St K V}
    (h : ∀ s', Rely C.t s s' → Inv cfg s' → C.reg.ok s' → wp cfg C (k false) Q s' ∧
      (s'.mt p = some o → CasOK s' p o ∧
        ∃ s'', s''.toSh = { s'.toSh with mt := upd s'.mt p (some n) } ∧
        Inv cfg s'' ∧ GuarC C o n s' s'' ∧ wp cfg C (k true) Q s'')) :
    wp cfg C (.cas p o n k) Q s :=
  fun s' r i o => ⟨⟨s', rfl, i, GuarM.rfl, (h s' r i o).1⟩, (h s' r i o).2⟩

end

end BwTree
