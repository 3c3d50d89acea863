import Verif.Conc.ScanSpec
import Verif.Conc.System

/-!
# Soundness of the program logic for the thread system (proof side)
-/

namespace BwTree

set_option linter.unusedSectionVars false

variable {K V : Type} [LinearOrder K] {cfg : Cfg K} {s s' : St K V}

/-- Context of a top-level call. -/
def tctx (t : Nat) (R : Regime) : Ctx := { t := t, X := fun _ => False, pure := false, reg := R }

/-- Iterators refer to published leaves. -/
def ItOK (s : St K V) (o : Option (PID × K × Spec.Bound K)) : Prop :=
  ∀ p k e, o = some (p, k, e) → s.info p = some (0, some k)

/-- What a call ensures when it returns. -/
def CallPost (t : Nat) (c : Spec.Call K V) (r : Out K V) (s : St K V) : Prop :=
  s.ops t = .done c r.1 ∧ ItOK s r.2

/-- What holds for a thread. -/
def ThOK (cfg : Cfg K) (R : Regime) (s : St K V) (t : Nat) : TSt K V → Prop
  | .idle => s.ops t = .idle
  | .run c p => wp cfg (tctx t R) p (CallPost t c) s

/-- The relation between a ghost state and a state of the system; the threads assume `rg`. -/
structure SoundR (cfg : Cfg K) (rg : Nat → Regime) (s : St K V) (S : Sys K V) : Prop where
  sh : s.toSh = S.sh
  inv : Inv cfg s
  th : ∀ t, ThOK cfg (rg t) s t (S.th t)
  it : ∀ t, ItOK s (S.it t)
  mark : ∀ p u n, isMark (s.mt p) = true → s.own p = some u → s.pend p = some n →
    ∃ c, S.mark p = some (u, c) ∧ IsCons c n ∧ ∃ inner low, ChainWF cfg inner low c

/-- The relation, where nothing is assumed. -/
abbrev Sound (cfg : Cfg K) (s : St K V) (S : Sys K V) : Prop := SoundR cfg (fun _ => .free) s S

/-- A step that puts a record delta in front of a page. -/
def RecStep (S S' : Sys K V) : Prop :=
  ∃ t c p o n k, S.th t = .run c (.cas p o n k) ∧ RecDelta o n ∧ S.sh.mt p = some o ∧
    S'.sh.mt = upd S.sh.mt p (some n)

/-- Lower bounds and levels of pages do not change. -/
def Fix (s s' : St K V) : Prop :=
  ∀ p c, s.mt p = some c → c.isRemoved = false →
    (s'.mt p = some c ∧ s'.info p = none) ∨
    ∃ F low, s'.info p = some (F, low) ∧ c.low = low ∧ c.isLeaf = decide (F = 0)

/-- What every step of the system ensures. -/
structure StepOK (s s' : St K V) : Prop where
  mono : Mono s s'
  fix : Fix s s'

theorem Inv.fix_rfl (hI : Inv cfg s) : Fix s s := by
  intro p c hm hr
  cases hi : s.info p with
  | none => exact Or.inl ⟨hm, rfl⟩
  | some x =>
    obtain ⟨F, low⟩ := x
    have hw := (hI.live hi hm hr).2
    exact Or.inr ⟨F, low, rfl, hw.wf.low_eq, hw.isLeaf⟩

theorem Inv.fix (hI : Inv cfg s) (hI' : Inv cfg s') (hm : Mono s s')
    (hu : ∀ p c, s.info p = none → s.mt p = some c → s'.mt p = some c) : Fix s s' := by
  intro p c hc hr
  cases hi : s.info p with
  | none => exact hI'.fix_rfl p c (hu p c hi hc) hr
  | some x =>
    obtain ⟨F, low⟩ := x
    have hw := (hI.live hi hc hr).2
    exact Or.inr ⟨F, low, hm.info _ _ hi, hw.wf.low_eq, hw.isLeaf⟩

theorem Fix.trans {s'' : St K V} (h1 : Fix s s') (h2 : Fix s' s'') (hm : Mono s' s'') :
    Fix s s'' := by
  intro p c hc hr
  rcases h1 p c hc hr with ⟨a, _⟩ | ⟨F, low, a, b, e⟩
  · exact h2 p c a hr
  · exact Or.inr ⟨F, low, hm.info _ _ a, b, e⟩

theorem StepOK.trans {s'' : St K V} (h1 : StepOK s s') (h2 : StepOK s' s'') : StepOK s s'' :=
  ⟨h1.mono.trans h2.mono, h1.fix.trans h2.fix h2.mono⟩

theorem Chain.needWait_removed (hpos : 0 < cfg.maxDelta) (b : Bool) :
    (Chain.removed b : Chain K V).needWait cfg = false := by
  have h1 : ¬ cfg.maxDelta ≤ 0 := by omega
  have h2 : ¬ (cfg.page : Int) < 0 := by omega
  simp [Chain.needWait, Chain.cnt, Chain.size, h1, h2]

/-- Every chain in the mapping table is well-formed. -/
theorem Inv.slot_chain (hI : Inv cfg s) {p : PID} {c : Chain K V}
    (hm : s.mt p = some c) (hr : c.isRemoved = false) : ∃ inner low, ChainWF cfg inner low c := by
  cases hi : s.info p with
  | none =>
    obtain ⟨n, rfl, h1, h2⟩ := hI.p.unpub p c hi hm
    exact ⟨n.inner, n.low, rfl, rfl, h1⟩
  | some x =>
    obtain ⟨F, low⟩ := x
    exact ⟨_, _, (hI.live hi hm hr).2.wf⟩

/-- A successful exchange of the root disposes of the contents of the removed root. -/
def RootGone {α : Type} (p : Prog K V α) (s s' : St K V) : Prop :=
  ∀ o n k, p = .casRoot o n k → s.root = o → s'.pend o = none

/-- One atomic access. -/
theorem astep_sound {C : Ctx} {α : Type} {p p' : Prog K V α} {Q : α → St K V → Prop} {sh' : Sh K V}
    (hI : Inv cfg s) (hO : C.reg.ok s) (h : wp cfg C p Q s) (hs : AStep s.toSh p sh' p') :
    ∃ s', s'.toSh = sh' ∧ Inv cfg s' ∧ Guar C s s' ∧ wp cfg C p' Q s' ∧
      (s'.m = s.m ∨ ∃ q o n k, p = .cas q o n k ∧ RecDelta o n ∧ s.mt q = some o ∧
        sh'.mt = upd s.mt q (some n)) ∧
      (∀ q c, s.info q = none → s.mt q = some c → sh'.mt q = some c) ∧
      RootGone p s s' := by
  generalize hsh : s.toSh = sh at hs
  cases hs with
  | loadRoot k =>
    subst hsh
    obtain ⟨s'', a, b, c, d⟩ := h s Rely.rfl hI hO
    exact ⟨s'', a, b, c.g, d, Or.inl c.m, fun _ _ _ e => e, fun _ _ _ e => (by cases e)⟩
  | storeRoot p k =>
    subst hsh
    obtain ⟨s'', a, b, c, d⟩ := h s Rely.rfl hI hO
    exact ⟨s'', a, b, c.g, d, Or.inl c.m, fun _ _ _ e => e, fun _ _ _ e => (by cases e)⟩
  | casRootOk o n k hr =>
    subst hsh
    obtain ⟨s'', a, b, c, d⟩ := (h s Rely.rfl hI hO).2 hr
    exact ⟨s'', a, b, c.1.g, d, Or.inl c.1.m, fun _ _ _ e => e, fun _ _ _ e _ => by cases e; exact c.2⟩
  | casRootFail o n k hr =>
    subst hsh
    obtain ⟨s'', a, b, c, d⟩ := (h s Rely.rfl hI hO).1 hr
    exact ⟨s'', a, b, c.g, d, Or.inl c.m, fun _ _ _ e => e, fun _ _ _ e h => by cases e; exact absurd h hr⟩
  | load p k c hm =>
    subst hsh
    obtain ⟨c', e, s'', a, b, g, d⟩ := h s Rely.rfl hI hO
    have : c' = c := Option.some.inj (e.symm.trans hm)
    subst this
    exact ⟨s'', a, b, g.g, d, Or.inl g.m, fun _ _ _ e => e, fun _ _ _ e => (by cases e)⟩
  | loadNull p k hm =>
    subst hsh
    obtain ⟨c', e, _⟩ := h s Rely.rfl hI hO
    have hm' : s.mt p = none := hm
    rw [hm'] at e; cases e
  | store p c k =>
    subst hsh
    obtain ⟨so, s'', a, b, g, d⟩ := h s Rely.rfl hI hO
    refine ⟨s'', a, b, g.g, d, Or.inl g.m, fun q x hi hx => ?_, fun _ _ _ e => (by cases e)⟩
    obtain ⟨n, e, _⟩ := hI.p.unpub q x hi hx
    have hne : q ≠ p := by
      intro e'; subst e'
      rcases so with so | ⟨b, _, so, _⟩ | ⟨head, l, r, q', so, sw, _⟩
      · rw [so] at hx; cases hx
      · rw [so, e] at hx; cases hx
      · have : head = x := Option.some.inj (so.symm.trans hx)
        rw [this, e] at sw; cases sw
    exact (upd_ne s.mt (some c) hne).trans hx
  | casOk p o n k hm =>
    subst hsh
    obtain ⟨so, s'', a, b, g, d⟩ := (h s Rely.rfl hI hO).2 hm
    refine ⟨s'', a, b, g.g, d, ?_, fun q x hi hx => ?_, fun _ _ _ e => (by cases e)⟩
    · by_cases hr : RecDelta o n
      · exact Or.inr ⟨p, o, n, k, rfl, hr, hm, rfl⟩
      · exact Or.inl (g.m hr)
    · have hne : q ≠ p := by intro e; subst e; exact so.2 hi
      exact (upd_ne s.mt (some n) hne).trans hx
  | casFail p o n k =>
    subst hsh
    obtain ⟨s'', a, b, c, d⟩ := (h s Rely.rfl hI hO).1
    exact ⟨s'', a, b, c.g, d, Or.inl c.m, fun _ _ _ e => e, fun _ _ _ e => (by cases e)⟩
  | newPid k =>
    subst hsh
    obtain ⟨s'', a, b, c, d⟩ := h s Rely.rfl hI hO
    exact ⟨s'', a, b, c.g, d, Or.inl c.m, fun _ _ _ e => e, fun _ _ _ e => (by cases e)⟩
  | newCell k =>
    subst hsh
    obtain ⟨s'', a, b, c, d⟩ := h s Rely.rfl hI hO
    exact ⟨s'', a, b, c.g, d, Or.inl c.m, fun _ _ _ e => e, fun _ _ _ e => (by cases e)⟩
  | loadCell w k =>
    subst hsh
    obtain ⟨s'', a, b, c, d⟩ := h s Rely.rfl hI hO
    exact ⟨s'', a, b, c.g, d, Or.inl c.m, fun _ _ _ e => e, fun _ _ _ e => (by cases e)⟩
  | storeCell w p k =>
    subst hsh
    obtain ⟨s'', a, b, c, d⟩ := h s Rely.rfl hI hO
    exact ⟨s'', a, b, c.g, d, Or.inl c.m, fun _ _ _ e => e, fun _ _ _ e => (by cases e)⟩

/-- Invariants do not depend on the pending operations. -/
theorem Inv.setOps (hI : Inv cfg s) (ops : Nat → Spec.OpSt K V) :
    Inv cfg { s with ops := ops } :=
  ⟨hI.l, ⟨hI.p.npos, hI.p.fresh, hI.p.slot, hI.p.frozen, hI.p.owned, hI.p.pend, hI.p.del, hI.p.root,
    hI.p.cell, hI.p.cfresh, hI.p.unpub⟩⟩

theorem ItOK.mono {o : Option (PID × K × Spec.Bound K)} (h : ItOK s o) (hm : Mono s s') :
    ItOK s' o := fun p k e he => hm.info _ _ (h p k e he)

theorem ThOK.rely {R : Regime} {t : Nat} {x : TSt K V} (h : ThOK cfg R s t x)
    (hr : Rely t s s') : ThOK cfg R s' t x := by
  cases x with
  | idle => exact hr.ops.trans h
  | run c p =>
    refine wp_rely (fun a ha => ?_) hr h
    exact ⟨hr.ops.trans ha.1, ha.2.mono hr.mono⟩

theorem rely_setOp {t u : Nat} (x : Spec.OpSt K V) (hu : u ≠ t) :
    Rely u s { s with ops := Spec.setOp s.ops t x } :=
  ⟨⟨fun _ _ h => h, Nat.le_refl _, fun _ _ => rfl, fun _ _ h => h, fun _ h => h⟩,
    fun _ h => ⟨h, rfl, rfl, id, id⟩, fun _ _ h => h, by simp [Spec.setOp, hu]⟩

theorem Inv.stepOK_setOp (hI : Inv cfg s) {t : Nat} (x : Spec.OpSt K V) :
    StepOK s { s with ops := Spec.setOp s.ops t x } :=
  ⟨(rely_setOp (t := t) (u := t + 1) x (Nat.succ_ne_self t)).mono,
    hI.fix (hI.setOps _) (rely_setOp (t := t) (u := t + 1) x (Nat.succ_ne_self t)).mono
      fun _ _ _ h => h⟩

/-- A call. -/
theorem SoundR.call {rg : Nat → Regime} {S : Sys K V} (hS : SoundR cfg rg s S) {t : Nat} {c : Spec.Call K V}
    {p : Prog K V (Out K V)} (hi : S.th t = .idle)
    (hwp : wp cfg (tctx t (rg t)) p (CallPost t c) { s with ops := Spec.setOp s.ops t (.pending c) }) :
    SoundR cfg rg { s with ops := Spec.setOp s.ops t (.pending c) }
      { S with th := upd S.th t (.run c p) } := by
  refine ⟨hS.sh, hS.inv.setOps _, fun u => ?_, fun u => hS.it u, hS.mark⟩
  by_cases hu : u = t
  · subst hu
    simp only [upd_same]
    exact hwp
  · simp only [upd_ne _ _ hu]
    exact (hS.th u).rely (rely_setOp _ hu)

/-- The atomic map moves along. -/
def Follows (s s' : St K V) (h : List (Spec.Event K V)) : Prop :=
  ∀ (a : Spec.AMap K V) (g : List (Spec.Event K V)),
    Spec.Accepts a g ⟨s.m, s.ops⟩ → Spec.Accepts a (g ++ h) ⟨s'.m, s'.ops⟩

theorem Guar.follows {C : Ctx} (h : Guar C s s') : Follows s s' [] := by
  intro a g hg
  rw [List.append_nil]
  rcases h.lin with ⟨e1, e2⟩ | ⟨_, op, r, e1, e2, e3⟩
  · rw [e1, e2]; exact hg
  · have := Spec.Accepts.lin C.t op _ r hg e1 e2
    rw [e3]; exact this

theorem visitPost {R : Regime} {t : Nat} {b e : Spec.Bound K} {x : List (K × V) × Option (K × PID)}
    (h : VisPost (tctx t R) b e x s) : CallPost t (.visit b e) (visitOut e x) s := by
  refine ⟨h.1, ?_⟩
  intro p k e' he
  cases hx : x.2 with
  | none => rw [visitOut, hx] at he; cases he
  | some y =>
    rw [visitOut, hx] at he
    have he' : (y.2, y.1, e) = (p, k, e') := Option.some.inj he
    have h1 : y.2 = p := congrArg Prod.fst he'
    have h2 : y.1 = k := congrArg (fun z => z.2.1) he'
    rw [← h1, ← h2]
    exact h.2 _ _ hx

/-- Every access to shared memory is matched, and keeps the guarantee. -/
theorem SoundR.access {S : Sys K V} {rg : Nat → Regime} (hS : SoundR cfg rg s S) {t : Nat}
    (hO : (rg t).ok s) {c : Spec.Call K V} {p p' : Prog K V (Out K V)} {sh' : Sh K V}
    (ht : S.th t = .run c p) (ha : AStep S.sh p sh' p') :
    ∃ s', SoundR cfg rg s'
        { S with sh := sh', th := upd S.th t (.run c p'), mark := newMark t S.sh sh' S.mark } ∧
      Guar (tctx t (rg t)) s s' ∧ StepOK s s' ∧
      (¬ RecStep S { S with sh := sh', th := upd S.th t (.run c p'), mark := newMark t S.sh sh' S.mark } →
        s'.m = s.m) ∧ RootGone p s s' := by
  have hw := hS.th t
  rw [ht] at hw
  rw [← hS.sh] at ha
  obtain ⟨s', e1, e2, e3, e4, e5, e6, e7⟩ := astep_sound hS.inv hO hw ha
  have hmt : s'.mt = sh'.mt := congrArg Sh.mt e1
  refine ⟨s', ⟨e1, e2, fun u => ?_, fun u => (hS.it u).mono e3.mono, ?_⟩, e3,
    ⟨e3.mono, hS.inv.fix e2 e3.mono (by rw [hmt]; exact e6)⟩, ?_, e7⟩
  · by_cases hu : u = t
    · subst hu; simp only [upd_same]; exact e4
    · simp only [upd_ne _ _ hu]; exact (hS.th u).rely (e3.rely u hu)
  · intro q u n hq ho hp
    have key : ∀ b, newMark t S.sh sh' S.mark q = b →
        (isMark (s.mt q) = true → S.mark q = b) ∧
        (isMark (s.mt q) = false → (s.mt q).map (fun c => (t, c)) = b) := by
      intro b hb
      rw [newMark, ← hmt, hq, ← hS.sh] at hb
      refine ⟨fun e => ?_, fun e => ?_⟩ <;> simpa [e] using hb
    obtain ⟨k1, k2⟩ := key _ rfl
    show ∃ c, newMark t S.sh sh' S.mark q = some (u, c) ∧ IsCons c n ∧ _
    have nomark : ∀ c, s.mt q = some c → c.isRemoved = false → isMark (s.mt q) = false := by
      intro c h1 h2; rw [h1]; exact h2
    cases hm : isMark (s.mt q) with
    | true =>
      rw [← k1 hm]
      have ho' : s.own q = some u := by
        rcases e3.acq q u ho with h | ⟨_, h⟩
        · exact h
        · exfalso
          cases hx : s.mt q with
          | none => rw [hx] at hm; cases hm
          | some x =>
            rw [hx] at hm
            cases x with
            | removed b => exact h b hx
            | base n => cases hm
            | delta d n => cases hm
      rcases e3.pnd q n hp with h | ⟨c, h1, h2, _⟩
      · exact hS.mark q u n hm ho' h
      · rw [nomark c h1 h2] at hm; cases hm
    | false =>
      rw [← k2 hm]
      rcases e3.pnd q n hp with h | ⟨c, h1, h2, h3⟩
      · obtain ⟨b, hb⟩ := (hS.inv.p.pend q n h).2.2.1
        rw [hb] at hm; cases hm
      · refine ⟨c, ?_, h3, hS.inv.slot_chain h1 h2⟩
        have hut : u = t := by
          rcases e3.acq q u ho with h | ⟨h, _⟩
          · by_contra hu
            have := ((e3.rely u hu).own q h).2.1
            rw [this, hm] at hq; cases hq
          · exact h
        rw [h1, hut]; rfl
  · intro hn
    rcases e5 with h | ⟨q, o, n, k, h1, h2, h3, h4⟩
    · exact h
    · subst h1
      refine absurd ⟨t, c, q, o, n, k, ht, h2, ?_, ?_⟩ hn
      · rw [← hS.sh]; exact h3
      · rw [← hS.sh]; exact h4

/-- Calls and returns are matched; they change nothing but the state of the operation. -/
theorem SoundR.event (hc : CfgOK2 cfg) {S S' : Sys K V} {l : Spec.Event K V}
    {rg : Nat → Regime} (hS : SoundR cfg rg s S) (hs : SysStep cfg S (some l) S') :
    ∃ ops, SoundR cfg rg { s with ops := ops } S' ∧ Follows s { s with ops := ops } [l] ∧
      StepOK s { s with ops := ops } := by
  have hcall : ∀ t, S.th t = .idle → s.ops t = .idle := by
    intro t ht
    have := hS.th t
    rw [ht] at this
    exact this
  cases hs with
  | op t f o hi =>
    refine ⟨_, hS.call hi ?_, ?_, hS.inv.stepOK_setOp _⟩
    · apply wp_bind
      refine wp_frame (C := tctx t (rg t)) (D := tctx t (rg t)) ⟨rfl, fun _ h => h, fun h => h, rfl⟩
        (runOp_spec (C := tctx t (rg t)) hc rfl (fun _ h => h) f (by simp [Spec.setOp, tctx]))
        (hS.inv.setOps _) ?_
      intro r s2 _ _ hr
      exact ⟨hr, fun p k e h => by cases h⟩
    · intro a g hg
      exact Spec.Accepts.inv t _ hg (hcall t hi)
  | scan t f b e hi =>
    refine ⟨_, hS.call hi ?_, ?_, hS.inv.stepOK_setOp _⟩
    · apply wp_bind
      refine wp_frame (C := tctx t (rg t)) (D := tctx t (rg t)) ⟨rfl, fun _ h => h, fun h => h, rfl⟩
        (scanFirst_spec (C := tctx t (rg t)) hc rfl f (by simp [Spec.setOp, tctx]))
        (hS.inv.setOps _) ?_
      intro r s2 _ _ hr
      exact visitPost hr
    · intro a g hg
      exact Spec.Accepts.inv t _ hg (hcall t hi)
  | next t f p k e hi hit =>
    refine ⟨_, hS.call hi ?_, ?_, hS.inv.stepOK_setOp _⟩
    · apply wp_bind
      refine wp_frame (C := tctx t (rg t)) (D := tctx t (rg t)) ⟨rfl, fun _ h => h, fun h => h, rfl⟩
        (scanNext_spec (C := tctx t (rg t)) hc rfl f (hS.inv.setOps _) (by simp [Spec.setOp, tctx])
          (hS.it t p k e hit)) (hS.inv.setOps _) ?_
      intro r s2 _ _ hr
      exact visitPost hr
    · intro a g hg
      exact Spec.Accepts.inv t _ hg (hcall t hi)
  | retOp t o r ht =>
    have hw := hS.th t
    rw [ht] at hw
    refine ⟨Spec.setOp s.ops t .idle,
      ⟨hS.sh, hS.inv.setOps _, fun u => ?_, fun u => hS.it u, hS.mark⟩, ?_,
      hS.inv.stepOK_setOp _⟩
    · by_cases hu : u = t
      · subst hu; simp only [upd_same]; show Spec.setOp _ _ _ _ = _; simp [Spec.setOp]
      · simp only [upd_ne _ _ hu]; exact (hS.th u).rely (rely_setOp _ hu)
    · intro a g hg
      exact Spec.Accepts.ret t _ _ hg hw.1
  | retVisit t b e r ht =>
    have hw := hS.th t
    rw [ht] at hw
    refine ⟨Spec.setOp s.ops t .idle,
      ⟨hS.sh, hS.inv.setOps _, fun u => ?_, fun u => ?_, hS.mark⟩, ?_,
      hS.inv.stepOK_setOp _⟩
    · by_cases hu : u = t
      · subst hu; simp only [upd_same]; show Spec.setOp _ _ _ _ = _; simp [Spec.setOp]
      · simp only [upd_ne _ _ hu]; exact (hS.th u).rely (rely_setOp _ hu)
    · by_cases hu : u = t
      · subst hu; simp only [upd_same]; exact hw.2
      · simp only [upd_ne _ _ hu]; exact hS.it u
    · intro a g hg
      exact Spec.Accepts.ret t _ _ hg hw.1

/-- Every step of the system is matched. -/
theorem SoundR.step (hc : CfgOK2 cfg) {S S' : Sys K V} {l : Option (Spec.Event K V)}
    {rg : Nat → Regime} (hS : SoundR cfg rg s S) (hO : ∀ t, (rg t).ok s)
    (hs : SysStep cfg S l S') :
    ∃ s', SoundR cfg rg s' S' ∧ Follows s s' l.toList ∧ StepOK s s' ∧ (¬ RecStep S S' → s'.m = s.m) := by
  cases l with
  | some e =>
    obtain ⟨ops, h1, h2, h3⟩ := hS.event hc hs
    exact ⟨_, h1, h2, h3, fun _ => rfl⟩
  | none =>
    cases hs with
    | step t c p p' sh' ht ha =>
      obtain ⟨s', h1, h2, h3, h4, _⟩ := hS.access (hO t) ht ha
      exact ⟨s', h1, h2.follows, h3, h4⟩

theorem Sound.step (hc : CfgOK2 cfg) {S S' : Sys K V} {l : Option (Spec.Event K V)}
    (hS : Sound cfg s S) (hs : SysStep cfg S l S') :
    ∃ s', Sound cfg s' S' ∧ Follows s s' l.toList ∧ StepOK s s' ∧ (¬ RecStep S S' → s'.m = s.m) :=
  SoundR.step hc hS (fun _ => trivial) hs

end BwTree
