import Verif.Weak.Inv

/-!
# Weaker orders allow more (proof side)
-/

namespace BwTree.Weak

set_option linter.unusedSectionVars false

variable {K V : Type} {α : Type} {o o' : Orders} {C : Nat}

/-- `o'` is at least as strong as `o`. -/
structure Orders.Le (o o' : Orders) : Prop where
  root : o.root = true → o'.root = true
  word : o.word = true → o'.word = true
  tab : o.tab = true → o'.tab = true

/-- The same write, passing on less. -/
structure MsgLe (x x' : Msg K V) : Prop where
  loc : x.loc = x'.loc
  ts : x.ts = x'.ts
  val : x.val = x'.val
  rmw : x.rmw = x'.rmw
  view : View.Le x.view x'.view

/-- The same memory, but the writes pass on less. -/
structure MemLe (m m' : Mem K V) : Prop where
  init : m.init = m'.init
  ncell : m.ncell = m'.ncell
  fwd : ∀ x ∈ m.msgs, ∃ x' ∈ m'.msgs, MsgLe x x'
  bwd : ∀ x' ∈ m'.msgs, ∃ x ∈ m.msgs, MsgLe x x'

theorem View.put_mono {v v' : View} {l : Loc} {t : Nat} (h : View.Le v v') :
    View.Le (v.put l t) (v'.put l t) := by
  intro l'
  rw [View.get_put, View.get_put]
  have := h l
  have := h l'
  split <;> omega

theorem View.join_mono {a a' b b' : View} (h : View.Le a a') (h' : View.Le b b') :
    View.Le (View.join a b) (View.join a' b') := by
  intro l
  rw [View.get_join, View.get_join]
  have := h l
  have := h' l
  omega

theorem readV_mono {b b' : Bool} (hb : b = true → b' = true) {v v' : View} (h : View.Le v v')
    {x x' : Msg K V} (hx : MsgLe x x') : View.Le (readV b v x) (readV b' v' x') := by
  unfold readV
  rw [hx.loc, hx.ts]
  cases b with
  | true => rw [hb rfl]; exact View.join_mono (View.put_mono h) hx.view
  | false =>
    cases b' with
    | true => exact (View.put_mono h).trans View.le_join_left
    | false => exact View.put_mono h

theorem wmsg_mono {b b' : Bool} (hb : b = true → b' = true) {v v' : View} (h : View.Le v v')
    {l : Loc} {t : Nat} {y : WVal K V} {e e' : View} (he : View.Le e e') {r : Option Nat} :
    MsgLe (wmsg b v l t y e r) (wmsg b' v' l t y e' r) := by
  refine ⟨rfl, rfl, rfl, rfl, View.join_mono (View.put_mono ?_) he⟩
  cases b with
  | true => rw [hb rfl]; exact h
  | false => exact View.nil_le

variable {m m' : Mem K V} {v v' : View}

theorem MemLe.add (h : MemLe m m') {x x' : Msg K V} (hx : MsgLe x x') : MemLe (m.add x) (m'.add x') where
  init := h.init
  ncell := h.ncell
  fwd := fun y hy => (List.mem_cons.1 hy).elim
    (fun e => ⟨x', List.mem_cons_self, e ▸ hx⟩)
    fun hy => let ⟨y', h1, h2⟩ := h.fwd y hy; ⟨y', List.mem_cons_of_mem _ h1, h2⟩
  bwd := fun y hy => (List.mem_cons.1 hy).elim
    (fun e => ⟨x, List.mem_cons_self, e ▸ hx⟩)
    fun hy => let ⟨y', h1, h2⟩ := h.bwd y hy; ⟨y', List.mem_cons_of_mem _ h1, h2⟩

theorem MemLe.readable (h : MemLe m m') (hv : View.Le v v') {l : Loc} {x' : Msg K V}
    (hr : Readable m' v' l x') : ∃ x, Readable m v l x ∧ MsgLe x x' := by
  obtain ⟨h1, h2, h3⟩ := hr
  rcases h1 with h1 | h1
  · obtain ⟨x, hx, hl⟩ := h.bwd _ h1
    exact ⟨x, ⟨Or.inl hx, hl.loc.trans h2, by rw [hl.ts]; exact Nat.le_trans (hv l) h3⟩, hl⟩
  · subst h1
    exact ⟨m.first l, ⟨Or.inr rfl, rfl, Nat.le_trans (hv l) h3⟩,
      ⟨rfl, rfl, congrFun h.init l, rfl, View.Le.rfl⟩⟩

theorem MemLe.free (h : MemLe m m') {l : Loc} {t : Nat} (hf : Free m' l t) : Free m l t := by
  refine ⟨hf.1, fun x hx hl => ?_⟩
  obtain ⟨x', hx', hle⟩ := h.fwd x hx
  have := hf.2 x' hx' (hle.loc.symm.trans hl)
  rw [hle.ts, hle.rmw]
  exact this

theorem MemLe.next (h : MemLe m m') {l : Loc} {f t : Nat} (hf : Next m' l f t) : Next m l f t := by
  refine ⟨hf.1, h.free hf.2.1, fun x hx hl => ?_⟩
  obtain ⟨x', hx', hle⟩ := h.fwd x hx
  have := hf.2.2 x' hx' (hle.loc.symm.trans hl)
  rw [hle.ts]
  exact this

theorem WStep.weaken {p p' : Prog K V α} {m1 : Mem K V} {v1 : View} (ho : Orders.Le o o')
    (hm : MemLe m m') (hv : View.Le v v') (hs : WStep o' C m' v' p m1 v1 p') :
    ∃ m2 v2, WStep o C m v p m2 v2 p' ∧ MemLe m2 m1 ∧ View.Le v2 v1 := by
  cases hs with
  | loadRoot k x r h1 h2 =>
    obtain ⟨x0, h3, h4⟩ := hm.readable hv h1
    exact ⟨_, _, .loadRoot _ _ _ _ _ h3 (h4.val.trans h2), hm, readV_mono ho.root hv h4⟩
  | storeRoot p k t h1 h2 =>
    exact ⟨_, _, .storeRoot _ _ _ _ t (Nat.lt_of_le_of_lt (hv _) h1) (hm.free h2),
      hm.add (wmsg_mono ho.root hv View.Le.rfl), View.put_mono hv⟩
  | casRootOk a b k x t h1 h2 h3 =>
    obtain ⟨x0, h4, h5⟩ := hm.readable hv h1
    refine ⟨_, _, .casRootOk _ _ _ _ _ x0 t h4 (h5.val.trans h2) (by rw [h5.ts]; exact hm.next h3), ?_,
      View.put_mono (readV_mono ho.root hv h5)⟩
    rw [h5.ts]
    exact hm.add (wmsg_mono ho.root (readV_mono ho.root hv h5) h5.view)
  | casRootFail a b k x r h1 h2 h3 =>
    obtain ⟨x0, h4, h5⟩ := hm.readable hv h1
    exact ⟨_, _, .casRootFail _ _ _ _ _ x0 r h4 (h5.val.trans h2) h3, hm, readV_mono ho.root hv h5⟩
  | load p k r x c h1 h2 h3 h4 =>
    obtain ⟨r0, h5, h6⟩ := hm.readable hv h1
    have hv' : View.Le (v.put r0.loc r0.ts) (v'.put r.loc r.ts) := by
      rw [h6.loc, h6.ts]; exact View.put_mono hv
    obtain ⟨x0, h7, h8⟩ := hm.readable hv' h3
    exact ⟨_, _, .load _ _ _ _ r0 x0 c h5 (h6.val ▸ h2) h7 (h8.val.trans h4), hm,
      readV_mono (fun h => h) hv' h8⟩
  | loadNull p k r x h1 h2 h3 h4 =>
    obtain ⟨r0, h5, h6⟩ := hm.readable hv h1
    have hv' : View.Le (v.put r0.loc r0.ts) (v'.put r.loc r.ts) := by
      rw [h6.loc, h6.ts]; exact View.put_mono hv
    obtain ⟨x0, h7, h8⟩ := hm.readable hv' h3
    exact ⟨_, _, .loadNull _ _ _ _ r0 x0 h5 (h6.val ▸ h2) h7 (h8.val.trans h4), hm, hv'⟩
  | loadNoRow p k r h1 h2 =>
    obtain ⟨r0, h5, h6⟩ := hm.readable hv h1
    exact ⟨_, _, .loadNoRow _ _ _ _ r0 h5 (h6.val.trans h2), hm, hv⟩
  | store p c k r t h1 h2 h3 h4 =>
    obtain ⟨r0, h5, h6⟩ := hm.readable hv h1
    have hv' : View.Le (v.put r0.loc r0.ts) (v'.put r.loc r.ts) := by
      rw [h6.loc, h6.ts]; exact View.put_mono hv
    exact ⟨_, _, .store _ _ _ _ _ r0 t h5 (h6.val ▸ h2) (Nat.lt_of_le_of_lt (hv' _) h3) (hm.free h4),
      hm.add (wmsg_mono (fun h => h) hv' View.Le.rfl), View.put_mono hv'⟩
  | storeNoRow p c k r h1 h2 =>
    obtain ⟨r0, h5, h6⟩ := hm.readable hv h1
    exact ⟨_, _, .storeNoRow _ _ _ _ _ r0 h5 (h6.val.trans h2), hm, hv⟩
  | casOk p a b k r x t h1 h2 h3 h4 h5 =>
    obtain ⟨r0, h6, h7⟩ := hm.readable hv h1
    have hv' : View.Le (v.put r0.loc r0.ts) (v'.put r.loc r.ts) := by
      rw [h7.loc, h7.ts]; exact View.put_mono hv
    obtain ⟨x0, h8, h9⟩ := hm.readable hv' h3
    refine ⟨_, _, .casOk _ _ _ _ _ _ r0 x0 t h6 (h7.val ▸ h2) h8 (h9.val.trans h4)
      (by rw [h9.ts]; exact hm.next h5), ?_, View.put_mono hv'⟩
    rw [h9.ts]
    exact hm.add (wmsg_mono (fun h => h) hv' h9.view)
  | casSame p a k r x h1 h2 h3 h4 =>
    obtain ⟨r0, h6, h7⟩ := hm.readable hv h1
    have hv' : View.Le (v.put r0.loc r0.ts) (v'.put r.loc r.ts) := by
      rw [h7.loc, h7.ts]; exact View.put_mono hv
    obtain ⟨x0, h8, h9⟩ := hm.readable hv' h3
    exact ⟨_, _, .casSame _ _ _ _ _ r0 x0 h6 (h7.val ▸ h2) h8 (h9.val.trans h4), hm,
      readV_mono (fun h => h) hv' h9⟩
  | casFail p a b k r h1 h2 =>
    obtain ⟨r0, h6, h7⟩ := hm.readable hv h1
    refine ⟨_, _, .casFail _ _ _ _ _ _ r0 h6 (h7.val ▸ h2), hm, ?_⟩
    rw [h7.loc, h7.ts]; exact View.put_mono hv
  | casNoRow p a b k r h1 h2 =>
    obtain ⟨r0, h6, h7⟩ := hm.readable hv h1
    exact ⟨_, _, .casNoRow _ _ _ _ _ _ r0 h6 (h7.val.trans h2), hm, hv⟩
  | newPid k x q t h1 h2 h3 h4 =>
    obtain ⟨x0, h5, h6⟩ := hm.readable hv h1
    refine ⟨_, _, .newPid _ _ _ x0 q t h5 (h6.val.trans h2) (by rw [h6.ts]; exact hm.next h3) h4, ?_,
      View.put_mono (readV_mono ho.tab hv h6)⟩
    rw [h6.ts]
    exact hm.add (wmsg_mono ho.tab (readV_mono ho.tab hv h6) h6.view)
  | newPidRow k x q t u h1 h2 h3 h4 h5 h6 =>
    obtain ⟨x0, h7, h8⟩ := hm.readable hv h1
    have hv' := readV_mono ho.tab hv h8
    refine ⟨_, _, .newPidRow _ _ _ x0 q t u h7 (h8.val.trans h2) (by rw [h8.ts]; exact hm.next h3) h4
      (Nat.lt_of_le_of_lt (hv' _) h5) (hm.free h6), ?_, View.put_mono (View.put_mono hv')⟩
    rw [h8.ts]
    exact (hm.add (wmsg_mono (fun h => h) hv' View.Le.rfl)).add
      (wmsg_mono ho.tab (View.put_mono hv') View.Le.rfl)
  | newCell k =>
    refine ⟨{ m with ncell := m.ncell + 1 }, v, ?_, ⟨hm.init, congrArg (· + 1) hm.ncell, hm.fwd, hm.bwd⟩,
      hv⟩
    rw [← hm.ncell]
    exact .newCell ..
  | loadCell w k x q h1 h2 =>
    obtain ⟨x0, h3, h4⟩ := hm.readable hv h1
    exact ⟨_, _, .loadCell _ _ _ _ _ q h3 (h4.val.trans h2), hm, readV_mono ho.word hv h4⟩
  | storeCell w p k t h1 h2 =>
    exact ⟨_, _, .storeCell _ _ _ _ _ t (Nat.lt_of_le_of_lt (hv _) h1) (hm.free h2),
      hm.add (wmsg_mono ho.word hv View.Le.rfl), View.put_mono hv⟩

/-- The same system, with views that have seen less. -/
structure SysLe (S S' : WSys K V) : Prop where
  mem : MemLe S.mem S'.mem
  view : ∀ t, View.Le (S.view t) (S'.view t)
  th : S.th = S'.th
  it : S.it = S'.it

theorem SysLe.rfl {S : WSys K V} : SysLe S S :=
  ⟨⟨Eq.refl _, Eq.refl _, fun x h => ⟨x, h, Eq.refl _, Eq.refl _, Eq.refl _, Eq.refl _, View.Le.rfl⟩,
    fun x h => ⟨x, h, Eq.refl _, Eq.refl _, Eq.refl _, Eq.refl _, View.Le.rfl⟩⟩,
    fun _ => View.Le.rfl, Eq.refl _, Eq.refl _⟩

variable [LinearOrder K] {cfg : Cfg K}

theorem WSysStep.weaken {S S' S1 : WSys K V} (ho : Orders.Le o o') (hl : SysLe S S')
    (hs : WSysStep o' C cfg S' S1) : ∃ S2, WSysStep o C cfg S S2 ∧ SysLe S2 S1 := by
  cases hs with
  | op t f c h =>
    exact ⟨_, .op _ t f c (by rw [hl.th]; exact h), hl.mem, hl.view, congrArg (fun g => upd g t _) hl.th,
      hl.it⟩
  | scan t f b e h =>
    exact ⟨_, .scan _ t f b e (by rw [hl.th]; exact h), hl.mem, hl.view,
      congrArg (fun g => upd g t _) hl.th, hl.it⟩
  | next t f p k e h h' =>
    exact ⟨_, .next _ t f p k e (by rw [hl.th]; exact h) (by rw [hl.it]; exact h'), hl.mem, hl.view,
      congrArg (fun g => upd g t _) hl.th, hl.it⟩
  | step t c p p' m' v' h h' =>
    obtain ⟨m2, v2, h1, h2, h3⟩ := h'.weaken ho hl.mem (hl.view t)
    refine ⟨_, .step _ t c p p' m2 v2 (by rw [hl.th]; exact h) h1, h2, fun u => ?_,
      congrArg (fun g => upd g t _) hl.th, hl.it⟩
    show View.Le (upd S.view t v2 u) (upd S'.view t v' u)
    by_cases e : u = t
    · subst e; rw [upd_same, upd_same]; exact h3
    · rw [upd_ne _ _ e, upd_ne _ _ e]; exact hl.view u
  | retOp t c r h =>
    exact ⟨_, .retOp _ t c r (by rw [hl.th]; exact h), hl.mem, hl.view,
      congrArg (fun g => upd g t _) hl.th, hl.it⟩
  | retVisit t b e r h =>
    exact ⟨_, .retVisit _ t b e r (by rw [hl.th]; exact h), hl.mem, hl.view,
      congrArg (fun g => upd g t _) hl.th, congrArg (fun g => upd g t _) hl.it⟩

theorem WRun.weaken {S₀ S : WSys K V} (ho : Orders.Le o o') (h : WRun o' C cfg S₀ S) :
    ∃ S', WRun o C cfg S₀ S' ∧ SysLe S' S := by
  induction h with
  | refl => exact ⟨_, .refl, .rfl⟩
  | step _ hs ih =>
    obtain ⟨S', h1, h2⟩ := ih
    obtain ⟨S2, h3, h4⟩ := hs.weaken ho h2
    exact ⟨S2, h1.step h3, h4⟩

end BwTree.Weak
