import Verif.Weak.Mono
import Verif.Weak.Start
import Verif.Weak.Exec
import Verif.Weak.Words

/-!
# The executions of `Conc/System` are executions of the weak machine (proof side)

Every read takes the last write.
-/

namespace BwTree.Weak

set_option linter.unusedSectionVars false

variable {K V : Type} {C : Nat}

/-- All three groups release/acquire. -/
def Orders.strong : Orders := ⟨true, true, true⟩

theorem Orders.le_strong (o : Orders) : Orders.Le o .strong := ⟨fun _ => rfl, fun _ => rfl, fun _ => rfl⟩

/-- `x` is the last write to `l`. -/
def Last (m : Mem K V) (l : Loc) (x : Msg K V) : Prop :=
  (x ∈ m.msgs ∨ x = m.first l) ∧ x.loc = l ∧ x.ts = topOf l m.msgs

variable {m : Mem K V} {l : Loc}

theorem topOf_spec {xs : List (Msg K V)} : topOf l xs = 0 ∨ ∃ x ∈ xs, x.loc = l ∧ x.ts = topOf l xs := by
  induction xs with
  | nil => exact Or.inl rfl
  | cons y ys ih =>
    simp only [topOf]
    split
    · rename_i e
      by_cases h : topOf l ys ≤ y.ts
      · exact Or.inr ⟨y, List.mem_cons_self, e, by omega⟩
      · rcases ih with ih | ⟨x, h1, h2, h3⟩
        · omega
        · exact Or.inr ⟨x, List.mem_cons_of_mem _ h1, h2, by omega⟩
    · rcases ih with ih | ⟨x, h1, h2, h3⟩
      · exact Or.inl ih
      · exact Or.inr ⟨x, List.mem_cons_of_mem _ h1, h2, h3⟩

theorem exists_last (m : Mem K V) (l : Loc) : ∃ x, Last m l x := by
  rcases topOf_spec (l := l) (xs := m.msgs) with h | ⟨x, h1, h2, h3⟩
  · exact ⟨m.first l, Or.inr rfl, rfl, h.symm⟩
  · exact ⟨x, Or.inl h1, h2, h3⟩

/-- The last value of `l` is `y`. -/
def Cur (m : Mem K V) (l : Loc) (y : WVal K V) : Prop := ∃ x, Last m l x ∧ x.val = y

/-- A view that has not seen the future. -/
def Seen (m : Mem K V) (v : View) : Prop := ∀ l, v.get l ≤ topOf l m.msgs

theorem Last.readable {x : Msg K V} (h : Last m l x) {v : View} (hv : Seen m v) : Readable m v l x :=
  ⟨h.1, h.2.1, by rw [h.2.2]; exact hv l⟩

theorem Last.next {x : Msg K V} (h : Last m l x) : Next m l x.ts (topOf l m.msgs + 1) := by
  rw [h.2.2]; exact next_top

theorem topOf_add {x : Msg K V} (l : Loc) :
    topOf l (m.add x).msgs = if x.loc = l then max x.ts (topOf l m.msgs) else topOf l m.msgs := rfl

theorem topOf_le_add {x : Msg K V} (l : Loc) : topOf l m.msgs ≤ topOf l (m.add x).msgs := by
  rw [topOf_add]; split <;> omega

theorem Seen.add {v : View} (h : Seen m v) {x : Msg K V} : Seen (m.add x) v :=
  fun l => Nat.le_trans (h l) (topOf_le_add l)

theorem Seen.put {v : View} (h : Seen m v) {l : Loc} {t : Nat} (ht : t ≤ topOf l m.msgs) :
    Seen m (v.put l t) := by
  intro l'
  rw [View.get_put]
  split
  · rename_i e; subst e; have := h l'; omega
  · exact h l'

theorem Seen.join {a b : View} (h : Seen m a) (h' : Seen m b) : Seen m (a.join b) := by
  intro l'
  rw [View.get_join]
  have := h l'
  have := h' l'
  omega

theorem Cur.add_same {x : Msg K V} (hx : topOf x.loc m.msgs < x.ts) : Cur (m.add x) x.loc x.val :=
  ⟨x, ⟨Or.inl List.mem_cons_self, rfl, by rw [topOf_add, if_pos rfl]; omega⟩, rfl⟩

theorem Cur.add_ne {x : Msg K V} {y : WVal K V} (h : Cur m l y) (hx : x.loc ≠ l) : Cur (m.add x) l y := by
  obtain ⟨z, ⟨h1, h2, h3⟩, h4⟩ := h
  exact ⟨z, ⟨h1.imp (List.mem_cons_of_mem _) id, h2, by rw [topOf_add, if_neg hx]; exact h3⟩, h4⟩

/-- No write passes on something of the future. -/
def Past (m : Mem K V) : Prop := ∀ x ∈ m.msgs, Seen m x.view

theorem Past.last (h : Past m) {x : Msg K V} (hx : Last m l x) : Seen m x.view := by
  rcases hx.1 with h1 | h1
  · exact h x h1
  · subst h1; exact fun _ => Nat.zero_le _

theorem Seen.readV {b : Bool} {v : View} (h : Seen m v) (hp : Past m) {x : Msg K V}
    (hx : Last m l x) : Seen m (readV b v x) := by
  have h1 : Seen m (v.put x.loc x.ts) := h.put (by rw [hx.2.2, hx.2.1])
  unfold Weak.readV
  split
  · exact h1.join (hp.last hx)
  · exact h1

theorem seen_wmsg {b : Bool} {v ext : View} (h : Seen m v) (he : Seen m ext) {t : Nat}
    {y : WVal K V} {r : Option Nat} :
    Seen (m.add (wmsg b v l t y ext r)) (wmsg b v l t y ext r).view := by
  have h0 : Seen (m.add (wmsg b v l t y ext r)) (if b then v else []) := by
    split
    · exact h.add
    · exact fun _ => Nat.zero_le _
  refine Seen.join (h0.put ?_) he.add
  rw [topOf_add, if_pos (show (wmsg b v l t y ext r).loc = l from rfl)]
  exact Nat.le_max_left _ _

theorem Past.add (h : Past m) {x : Msg K V} (hx : Seen (m.add x) x.view) : Past (m.add x) :=
  fun y hy => (List.mem_cons.1 hy).elim (fun e => e ▸ hx) fun hy => (h y hy).add

theorem seen_nil : Seen m [] := fun _ => Nat.zero_le _

theorem Seen.put_add {v : View} (h : Seen m v) {x : Msg K V} : Seen (m.add x) (v.put x.loc x.ts) :=
  h.add.put (by rw [topOf_add, if_pos rfl]; exact Nat.le_max_left _ _)

/-- What shared memory says about an object. -/
def shVal (sh : Sh K V) : Loc → WVal K V
  | .slot p => match sh.mt p with
    | some c => .chain c
    | none => .null
  | .root => .id sh.root
  | .word w => .id (sh.cells w)
  | .row _ => .null
  | .cnt => .id sh.npid

/-- The last writes are what shared memory holds. -/
structure Now (sh : Sh K V) (m : Mem K V) : Prop where
  cur : ∀ l, (∀ r, l ≠ .row r) → Cur m l (shVal sh l)
  past : Past m
  ncell : sh.ncell = m.ncell
  fresh : ∀ w, sh.ncell ≤ w → sh.cells w = 0
  row0 : m.init (.row 0) ≠ .null

theorem Now.write {sh sh' : Sh K V} (h : Now sh m) {x : Msg K V}
    (hx : topOf x.loc m.msgs < x.ts) (hs : Seen (m.add x) x.view) (hn : sh'.ncell = sh.ncell)
    (hf : ∀ w, sh'.ncell ≤ w → sh'.cells w = 0)
    (he : (∀ r, x.loc ≠ .row r) → shVal sh' x.loc = x.val)
    (ho : ∀ l, l ≠ x.loc → (∀ r, l ≠ .row r) → shVal sh' l = shVal sh l) : Now sh' (m.add x) where
  cur := fun l hl => by
    by_cases e : l = x.loc
    · subst e; rw [he hl]; exact Cur.add_same hx
    · rw [ho l e hl]; exact (h.cur l hl).add_ne fun e' => e e'.symm
  past := h.past.add hs
  ncell := hn.trans h.ncell
  fresh := hf
  row0 := h.row0

/-- A row that a thread may use. -/
theorem row_last {o : Orders} (hm : MemOK o C m) (h0 : m.init (.row 0) ≠ .null) {p : PID} {v : View}
    (hv : Seen m v) (hn : p ≠ 0 → ¬ ∃ x, Readable m v (.row (p / C)) x ∧ x.val = .null) :
    ∃ r, Last m (.row (p / C)) r ∧ r.val ≠ .null := by
  obtain ⟨r, hr⟩ := exists_last m (.row (p / C))
  refine ⟨r, hr, fun e => ?_⟩
  by_cases hp : p = 0
  · subst hp
    rcases hr.1 with h | h
    · exact (hm.2 r h).2 e
    · rw [Nat.zero_div] at h; subst h; exact h0 e
  · exact hn hp ⟨r, hr.readable hv, e⟩

variable {α : Type}

theorem astep_weak {sh sh' : Sh K V} {p p' : Prog K V α} {v : View}
    (hm : MemOK .strong C m) (hn : Now sh m) (hv : Seen m v) (hf : ¬ MayFault C m v p)
    {Q : α → (Nat → Prop) → Prop} {W : Nat → Prop} (hW : ∀ w, W w → w < sh.ncell) (hw : wd p Q W)
    (hs : AStep sh p sh' p') :
    ∃ m' v', WStep .strong C m v p m' v' p' ∧ Now sh' m' ∧ Seen m' v' ∧
      (∀ u, Seen m u → Seen m' u) ∧
      ∃ W', (∀ w, W' w → w < sh'.ncell) ∧ wd p' Q W' := by
  have lastv : ∀ {v : View} {l : Loc}, Seen m v → View.get v l < topOf l m.msgs + 1 :=
    fun h => Nat.lt_succ_of_le (h _)
  have hwne : ∀ {sh' : Sh K V}, sh'.ncell = sh.ncell → sh'.cells = sh.cells →
      ∀ w, sh'.ncell ≤ w → sh'.cells w = 0 := by
    intro sh' e1 e2 w h; rw [e2]; exact hn.fresh w (e1 ▸ h)
  cases hs with
  | loadRoot k =>
    obtain ⟨x, hx, e⟩ := hn.cur .root (by intro r h; cases h)
    exact ⟨_, _, .loadRoot _ _ _ x _ (hx.readable hv) e, hn, hv.readV hn.past hx, fun _ h => h, W, hW,
      hw _⟩
  | storeRoot p k =>
    refine ⟨_, _, .storeRoot _ _ _ _ _ (lastv hv) free_top, ?_, hv.put_add, fun _ h => h.add, W, hW, hw⟩
    refine hn.write (Nat.lt_succ_self _) (seen_wmsg hv seen_nil) rfl (hwne rfl rfl) (fun _ => rfl) ?_
    intro l hl _
    cases l <;> first | rfl | exact absurd rfl hl
  | casRootOk a b k he =>
    obtain ⟨x, hx, e⟩ := hn.cur .root (by intro r h; cases h)
    have hv' := hv.readV (b := true) hn.past hx
    refine ⟨_, _, .casRootOk _ _ _ _ _ x _ (hx.readable hv) (e.trans (by rw [← he]; rfl)) hx.next, ?_,
      hv'.put_add, fun _ h => h.add, W, hW, hw _⟩
    refine hn.write (Nat.lt_succ_self _) (seen_wmsg hv' (hn.past.last hx)) rfl (hwne rfl rfl)
      (fun _ => rfl) ?_
    intro l hl _
    cases l <;> first | rfl | exact absurd rfl hl
  | casRootFail a b k he =>
    obtain ⟨x, hx, e⟩ := hn.cur .root (by intro r h; cases h)
    exact ⟨_, _, .casRootFail _ _ _ _ _ x _ (hx.readable hv) e he, hn, hv.readV hn.past hx,
      fun _ h => h, W, hW, hw _⟩
  | load p k c he =>
    obtain ⟨r, hr, hr'⟩ := row_last hm hn.row0 hv (fun hp h => hf ⟨hp, Or.inl h⟩)
    have hv1 : Seen m (v.put r.loc r.ts) := hv.put (by rw [hr.2.2, hr.2.1])
    obtain ⟨x, hx, e⟩ := hn.cur (.slot p) (by intro r h; cases h)
    exact ⟨_, _, .load _ _ _ _ r x c (hr.readable hv) hr' (hx.readable hv1)
      (e.trans (by simp only [shVal, he])), hn, hv1.readV hn.past hx, fun _ h => h, W, hW, hw _⟩
  | loadNull p k he =>
    obtain ⟨r, hr, hr'⟩ := row_last hm hn.row0 hv (fun hp h => hf ⟨hp, Or.inl h⟩)
    have hv1 : Seen m (v.put r.loc r.ts) := hv.put (by rw [hr.2.2, hr.2.1])
    obtain ⟨x, hx, e⟩ := hn.cur (.slot p) (by intro r h; cases h)
    exact ⟨_, _, .loadNull _ _ _ _ r x (hr.readable hv) hr' (hx.readable hv1)
      (e.trans (by simp only [shVal, he])), hn, hv1, fun _ h => h, W, hW, trivial⟩
  | store p c k =>
    obtain ⟨r, hr, hr'⟩ := row_last hm hn.row0 hv (fun hp h => hf ⟨hp, h⟩)
    have hv1 : Seen m (v.put r.loc r.ts) := hv.put (by rw [hr.2.2, hr.2.1])
    refine ⟨_, _, .store _ _ _ _ _ r _ (hr.readable hv) hr' (lastv hv1) free_top, ?_, hv1.put_add,
      fun _ h => h.add, W, hW, hw⟩
    refine hn.write (Nat.lt_succ_self _) (seen_wmsg hv1 seen_nil) rfl (hwne rfl rfl)
      (fun _ => by simp [shVal, wmsg]) ?_
    intro l hl _
    cases l with
    | slot q => simp only [shVal]; rw [upd_ne _ _ (fun e => hl (by rw [e]; rfl))]
    | _ => rfl
  | casOk p a b k he =>
    obtain ⟨r, hr, hr'⟩ := row_last hm hn.row0 hv (fun hp h => hf ⟨hp, h⟩)
    have hv1 : Seen m (v.put r.loc r.ts) := hv.put (by rw [hr.2.2, hr.2.1])
    obtain ⟨x, hx, e⟩ := hn.cur (.slot p) (by intro r h; cases h)
    have e : x.val = .chain a := e.trans (by simp only [shVal, he])
    refine ⟨_, _, .casOk _ _ _ _ _ _ r x _ (hr.readable hv) hr' (hx.readable hv1) e hx.next, ?_,
      hv1.put_add, fun _ h => h.add, W, hW, hw _⟩
    refine hn.write (Nat.lt_succ_self _) (seen_wmsg hv1 (hn.past.last hx)) rfl (hwne rfl rfl)
      (fun _ => by simp [shVal, wmsg]) ?_
    intro l hl _
    cases l with
    | slot q => simp only [shVal]; rw [upd_ne _ _ (fun e => hl (by rw [e]; rfl))]
    | _ => rfl
  | casFail p a b k =>
    obtain ⟨r, hr, hr'⟩ := row_last hm hn.row0 hv (fun hp h => hf ⟨hp, h⟩)
    have hv1 : Seen m (v.put r.loc r.ts) := hv.put (by rw [hr.2.2, hr.2.1])
    exact ⟨_, _, .casFail _ _ _ _ _ _ r (hr.readable hv) hr', hn, hv1, fun _ h => h, W, hW, hw _⟩
  | newPid k =>
    obtain ⟨x, hx, e⟩ := hn.cur .cnt (by intro r h; cases h)
    have hv' := hv.readV (b := true) hn.past hx
    by_cases hq : (sh.npid + 1) / C = sh.npid / C
    · refine ⟨_, _, .newPid _ _ _ x _ _ (hx.readable hv) e hx.next hq, ?_, hv'.put_add,
        fun _ h => h.add, W, hW, hw _⟩
      refine hn.write (Nat.lt_succ_self _) (seen_wmsg hv' (hn.past.last hx)) rfl (hwne rfl rfl)
        (fun _ => rfl) ?_
      intro l hl _
      cases l <;> first | rfl | exact absurd rfl hl
    · have h1 : Now sh (m.add (wmsg false (readV true v x) (.row ((sh.npid + 1) / C))
          (topOf (.row ((sh.npid + 1) / C)) m.msgs + 1) (.id 1) [] none)) :=
        hn.write (Nat.lt_succ_self _) (seen_wmsg hv' seen_nil) rfl hn.fresh
          (fun h => absurd rfl (h _)) fun _ _ _ => rfl
      have hv2 := hv'.put_add (x := wmsg false (readV true v x) (.row ((sh.npid + 1) / C))
          (topOf (.row ((sh.npid + 1) / C)) m.msgs + 1) (.id 1) [] none)
      refine ⟨_, _, .newPidRow _ _ _ x _ _ _ (hx.readable hv) e hx.next hq (lastv hv') free_top, ?_,
        hv2.put_add, fun _ h => h.add.add, W, hW, hw _⟩
      refine h1.write ?_ (seen_wmsg hv2 seen_nil) rfl (hwne rfl rfl) (fun _ => rfl) ?_
      · show topOf .cnt (m.add _).msgs < _
        rw [topOf_add, if_neg (by intro h; cases h)]
        exact Nat.lt_succ_self _
      · intro l hl _
        cases l <;> first | rfl | exact absurd rfl hl
  | newCell k =>
    refine ⟨{ m with ncell := m.ncell + 1 }, v, ?_, ?_, hv, fun _ h => h,
      fun w => W w ∨ w = sh.ncell, fun w h => ?_, hw _⟩
    · rw [hn.ncell]; exact .newCell ..
    · have hc : upd sh.cells sh.ncell 0 = sh.cells := by
        funext w
        by_cases e : w = sh.ncell
        · subst e; rw [upd_same, hn.fresh _ (Nat.le_refl _)]
        · rw [upd_ne _ _ e]
      refine ⟨fun l hl => ?_, hn.past, congrArg (· + 1) hn.ncell, fun w h => ?_, hn.row0⟩
      · have h1 := hn.cur l hl
        have h2 : shVal { sh with ncell := sh.ncell + 1, cells := upd sh.cells sh.ncell 0 } l =
            shVal sh l := by
          rw [hc]
          cases l <;> rfl
        rw [h2]
        exact h1
      · show upd sh.cells sh.ncell 0 w = 0
        rw [hc]
        exact hn.fresh w (Nat.le_of_succ_le h)
    · show w < sh.ncell + 1
      rcases h with h | h
      · exact Nat.lt_succ_of_lt (hW w h)
      · rw [h]; exact Nat.lt_succ_self _
  | loadCell w k =>
    obtain ⟨x, hx, e⟩ := hn.cur (.word w) (by intro r h; cases h)
    exact ⟨_, _, .loadCell _ _ _ _ x _ (hx.readable hv) e, hn, hv.readV hn.past hx, fun _ h => h, W, hW,
      hw _⟩
  | storeCell w p k =>
    refine ⟨_, _, .storeCell _ _ _ _ _ _ (lastv hv) free_top, ?_, hv.put_add, fun _ h => h.add, W, hW,
      hw.2⟩
    refine hn.write (Nat.lt_succ_self _) (seen_wmsg hv seen_nil) rfl (fun w' h => ?_)
      (fun _ => by simp [shVal, wmsg]) ?_
    · show upd sh.cells w p w' = 0
      have h1 := hW w hw.1
      have h : sh.ncell ≤ w' := h
      rw [upd_ne _ _ (by omega)]
      exact hn.fresh w' h
    · intro l hl _
      cases l with
      | word q => simp only [shVal]; rw [upd_ne _ _ (fun e => hl (by rw [e]; rfl))]
      | _ => rfl

variable [LinearOrder K] {cfg : Cfg K}

/-- A thread sets only words that exist. -/
def ThWd (n : Nat) : TSt K V → Prop
  | .idle => True
  | .run _ p => ∃ W : Nat → Prop, (∀ w, W w → w < n) ∧ wd p anyR W

/-- The simulation. -/
structure ScSim (S : Sys K V) (W : WSys K V) : Prop where
  now : Now S.sh W.mem
  seen : ∀ t, Seen W.mem (W.view t)
  th : W.th = S.th
  it : W.it = S.it
  wd : ∀ t, ThWd S.sh.ncell (S.th t)

theorem _root_.BwTree.AStep.ncell {α : Type} {sh sh' : Sh K V} {p p' : Prog K V α} (h : AStep sh p sh' p') :
    sh.ncell ≤ sh'.ncell := by
  cases h <;> first | exact Nat.le_refl _ | exact Nat.le_succ _

theorem ThWd.mono {n n' : Nat} (h : n ≤ n') {x : TSt K V} (hx : ThWd n x) : ThWd n' x := by
  cases x with
  | idle => trivial
  | run c p =>
    obtain ⟨W, h1, h2⟩ := hx
    exact ⟨W, fun w hw => Nat.lt_of_lt_of_le (h1 w hw) h, h2⟩

theorem ScSim.step {S S' : Sys K V} {W : WSys K V} {l : Option (Spec.Event K V)} (h : ScSim S W)
    (hi : WInv .strong C W) (hs : SysStep cfg S l S') :
    ∃ W', WSysStep .strong C cfg W W' ∧ ScSim S' W' := by
  have keep : ∀ (t : Nat) {x : TSt K V}, ThWd S.sh.ncell x →
      ∀ u, ThWd S.sh.ncell (upd S.th t x u) := by
    intro t x hx u
    by_cases e : u = t
    · subst e; rw [upd_same]; exact hx
    · rw [upd_ne _ _ e]; exact h.wd u
  cases hs with
  | op t f c h1 =>
    exact ⟨_, .op _ t f c (by rw [h.th]; exact h1), h.now, h.seen, congrArg (fun g => upd g t _) h.th,
      h.it, keep t ⟨fun _ => False, fun _ h => h.elim, wd_bind runOp_wd fun _ _ _ _ => trivial⟩⟩
  | scan t f b e h1 =>
    exact ⟨_, .scan _ t f b e (by rw [h.th]; exact h1), h.now, h.seen,
      congrArg (fun g => upd g t _) h.th, h.it,
      keep t ⟨fun _ => False, fun _ h => h.elim, wd_noCell scanFirst_nc fun _ => trivial⟩⟩
  | next t f p k e h1 h2 =>
    exact ⟨_, .next _ t f p k e (by rw [h.th]; exact h1) (by rw [h.it]; exact h2), h.now, h.seen,
      congrArg (fun g => upd g t _) h.th, h.it,
      keep t ⟨fun _ => False, fun _ h => h.elim, wd_noCell scanFrom_nc fun _ => trivial⟩⟩
  | step t c p p' sh' h1 h2 =>
    have hp := hi.th t
    have h1' : W.th t = .run c p := by rw [h.th]; exact h1
    rw [h1'] at hp
    have hw := h.wd t
    rw [h1] at hw
    obtain ⟨X, hX, hw⟩ := hw
    obtain ⟨m', v', e1, e2, e3, e4, X', e5, e6⟩ :=
      astep_weak hi.mem h.now (h.seen t) (ProgOK.no_fault hi.mem hp) hX hw h2
    refine ⟨_, .step _ t c p p' m' v' h1' e1, e2, fun u => ?_, congrArg (fun g => upd g t _) h.th, h.it,
      fun u => ?_⟩
    · show Seen m' (upd W.view t v' u)
      by_cases e : u = t
      · subst e; rw [upd_same]; exact e3
      · rw [upd_ne _ _ e]; exact e4 _ (h.seen u)
    · show ThWd sh'.ncell (upd S.th t _ u)
      by_cases e : u = t
      · subst e; rw [upd_same]; exact ⟨X', e5, e6⟩
      · rw [upd_ne _ _ e]; exact (h.wd u).mono h2.ncell
  | retOp t c r h1 =>
    exact ⟨_, .retOp _ t c r (by rw [h.th]; exact h1), h.now, h.seen,
      congrArg (fun g => upd g t _) h.th, h.it, keep t trivial⟩
  | retVisit t b e r h1 =>
    exact ⟨_, .retVisit _ t b e r (by rw [h.th]; exact h1), h.now, h.seen,
      congrArg (fun g => upd g t _) h.th, congrArg (fun g => upd g t _) h.it, keep t trivial⟩

theorem ScSim.start {mp : K → Option V} {sh : Sh K V} (hi : Init cfg mp sh) :
    ScSim (Sys.start sh) (WSys.start C sh) where
  now := {
    cur := fun l hl => ⟨_, ⟨Or.inr rfl, rfl, rfl⟩, by
      cases l <;> first | rfl | exact absurd rfl (hl _)⟩
    past := fun _ h => by cases h
    ncell := rfl
    fresh := fun w _ => by cases hi <;> rfl
    row0 := by simp [WSys.start, initVal] }
  seen := fun _ _ => Nat.zero_le _
  th := rfl
  it := rfl
  wd := fun _ => trivial

theorem run_strong {mp : K → Option V} {sh : Sh K V} (hi : Init cfg mp sh)
    {h : List (Spec.Event K V)} {S : Sys K V} (hr : Run cfg (Sys.start sh) h S) :
    ∃ W : WSys K V, WRun .strong C cfg (WSys.start C sh) W ∧ ScSim S W := by
  have ht : ∀ W : WSys K V, Tame .strong W.mem := fun _ => ⟨Or.inl rfl, Or.inl rfl, Or.inl rfl⟩
  have inv : ∀ W : WSys K V, WRun .strong C cfg (WSys.start C sh) W → WInv .strong C W :=
    fun W h => h.inv (ht W) (WInv.start (hi.closed.initOK _ C))
  induction hr with
  | nil => exact ⟨_, .refl, .start hi⟩
  | tau _ hs ih =>
    obtain ⟨W, h1, h2⟩ := ih
    obtain ⟨W', h3, h4⟩ := h2.step (inv W h1) hs
    exact ⟨W', h1.step h3, h4⟩
  | event _ hs ih =>
    obtain ⟨W, h1, h2⟩ := ih
    obtain ⟨W', h3, h4⟩ := h2.step (inv W h1) hs
    exact ⟨W', h1.step h3, h4⟩

/-- Every execution of the interleaving model is an execution of the weak machine, whatever the
orders. -/
theorem run_weak (o : Orders) {mp : K → Option V} {sh : Sh K V} (hi : Init cfg mp sh)
    {h : List (Spec.Event K V)} {S : Sys K V} (hr : Run cfg (Sys.start sh) h S) :
    ∃ W : WSys K V, WRun o C cfg (WSys.start C sh) W ∧ W.th = S.th ∧ W.it = S.it := by
  obtain ⟨W, h1, h2⟩ := run_strong (C := C) hi hr
  obtain ⟨W', h3, h4⟩ := h1.weaken o.le_strong
  exact ⟨W', h3, h4.th.trans h2.th, h4.it.trans h2.it⟩

end BwTree.Weak
