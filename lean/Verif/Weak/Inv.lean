import Verif.Weak.Model
import Verif.Weak.Known

/-!
# Known page IDs have filled slots (proof side)

Every write carries a view in which the page IDs it mentions resolve, as long as the accesses through
which page IDs travel are release and acquire.
-/

namespace BwTree.Weak

set_option linter.unusedSectionVars false

/-! ## Views -/

theorem View.get_put {v : View} {l l' : Loc} {t : Nat} :
    View.get (v.put l t) l' = if l' = l then max t (v.get l) else v.get l' := by
  induction v with
  | nil =>
    simp only [View.put, View.get]
    split <;> split <;> simp_all
  | cons x v ih =>
    simp only [View.put]
    split
    · rename_i e
      simp only [View.get]
      subst e
      split
      · rename_i e; subst e; simp only [if_true]; omega
      · rename_i e; simp [Ne.symm e]
    · rename_i e
      simp only [View.get, ih]
      split
      · rename_i e'
        have : ¬ l' = l := fun h => e (e'.trans h)
        simp [this]
      · rename_i e'
        split <;> rename_i e''
        · subst e''; simp
        · rfl

theorem View.get_join {a b : View} {l : Loc} : View.get (a.join b) l = max (a.get l) (b.get l) := by
  induction a with
  | nil => simp [View.join, View.get]
  | cons x a ih =>
    have e : View.join (x :: a) b = View.put x.1 x.2 (View.join a b) := rfl
    rw [e, View.get_put]
    simp only [View.get]
    split
    · rename_i h
      subst h
      rw [ih]
      simp only [if_true]
      omega
    · rename_i h
      rw [ih]
      simp [Ne.symm h]

/-- One view has seen everything another one has seen. -/
def View.Le (a b : View) : Prop := ∀ l, a.get l ≤ b.get l

theorem View.Le.rfl {a : View} : View.Le a a := fun _ => Nat.le_refl _

theorem View.Le.trans {a b c : View} (h : View.Le a b) (h' : View.Le b c) : View.Le a c :=
  fun l => Nat.le_trans (h l) (h' l)

theorem View.nil_le {a : View} : View.Le [] a := fun _ => Nat.zero_le _

theorem View.le_put {v : View} {l : Loc} {t : Nat} : View.Le v (v.put l t) := by
  intro l'
  rw [View.get_put]
  split
  · rename_i e; subst e; exact Nat.le_max_right _ _
  · exact Nat.le_refl _

theorem View.put_get {v : View} {l : Loc} {t : Nat} : t ≤ View.get (v.put l t) l := by
  rw [View.get_put]; simp

theorem View.le_join_left {a b : View} : View.Le a (a.join b) := by
  intro l; rw [View.get_join]; exact Nat.le_max_left _ _

theorem View.le_join_right {a b : View} : View.Le b (a.join b) := by
  intro l; rw [View.get_join]; exact Nat.le_max_right _ _

variable {K V : Type}

theorem le_readV {b : Bool} {v : View} {x : Msg K V} : View.Le v (readV b v x) := by
  unfold readV
  split
  · exact View.le_put.trans View.le_join_left
  · exact View.le_put

theorem view_le_readV {v : View} {x : Msg K V} : View.Le x.view (readV true v x) :=
  View.le_join_right

theorem le_wmsg {v ext : View} {l : Loc} {t : Nat} {y : WVal K V} {r : Option Nat} :
    View.Le v (wmsg true v l t y ext r).view :=
  View.le_put.trans View.le_join_left

/-! ## The invariant -/

/-- A null initial value of `l` is out of sight. -/
def Ok (i : Loc → WVal K V) (v : View) (l : Loc) : Prop := 0 < v.get l ∨ i l ≠ .null

/-- The page ID resolves to a filled slot. -/
def Knows (C : Nat) (i : Loc → WVal K V) (v : View) (p : PID) : Prop :=
  p = 0 ∨ (Ok i v (.row (p / C)) ∧ Ok i v (.slot p))

theorem Ok.mono {i : Loc → WVal K V} {v v' : View} (h : View.Le v v') {l : Loc} (hk : Ok i v l) :
    Ok i v' l := hk.imp_left fun x => Nat.lt_of_lt_of_le x (h l)

theorem Knows.mono {C : Nat} {i : Loc → WVal K V} {v v' : View} (h : View.Le v v') {p : PID}
    (hk : Knows C i v p) : Knows C i v' p :=
  hk.imp_right fun x => ⟨x.1.mono h, x.2.mono h⟩

/-- What the value of an object may be, given the view of the write.  Without release/acquire on the
counter nothing is taken over with a page ID. -/
def ValOK (o : Orders) (C : Nat) (i : Loc → WVal K V) (v : View) : Loc → WVal K V → Prop
  | .slot _, .chain c => ∀ q, c.Ids q → Knows C i v q
  | .slot _, .null => True
  | .root, .id q => Knows C i v q
  | .word _, .id q => Knows C i v q
  | .row _, _ => True
  | .cnt, .id q => Ok i (if o.tab then v else []) (.row (q / C))
  | _, _ => False

/-- Initial values. -/
def InitOK (o : Orders) (C : Nat) (i : Loc → WVal K V) : Prop := ∀ l, ValOK o C i [] l (i l)

/-- Memory. -/
def MemOK (o : Orders) (C : Nat) (m : Mem K V) : Prop :=
  InitOK o C m.init ∧ ∀ x ∈ m.msgs, ValOK o C m.init x.view x.loc x.val ∧ x.val ≠ .null

/-- The relaxed groups have not been written. -/
def Tame (o : Orders) (m : Mem K V) : Prop :=
  (o.root = true ∨ ∀ x ∈ m.msgs, x.loc ≠ .root) ∧
  (o.word = true ∨ ∀ x ∈ m.msgs, ∀ w, x.loc ≠ .word w) ∧
  (o.tab = true ∨ ∀ x ∈ m.msgs, ∀ r, x.loc ≠ .row r)

theorem Tame.mono {o : Orders} {m m' : Mem K V} (h : m.msgs ⊆ m'.msgs) (ht : Tame o m') : Tame o m :=
  ⟨ht.1.imp_right fun x y hy => x y (h hy), ht.2.1.imp_right fun x y hy => x y (h hy),
    ht.2.2.imp_right fun x y hy => x y (h hy)⟩

variable [LinearOrder K] {α : Type}

/-- A program in a view. -/
def ProgOK (C : Nat) (i : Loc → WVal K V) (v : View) (Q : α → (PID → Prop) → Prop)
    (p : Prog K V α) : Prop :=
  ∃ N F : PID → Prop, (∀ q, N q → Knows C i v q) ∧ (∀ q, F q → Ok i v (.row (q / C))) ∧ kp p Q N F

theorem In.knows {C : Nat} {i : Loc → WVal K V} {v : View} {N : PID → Prop}
    (hN : ∀ q, N q → Knows C i v q) {p : PID} (h : In N p) : Knows C i v p :=
  h.elim Or.inl (hN p)

variable {o : Orders} {C : Nat} {m m' : Mem K V} {v v' : View} {p p' : Prog K V α}
  {Q : α → (PID → Prop) → Prop}

/-- The write a thread reads. -/
theorem MemOK.read (h : MemOK o C m) {l : Loc} {x : Msg K V} (hx : Readable m v l x) :
    ValOK o C m.init x.view l x.val := by
  obtain ⟨hx, hl, -⟩ := hx
  rcases hx with hx | hx
  · rw [← hl]; exact (h.2 x hx).1
  · rw [hx]; exact h.1 l

theorem MemOK.add (h : MemOK o C m) {x : Msg K V} (hx : ValOK o C m.init x.view x.loc x.val)
    (hn : x.val ≠ .null) : MemOK o C (m.add x) :=
  ⟨h.1, fun y hy => (List.mem_cons.1 hy).elim (fun e => by rw [e]; exact ⟨hx, hn⟩) (h.2 y)⟩

theorem WStep.ok (hs : WStep o C m v p m' v' p') (ht : Tame o m') (hm : MemOK o C m)
    (hp : ProgOK C m.init v Q p) :
    m'.init = m.init ∧ m.msgs ⊆ m'.msgs ∧ MemOK o C m' ∧ View.Le v v' ∧ ProgOK C m.init v' Q p' := by
  obtain ⟨N, F, hN, hF, hk⟩ := hp
  have hsub : ∀ x : Msg K V, m.msgs ⊆ (m.add x).msgs := fun x => List.subset_cons_self _ _
  cases hs with
  | loadRoot k x r hr he =>
    have hv := hm.read hr
    rw [he] at hv
    have hq : Knows C m.init (readV o.root v x) r := by
      rcases ht.1 with e | e
      · rw [e]; exact Knows.mono view_le_readV hv
      · rcases hr.1 with h | h
        · exact absurd hr.2.1 (e x h)
        · refine Knows.mono ?_ hv
          rw [h]; exact View.nil_le
    refine ⟨rfl, fun _ h => h, hm, le_readV, _, F, fun q hq' => ?_, fun q h => (hF q h).mono le_readV, hk r⟩
    rcases hq' with h | h
    · exact (hN q h).mono le_readV
    · rw [h]; exact hq
  | storeRoot p k t hl hf =>
    have hr : o.root = true := ht.1.resolve_right fun e => e _ List.mem_cons_self rfl
    have hle : View.Le v (wmsg o.root v .root t (.id p : WVal K V) [] none).view := by
      rw [hr]; exact le_wmsg
    refine ⟨rfl, hsub _, hm.add ?_ (by intro h; cases h), View.le_put, N, F,
      fun q h => (hN q h).mono View.le_put, fun q h => (hF q h).mono View.le_put, hk.2⟩
    exact (hk.1.knows hN).mono hle
  | casRootOk a b k x t hr he hn =>
    have hro : o.root = true := ht.1.resolve_right fun e => e _ List.mem_cons_self rfl
    have hle : View.Le v (wmsg o.root (readV o.root v x) .root t (.id b : WVal K V) x.view (some x.ts)).view := by
      rw [hro]; exact le_readV.trans le_wmsg
    have hle' : View.Le v ((readV o.root v x).put .root t) := le_readV.trans View.le_put
    refine ⟨rfl, hsub _, hm.add ?_ (by intro h; cases h), hle', N, F,
      fun q h => (hN q h).mono hle', fun q h => (hF q h).mono hle', hk.2 true⟩
    exact (hk.1.knows hN).mono hle
  | casRootFail a b k x r hr he hne =>
    exact ⟨rfl, fun _ h => h, hm, le_readV, N, F,
      fun q h => (hN q h).mono le_readV, fun q h => (hF q h).mono le_readV, hk.2 false⟩
  | load p k r x c h1 h2 h3 h4 =>
    have hv := hm.read h3
    rw [h4] at hv
    have hle : View.Le v (readV true (v.put r.loc r.ts) x) := View.le_put.trans le_readV
    refine ⟨rfl, fun _ h => h, hm, hle, _, F, fun q hq => ?_, fun q h => (hF q h).mono hle, hk.2 c⟩
    rcases hq with h | h
    · exact (hN q h).mono hle
    · exact Knows.mono view_le_readV (hv q h)
  | loadNull p k r x h1 h2 h3 h4 =>
    exact ⟨rfl, fun _ h => h, hm, View.le_put, N, F, fun q h => (hN q h).mono View.le_put,
      fun q h => (hF q h).mono View.le_put, trivial⟩
  | loadNoRow p k r h1 h2 => exact ⟨rfl, fun _ h => h, hm, View.Le.rfl, N, F, hN, hF, trivial⟩
  | store p c k r t h1 h2 h3 h4 =>
    have hle : View.Le v ((v.put r.loc r.ts).put (.slot p) t) := View.le_put.trans View.le_put
    refine ⟨rfl, hsub _, hm.add ?_ (by intro h; cases h), hle, _, F, fun q hq => ?_,
      fun q h => (hF q h).mono hle, hk.2.2⟩
    · intro q hq
      exact ((hk.2.1 q hq).knows hN).mono (View.le_put.trans le_wmsg)
    · rcases hq with h | h
      · exact (hN q h).mono hle
      · subst h
        rcases hk.1 with h | h
        · exact (h.knows hN).mono hle
        · refine Or.inr ⟨(hF q h).mono hle, Or.inl ?_⟩
          exact Nat.lt_of_lt_of_le h4.1 View.put_get
  | storeNoRow p c k r h1 h2 => exact ⟨rfl, fun _ h => h, hm, View.Le.rfl, N, F, hN, hF, trivial⟩
  | casOk p a b k r x t h1 h2 h3 h4 h5 =>
    have hle : View.Le v ((v.put r.loc r.ts).put (.slot p) t) := View.le_put.trans View.le_put
    refine ⟨rfl, hsub _, hm.add ?_ (by intro h; cases h), hle, N, F, fun q h => (hN q h).mono hle,
      fun q h => (hF q h).mono hle, hk.2.2 true⟩
    intro q hq
    exact ((hk.2.1 q hq).knows hN).mono (View.le_put.trans le_wmsg)
  | casSame p a k r x h1 h2 h3 h4 =>
    have hle : View.Le v (readV true (v.put r.loc r.ts) x) := View.le_put.trans le_readV
    exact ⟨rfl, fun _ h => h, hm, hle, N, F, fun q h => (hN q h).mono hle,
      fun q h => (hF q h).mono hle, hk.2.2 true⟩
  | casFail p a b k r h1 h2 =>
    exact ⟨rfl, fun _ h => h, hm, View.le_put, N, F, fun q h => (hN q h).mono View.le_put,
      fun q h => (hF q h).mono View.le_put, hk.2.2 false⟩
  | casNoRow p a b k r h1 h2 => exact ⟨rfl, fun _ h => h, hm, View.Le.rfl, N, F, hN, hF, trivial⟩
  | newPid k x q t h1 h2 h3 h4 =>
    have hv := hm.read h1
    rw [h2] at hv
    have hv : Ok m.init (if o.tab then x.view else []) (.row (q / C)) := hv
    have hq : Ok m.init (readV o.tab v x) (.row (q / C)) := by
      refine hv.mono ?_
      cases o.tab
      · exact View.nil_le
      · exact view_le_readV
    have hle : View.Le v ((readV o.tab v x).put .cnt t) := le_readV.trans View.le_put
    refine ⟨rfl, hsub _, hm.add ?_ (by intro h; cases h), hle, N, _, fun q h => (hN q h).mono hle,
      fun q' h => ?_, hk q⟩
    · show Ok m.init (if o.tab then _ else []) (.row ((q + 1) / C))
      rw [h4]
      refine hv.mono ?_
      cases o.tab
      · exact View.nil_le
      · exact view_le_readV.trans le_wmsg
    · rcases h with h | h
      · exact (hF q' h).mono hle
      · rw [h]; exact hq.mono View.le_put
  | newPidRow k x q t u h1 h2 h3 h4 h5 h6 =>
    have hta : o.tab = true := ht.2.2.resolve_right fun e =>
      e _ (List.mem_cons_of_mem _ List.mem_cons_self) _ rfl
    have hv := hm.read h1
    rw [h2] at hv
    have hv : Ok m.init (if o.tab then x.view else []) (.row (q / C)) := hv
    rw [hta] at hv
    have hq : Ok m.init (readV o.tab v x) (.row (q / C)) := by
      rw [hta]; exact hv.mono view_le_readV
    have hle : View.Le v (((readV o.tab v x).put (.row ((q + 1) / C)) u).put .cnt t) :=
      le_readV.trans (View.le_put.trans View.le_put)
    refine ⟨rfl, fun _ h => List.mem_cons_of_mem _ (List.mem_cons_of_mem _ h),
      (hm.add (x := wmsg false (readV o.tab v x) (.row ((q + 1) / C)) u (.id 1) [] none) trivial
        (by intro h; cases h)).add ?_ (by intro h; cases h), hle, N, _,
      fun q h => (hN q h).mono hle, fun q' h => ?_, hk q⟩
    · show Ok m.init (if o.tab then _ else []) (.row ((q + 1) / C))
      rw [hta]
      refine Ok.mono le_wmsg (Or.inl ?_)
      exact Nat.lt_of_lt_of_le h6.1 View.put_get
    · rcases h with h | h
      · exact (hF q' h).mono hle
      · rw [h]; exact hq.mono (View.le_put.trans View.le_put)
  | newCell k => exact ⟨rfl, fun _ h => h, hm, View.Le.rfl, N, F, hN, hF, hk _⟩
  | loadCell w k x q hr he =>
    have hv := hm.read hr
    rw [he] at hv
    have hq : Knows C m.init (readV o.word v x) q := by
      rcases ht.2.1 with e | e
      · rw [e]; exact Knows.mono view_le_readV hv
      · rcases hr.1 with h | h
        · exact absurd hr.2.1 (e x h w)
        · refine Knows.mono ?_ hv
          rw [h]; exact View.nil_le
    refine ⟨rfl, fun _ h => h, hm, le_readV, _, F, fun q' hq' => ?_, fun q h => (hF q h).mono le_readV, hk q⟩
    rcases hq' with h | h
    · exact (hN q' h).mono le_readV
    · rw [h]; exact hq
  | storeCell w p k t hl hf =>
    have hr : o.word = true := ht.2.1.resolve_right fun e => e _ List.mem_cons_self _ rfl
    have hle : View.Le v (wmsg o.word v (.word w) t (.id p : WVal K V) [] none).view := by
      rw [hr]; exact le_wmsg
    refine ⟨rfl, hsub _, hm.add ?_ (by intro h; cases h), View.le_put, N, F,
      fun q h => (hN q h).mono View.le_put, fun q h => (hF q h).mono View.le_put, hk.2⟩
    exact (hk.1.knows hN).mono hle

theorem MemOK.no_null (hm : MemOK o C m) {l : Loc} (hk : Ok m.init v l) {x : Msg K V}
    (hx : Readable m v l x) : x.val ≠ .null := by
  obtain ⟨hx, hl, hv⟩ := hx
  rcases hx with hx | hx
  · exact (hm.2 x hx).2
  · subst hx
    rcases hk with h | h
    · exact absurd hv (Nat.not_le.2 h)
    · exact h

theorem ProgOK.no_fault (hm : MemOK o C m) (hp : ProgOK C m.init v Q p) : ¬ MayFault C m v p := by
  obtain ⟨N, F, hN, hF, hk⟩ := hp
  intro hf
  have row : ∀ q, Ok m.init v (.row (q / C)) →
      ¬ ∃ x, Readable m v (.row (q / C)) x ∧ x.val = .null :=
    fun q h ⟨x, h1, h2⟩ => hm.no_null h h1 h2
  cases p with
  | load q k =>
    rcases hk.1.knows hN with h | h
    · exact hf.1 h
    · rcases hf.2 with h' | ⟨x, h1, h2⟩
      · exact row q h.1 h'
      · exact hm.no_null h.2 h1 h2
  | store q c k =>
    rcases hk.1 with h | h
    · rcases h.knows hN with h | h
      · exact hf.1 h
      · exact row q h.1 hf.2
    · exact row q (hF q h) hf.2
  | cas q a b k =>
    rcases hk.1.knows hN with h | h
    · exact hf.1 h
    · exact row q h.1 hf.2
  | _ => exact hf

/-! ## The system -/

/-- A thread. -/
def ThOK (C : Nat) (i : Loc → WVal K V) (v : View) : TSt K V → Prop
  | .idle => True
  | .run _ p => ProgOK C i v (fun a N => OutIn N a) p

/-- The invariant. -/
structure WInv (o : Orders) (C : Nat) (S : WSys K V) : Prop where
  mem : MemOK o C S.mem
  th : ∀ t, ThOK C S.mem.init (S.view t) (S.th t)
  it : ∀ t p k e, S.it t = some (p, k, e) → Knows C S.mem.init (S.view t) p

theorem WInv.start {sh : Sh K V} (h : InitOK o C (initVal C sh)) : WInv o C (WSys.start C sh) where
  mem := ⟨h, fun _ h => (nomatch h)⟩
  th _ := trivial
  it _ _ _ _ h := (nomatch h)

theorem WSysStep.msgs {cfg : Cfg K} {S S' : WSys K V} (h : WSysStep o C cfg S S') :
    S.mem.msgs ⊆ S'.mem.msgs := by
  cases h with
  | step t c p p' m' v' h1 h2 =>
    cases h2 <;> first
      | exact fun _ h => h
      | exact List.subset_cons_self _ _
      | exact fun _ h => List.mem_cons_of_mem _ (List.mem_cons_of_mem _ h)
  | _ => exact fun _ h => h

theorem WInv.step {cfg : Cfg K} {S S' : WSys K V} (hi : WInv o C S) (ht : Tame o S'.mem)
    (h : WSysStep o C cfg S S') : WInv o C S' := by
  have keep : ∀ (t : Nat) (x : TSt K V), ThOK C S.mem.init (S.view t) x →
      ∀ t', ThOK C S.mem.init (S.view t') (upd S.th t x t') := by
    intro t x hx t'
    by_cases e : t' = t
    · subst e; rw [upd_same]; exact hx
    · rw [upd_ne _ _ e]; exact hi.th t'
  have start : ∀ (t : Nat) {N : PID → Prop} {p : Prog K V (Out K V)},
      (∀ q, N q → Knows C S.mem.init (S.view t) q) → Kn p (fun x N' => OutIn N' x) N →
      ProgOK C S.mem.init (S.view t) (fun a N => OutIn N a) p := fun t N p hN hp =>
    ⟨N, fun _ => False, hN, fun _ h => h.elim, kp_mono hp (fun _ _ x => x.2) fun _ h => h⟩
  cases h with
  | op t f c h1 =>
    exact ⟨hi.mem, keep t _ (start t (N := fun _ => False) (fun _ h => h.elim) op_kn), hi.it⟩
  | scan t f b e h1 =>
    exact ⟨hi.mem, keep t _ (start t (N := fun _ => False) (fun _ h => h.elim) scan_kn), hi.it⟩
  | next t f p k e h1 h2 =>
    refine ⟨hi.mem, keep t _ (start t (N := fun q => q = p) (fun q h => ?_) (next_kn (Or.inr rfl))), hi.it⟩
    rw [h]; exact hi.it t p k e h2
  | step t c p p' m' v' h1 h2 =>
    have hp := hi.th t
    rw [h1] at hp
    obtain ⟨e1, e2, e3, e4, e5⟩ := h2.ok ht hi.mem hp
    refine ⟨e3, fun t' => ?_, fun t' q k e hq => ?_⟩
    · show ThOK C m'.init (upd S.view t v' t') (upd S.th t _ t')
      rw [e1]
      by_cases e : t' = t
      · subst e; rw [upd_same, upd_same]; exact e5
      · rw [upd_ne _ _ e, upd_ne _ _ e]; exact hi.th t'
    · show Knows C m'.init (upd S.view t v' t') q
      rw [e1]
      by_cases e' : t' = t
      · subst e'; rw [upd_same]; exact (hi.it _ _ _ _ hq).mono e4
      · rw [upd_ne _ _ e']; exact hi.it _ _ _ _ hq
  | retOp t c r h1 => exact ⟨hi.mem, keep t _ trivial, hi.it⟩
  | retVisit t b e r h1 =>
    refine ⟨hi.mem, keep t _ trivial, fun t' q k e' hq => ?_⟩
    have hq : upd S.it t r.2 t' = some (q, k, e') := hq
    by_cases e'' : t' = t
    · subst e''
      rw [upd_same] at hq
      have hp := hi.th t'
      rw [h1] at hp
      obtain ⟨N, F, hN, -, hk⟩ := hp
      exact (hk q k e' hq).knows hN
    · rw [upd_ne _ _ e''] at hq
      exact hi.it _ _ _ _ hq

theorem WRun.inv {cfg : Cfg K} {S₀ S : WSys K V} (h : WRun o C cfg S₀ S) (ht : Tame o S.mem)
    (hi : WInv o C S₀) : WInv o C S := by
  induction h with
  | refl => exact hi
  | step h hs ih => exact (ih (ht.mono hs.msgs)).step ht hs

end BwTree.Weak
