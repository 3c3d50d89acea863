import Verif.Conc.TotPot

/-!
# Structure modifications of a thread that runs alone end (helper lemmas)
-/

namespace BwTree

set_option linter.unusedSectionVars false

variable {K V : Type} [LinearOrder K] {cfg : Cfg K} {E D : PID → Prop}
  {W : Nat → Prop} {fl : Nat → Option PID} {F G H : Nat} {low : Option K}
  {p q r rp tgt : PID} {s s' s1 : St K V} {t : Nat} {key : K} {closed : Bool}

/-- No page. -/
def noP : PID → Prop := fun _ => False

/-! ## Pages that make others wait -/

theorem NW.step {O O' : PID → Prop} (h : NW cfg O s)
    (hs : ∀ q c, s'.info q ≠ none → s'.mt q = some c → c.needWait cfg = true →
      (s.info q ≠ none ∧ s.mt q = some c ∧ (O q → O' q)) ∨ O' q) : NW cfg O' s' := by
  intro q c h1 h2 h3
  rcases hs q c h1 h2 h3 with ⟨a1, a2, a3⟩ | a
  · exact a3 (h q c a1 a2 h3)
  · exact a

theorem NW.put {O O' : PID → Prop} {c' : Chain K V} {est' : PID → Est} {m' : K → Option V}
    {ops' : Nat → Spec.OpSt K V} (h : NW cfg O s) (hO : ∀ q, q ≠ p → O q → O' q)
    (hp : c'.needWait cfg = true → O' p) : NW cfg O' (s.put cfg t p c' est' m' ops') := by
  refine h.step ?_
  intro q c h1 h2 h3
  change upd s.mt p (some c') q = some c at h2
  by_cases e : q = p
  · subst e
    rw [upd_same] at h2; cases h2
    exact Or.inr (hp h3)
  · rw [upd_ne _ _ e] at h2
    exact Or.inl ⟨h1, h2, hO q e⟩

theorem wait_of_cons (hR : Roomy cfg) {c : Chain K V} (h : c.needConsolidation cfg = false) :
    c.needWait cfg = false := by
  unfold Chain.needConsolidation at h
  unfold Chain.needWait
  have := hR.thr
  simp only [Bool.and_eq_false_imp, Bool.or_eq_false_iff, decide_eq_false_iff_not] at h ⊢
  intro hd
  obtain ⟨h1, h2⟩ := h hd
  exact ⟨by omega, h2⟩

/-! ## Words -/

/-- The words below `n` occur only where they did, and not in the pages `X`. -/
def Sub (X : PID → Prop) (n : Nat) (s s' : St K V) : Prop :=
  ∀ w, w < n → ∀ q, CellAt s' w q → CellAt s w q ∧ ¬ X q

theorem Sub.trans {X Y : PID → Prop} {n m : Nat} (h1 : Sub X n s s1) (h2 : Sub Y m s1 s')
    (hn : n ≤ m) : Sub X n s s' := fun w hw q hq => h1 w hw q (h2 w (by omega) q hq).1

theorem Sub.transR {X Y : PID → Prop} {n m : Nat} (h1 : Sub X n s s1) (h2 : Sub Y m s1 s')
    (hn : n ≤ m) : Sub Y n s s' := fun w hw q hq =>
  have h := h2 w (by omega) q hq
  ⟨(h1 w hw q h.1).1, h.2⟩

theorem Sub.weak {X Y : PID → Prop} {n : Nat} (h : Sub X n s s') (hX : ∀ q, Y q → X q) :
    Sub Y n s s' := fun w hw q hq => ⟨(h w hw q hq).1, fun e => (h w hw q hq).2 (hX q e)⟩

theorem Sub.same {n : Nat} (h : s'.cont = s.cont) : Sub noP n s s' := by
  intro w _ q hq
  unfold CellAt at hq ⊢
  rw [h] at hq
  exact ⟨hq, fun e => e⟩

theorem Sub.change {n : Nat} {c c' : Chain K V} (h : s'.cont = upd s.cont p (some c'))
    (hp : s.cont p = some c) (hc : ∀ w, w < n → c'.hasCell w → c.hasCell w) : Sub noP n s s' := by
  intro w hw q hq
  refine ⟨?_, fun e => e⟩
  unfold CellAt at hq ⊢
  rw [h] at hq
  by_cases e : q = p
  · subst e
    rw [upd_same] at hq
    obtain ⟨_, e1, e2⟩ := hq
    cases e1
    exact ⟨c, hp, hc w hw e2⟩
  · rw [upd_ne _ _ e] at hq; exact hq

theorem Sub.base {n : Nat} {nd : Node K V} (h : s'.cont = upd s.cont p (some (.base nd))) :
    Sub (fun q => q = p) n s s' := by
  intro w hw q hq
  unfold CellAt at hq ⊢
  rw [h] at hq
  by_cases e : q = p
  · subst e
    rw [upd_same] at hq
    obtain ⟨_, e1, e2⟩ := hq
    cases e1
    exact e2.elim
  · rw [upd_ne _ _ e] at hq; exact ⟨hq, e⟩

theorem Sub.none {n : Nat} (h : s'.cont = upd s.cont p none) : Sub (fun q => q = p) n s s' := by
  intro w hw q hq
  unfold CellAt at hq ⊢
  rw [h] at hq
  by_cases e : q = p
  · subst e
    rw [upd_same] at hq
    obtain ⟨_, e1, e2⟩ := hq
    cases e1
  · rw [upd_ne _ _ e] at hq; exact ⟨hq, e⟩

/-! ## Specification -/

/-- The pages are of lower families and not leftmost. -/
def Low (s : St K V) (F : Nat) (D : PID → Prop) : Prop :=
  ∀ q, D q → ∃ G k, s.info q = some (G, some k) ∧ G < F

theorem Low.below (h : Low s F D) : Below s F D := by
  intro q hq
  obtain ⟨G, k, e1, e2⟩ := h q hq
  exact ⟨G, some k, e1, e2⟩

theorem Low.mono (h : Low s F D) (m : Mono s s') (hF : F ≤ G) : Low s' G D := by
  intro q hq
  obtain ⟨G', l, e1, e2⟩ := h q hq
  exact ⟨G', l, m.info _ _ e1, by omega⟩

theorem Low.add {k : K} (h : Low s F D) (hi : s.info r = some (F, some k)) (hF : F < G) :
    Low s G (fun q => D q ∨ q = r) := by
  rintro q (hq | rfl)
  · obtain ⟨G', l, e1, e2⟩ := h q hq
    exact ⟨G', l, e1, by omega⟩
  · exact ⟨F, k, hi, hF⟩

/-- What a structure modification of a page of family `F` leaves behind. -/
structure TP (cfg : Cfg K) (E D : PID → Prop) (W : Nat → Prop) (fl : Nat → Option PID) (F : Nat)
    (X : PID → Prop) (n M : Nat) (s s' : St K V) : Prop where
  si : ∃ fl', (∀ w q, fl w = some q → fl' w = some q) ∧ SI cfg E D W fl' s'
  frame : Frame F s s'
  nw : NW cfg noP s'
  sub : Sub X n s s'
  nc : s.ncell ≤ s'.ncell
  bnd : Bnd cfg s' ≤ M

theorem TP.pre {fl' : Nat → Option PID} {X Y : PID → Prop} {n m M M' : Nat}
    (h : TP cfg E D W fl' G Y m M s1 s')
    (hf : ∀ w q, fl w = some q → fl' w = some q) (hF : F ≤ G) (f : Frame F s s1)
    (hs : Sub X n s s1) (hn : s.ncell ≤ s1.ncell) (hm : n ≤ m) (hM : M ≤ M') :
    TP cfg E D W fl F X n M' s s' := by
  obtain ⟨fl'', a, b⟩ := h.si
  exact ⟨⟨fl'', fun w q e => a w q (hf w q e), b⟩, f.trans (h.frame.le hF), h.nw,
    hs.trans h.sub hm, Nat.le_trans hn h.nc, Nat.le_trans h.bnd hM⟩

/-- `TrySMOs` of a thread that runs alone ends if the measure is at most `N` and at most `j` weak
compare-and-swaps fail spuriously. -/
def TSmo (cfg : Cfg K) (t N j : Nat) (smo : Chain K V → Stk → Prog K V Unit) : Prop :=
  ∀ (E D : PID → Prop) (W : Nat → Prop) (fl : Nat → Option PID) (F : Nat) (low : Option K) (k : K)
    (head : Chain K V) (p : PID) (rest : Stk) (s : St K V),
    SI cfg E D W fl s → Below s F E → Low s F D → WBelow s F W → NW cfg (fun q => q = p) s →
    s.info p = some (F, low) →
    StkOK .free s F k true (p :: rest) → InR low head.high k → head.isRemoved = false →
    s.mt p = some head → (head.needWait cfg = true → s.own p = some t) → Bnd cfg s ≤ N →
    tp j (smo head (p :: rest)) (fun _ s' => TP cfg E D W fl F (fun q => q = p) s.ncell (Bnd cfg s) s s') s

theorem TSmo.le {smo : Chain K V → Stk → Prog K V Unit} {N i j : Nat} (h : TSmo cfg t N j smo)
    (hi : i ≤ j) : TSmo cfg t N i smo :=
  fun E D W fl F low k head p rest s a1 a2 a3 a4 a5 a6 a7 a8 a9 a10 a11 a12 =>
    tp_le (h E D W fl F low k head p rest s a1 a2 a3 a4 a5 a6 a7 a8 a9 a10 a11 a12) hi

/-! ## Split -/

section
variable {smo : Chain K V → Stk → Prog K V Unit} {N M n j : Nat}

theorem splitPut_tot (hsmo : TSmo cfg t N j smo) (hR : Roomy cfg) (hc : CfgOK2 cfg) {sep : K}
    {cr c : Chain K V} {lq : Option K} {rest : Stk} {els : Prog K V Unit}
    (hI : SI cfg (fun q => E q ∨ q = rp) D W fl s) (hE : Below s F E) (hD : Low s F D)
    (hW : WBelow s F W) (hnw : NW cfg noP s)
    (hr : s.info rp = some (F, some sep)) (he : s.est rp = .unposted t) (hcr : s.cont rp = some cr)
    (g1 : 0 < G) (g2 : s.fcf G = F) (hFG : F < G)
    (e1 : s.mt q = some c) (e2 : c.needWait cfg = false) (e3 : c.isRemoved = false)
    (e4 : s.info q = some (G, lq)) (e5 : LowOK lq sep true) (e6 : HighOK c.high sep true)
    (e7 : StkOK .free s G sep true (q :: rest))
    (hN : Bnd cfg s + 3 * cfg.maxEnt ≤ N) (hM : Bnd cfg s + 3 * cfg.maxEnt ≤ M) (hn : n ≤ s.ncell)
    (hels : ∀ i, i < j → tp i els (fun _ s' => TP cfg E D W fl F noP n M s s') s) :
    tp j (.cas q c (Chain.push (entryDelta sep cr.high rp) c (cfg.entLen true sep)) fun b =>
        if b then (if (Chain.push (entryDelta sep cr.high rp) c (cfg.entLen true sep)).needConsolidation cfg then
          smo (Chain.push (entryDelta sep cr.high rp) c (cfg.entLen true sep)) (q :: rest) else .ret ())
        else els) (fun _ s' => TP cfg E D W fl F noP n M s s') s := by
  obtain ⟨i3, f3, hh, hrm⟩ := hI.putEntry hc hE g1 g2 e4 e1 e3 e2 ⟨e5, e6⟩ hr he hcr
  have hphi := Phi_putEntry hc.toCfgOK hI.inv (sep := sep) (hk := cr.high) e4 e1 e3 he
  have hcont := put_cont (cfg := cfg) (t := t) (est' := upd s.est rp (.posted G)) (m' := s.m)
    (ops' := s.ops) (c' := Chain.push (entryDelta sep cr.high rp) c (cfg.entLen true sep)) e4 rfl
  have hnw3 : ∀ O', ((Chain.push (entryDelta sep cr.high rp) c (cfg.entLen true sep)).needWait cfg = true → O' q) →
      NW cfg O' (s.put cfg t q (Chain.push (entryDelta sep cr.high rp) c (cfg.entLen true sep))
        (upd s.est rp (.posted G)) s.m s.ops) := fun O' h => hnw.put (fun _ _ e => e.elim) h
  have hsub : Sub noP n s (s.put cfg t q (Chain.push (entryDelta sep cr.high rp) c (cfg.entLen true sep))
      (upd s.est rp (.posted G)) s.m s.ops) := by
    refine Sub.change hcont (St.cont_live e4 e1 e3) ?_
    intro w _ hw
    rcases hw with hw | hw
    · cases hw
    · exact hw
  have hb : Bnd cfg (s.put cfg t q (Chain.push (entryDelta sep cr.high rp) c (cfg.entLen true sep))
      (upd s.est rp (.posted G)) s.m s.ops) ≤ Bnd cfg s + 3 * cfg.maxEnt := by
    unfold Bnd
    change np s + s.nfam + _ ≤ _
    omega
  refine Or.inr ⟨e1, fun _ i hi => hels i hi, s.put cfg t q _ (upd s.est rp (.posted G)) s.m s.ops, rfl, ?_⟩
  simp only [if_true]
  cases hcons : (Chain.push (entryDelta sep cr.high rp) c (cfg.entLen true sep)).needConsolidation cfg with
  | true =>
    simp only [if_true]
    refine tp_mono (hsmo E D W fl G lq sep _ _ _ _ i3 (hE.mono f3.mono (Nat.le_of_lt hFG))
      (hD.mono f3.mono (Nat.le_of_lt hFG)) (hW.mono f3.mono (Nat.le_of_lt hFG)) (hnw3 _ fun _ => rfl)
      e4 (e7.mono hI.inv.l f3.mono) ?_ hrm (by simp [St.put]) ?_ (by omega)) ?_
    · rw [hh]; exact ⟨e5, e6⟩
    · intro hw; simp [St.put, hw]
    · intro _ s' hs'
      exact hs'.pre (fun _ _ e => e) (Nat.le_of_lt hFG) f3 hsub (Nat.le_refl _) hn (by omega)
  | false =>
    simp only [Bool.false_eq_true, if_false]
    exact ⟨⟨fl, fun _ _ e => e, i3⟩, f3,
      hnw3 _ (fun e => by rw [wait_of_cons hR hcons] at e; cases e), hsub, Nat.le_refl _, by omega⟩

theorem SI.clear (hI : SI cfg E D W fl s) {D' : PID → Prop} {lt : Option K}
    (hD : Below s F D') (hx : ∀ q, D q → D' q ∨ q = tgt)
    (ht : s.info tgt = some (F, lt))
    (hw : ∀ H, Down s.fcf H F → F < H → Words s key closed H) : Clear s key closed tgt F := by
  refine ⟨fun H hH => hI.liveAt ?_, ?_, hw⟩
  · intro q hq
    rcases hx q hq with e | e
    · exact Or.inr (hD.not_in (Nat.le_of_lt hH) q e)
    · exact Or.inl e
  · intro H hH l e
    rw [ht] at e; cases e
    omega

/-- With the parent known to be present. -/
theorem splitLoop_live (hsmo : TSmo cfg t N j smo) (hR : Roomy cfg) (hc : CfgOK2 cfg) {sep : K}
    {cr cx : Chain K V} {lp x : PID} {xs : Stk} {rInner : Bool} {f : Nat}
    (hI : SI cfg (fun q => E q ∨ q = rp) D W fl s) (hE : Below s F E) (hD : Low s F D)
    (hW : WBelow s F W) (hnw : NW cfg noP s)
    (hr : s.info rp = some (F, some sep)) (he : s.est rp = .unposted t) (hcr : s.cont rp = some cr)
    (hp : ParOK .free s F sep true (x :: xs)) (hx : s.cont x = some cx)
    (hN : Bnd cfg s + 3 * cfg.maxEnt ≤ N) (hM : Bnd cfg s + 3 * cfg.maxEnt ≤ M) (hn : n ≤ s.ncell)
    (hf : np s + 3 + j ≤ f) :
    tp j (splitLoop cfg smo sep cr.high rInner rp lp f (x :: xs))
      (fun _ s' => TP cfg E D W fl F noP n M s s') s := by
  induction j using Nat.strongRecOn generalizing x xs cx f with | _ j ih => ?_
  obtain ⟨f, rfl⟩ := Nat.exists_eq_add_of_le' (show 1 ≤ f by omega)
  rcases hp with e | ⟨_, G, g1, g2, g3⟩
  · cases e
  have hGlt := g3.adj.head_lt hI.inv.l (by simp)
  have hFG : F < G := by
    have := hI.inv.l.fcf G g1 hGlt
    change s.fcf G < G at this
    omega
  obtain ⟨⟨lx, hix⟩, _⟩ := g3.adj
  have hclear := hI.clear (tgt := rp) (key := sep) (closed := true) hD.below (fun q hq => Or.inl hq) hr
    (hI.wordsAbove hW)
  have hxr : x ≠ rp := by
    rintro rfl
    rw [hr] at hix; cases hix; omega
  apply tp_of_rt (getHead_live hI (hclear.live G hFG) hnw hr (Nat.le_of_lt hFG) (by omega) g3 hx hxr)
  rintro o ⟨ho, hg⟩
  cases o with
  | none => exact absurd rfl ho
  | some y =>
    obtain ⟨c, stk'⟩ := y
    obtain ⟨q, rest, lq, e0, e1, e2, e3, e4, e5, e6, e7, e8⟩ := hg
    subst e0
    have hhigh : HighOK c.high sep true := by
      rcases e8 with h | ⟨_, b, _, hb⟩
      · exact h
      · rw [hr] at hb; cases hb; exact absurd hFG (Nat.lt_irrefl _)
    exact splitPut_tot hsmo hR hc hI hE hD hW hnw hr he hcr g1 g2 hFG e1 e2 e3 e4 e5 hhigh e7 hN hM hn
      (fun i hi => ih i hi (hsmo.le (Nat.le_of_lt hi)) (Or.inr ⟨by simp, G, g1, g2, e7⟩)
        (St.cont_live e4 e1 e3) (by omega))

/-- From an empty stack. -/
theorem splitLoop_nil (hsmo : TSmo cfg t N j smo) (hR : Roomy cfg) (hc : CfgOK2 cfg) {sep : K}
    {cr cl : Chain K V} {lp : PID} {rInner : Bool} {f : Nat} (hri : rInner = decide (F ≠ 0))
    (hI : SI cfg (fun q => E q ∨ q = rp) D W fl s) (hE : Below s F E) (hD : Low s F D)
    (hW : WBelow s F W) (hnw : NW cfg noP s)
    (hl : s.info lp = some (F, low)) (hml : s.mt lp = some cl) (hrl : cl.isRemoved = false)
    (hbig : (potM cfg : Int) ≤ cl.size)
    (hr : s.info rp = some (F, some sep)) (he : s.est rp = .unposted t) (hcr : s.cont rp = some cr)
    (hlr : lp ≠ rp)
    (hN : Bnd cfg s + 3 * cfg.maxEnt ≤ N) (hM : Bnd cfg s + 3 * cfg.maxEnt + 2 ≤ M) (hn : n ≤ s.ncell)
    (hf : s.nfam + np s + 4 + j ≤ f) :
    tp j (splitLoop cfg smo sep cr.high rInner rp lp f [])
      (fun _ s' => TP cfg E D W fl F noP n M s s') s := by
  obtain ⟨f, rfl⟩ := Nat.exists_eq_add_of_le' (show 1 ≤ f by omega)
  have hcl := St.cont_live hl hml hrl
  apply tp_bind
  show tp j (if s.root ≠ lp then .ret false else _) _ s
  by_cases hroot : s.root = lp
  · simp only [hroot, ne_eq, not_true_eq_false, if_false]
    obtain ⟨F0, hF0⟩ := hI.inv.p.root
    rw [hroot, hl] at hF0
    cases hF0
    have hfr := hI.inv.p.fresh s.npid (Or.inl (Nat.le_refl _))
    obtain ⟨i1, f1⟩ := hI.newPid t F
    have hn1 : s.info s.npid = none := hfr.2.1
    have ho1 : upd s.own s.npid (some t) s.npid = some t := upd_same _ _ _
    have hwr : NodeWF cfg (newRoot (V := V) cfg sep lp rp) ∧
        (newRoot (V := V) cfg sep lp rp).size ≤ cfg.page := by
      obtain ⟨i5, g5⟩ := i1.inv.pubRoot (C := solo t) hc hn1 ho1 (fun e => e) hl hr he
      have hpg := i5.l.page s.npid (.base (newRoot cfg sep lp rp)) s.nfam none
        (St.cont_live (x := (s.nfam, none)) (by simp [St.pubRoot]) (by simp [St.pubRoot]) rfl)
        (by simp [St.pubRoot, St.lv])
      exact ⟨hpg.wf.2.2, hpg.base⟩
    obtain ⟨i2, f2⟩ := i1.stage F ho1 hn1 hwr.1 hwr.2
    obtain ⟨i3, f3, e3⟩ := i2.growRoot (np := s.npid) (rp := rp) (F := F) (sep := sep) hc hn1 ho1
      hroot hl hr he (upd_same _ _ _)
    have f123 := f1.trans (f2.trans f3)
    refine ⟨_, rfl, _, rfl, _, e3, ?_⟩
    subst hroot
    have hphi := Phi_grow (sep := sep) (t := t) hc.toCfgOK hI.inv hl hcl (hI.inv.not_del hml hrl) hbig he
    refine ⟨⟨fl, fun _ _ e => e, i3⟩, f123, ?_, ?_, Nat.le_refl _, ?_⟩
    · refine hnw.step ?_
      intro q c h1 h2 h3
      change upd s.info s.npid _ q ≠ none at h1
      change upd (upd s.mt s.npid _) s.npid _ q = some c at h2
      by_cases e : q = s.npid
      · subst e
        rw [upd_same] at h2; cases h2
        cases h3
      · rw [upd_ne _ _ e] at h1
        rw [upd_ne _ _ e, upd_ne _ _ e] at h2
        exact Or.inl ⟨h1, h2, fun e => e⟩
    · refine (Sub.base (p := s.npid) (nd := newRoot cfg sep s.root rp) ?_).weak (fun _ e => e.elim)
      have hc0 := congrArg Lv.cont (St.stage_lv (s := { s with
        npid := s.npid + 1, own := upd s.own s.npid (some t) })
        (c := .base (newRoot cfg sep s.root rp)) hfr.2.1)
      have := congrArg Lv.cont (St.pubRoot_lv (s := { s with
        npid := s.npid + 1, own := upd s.own s.npid (some t),
        mt := upd s.mt s.npid (some (.base (newRoot cfg sep s.root rp))) }) (F := F) (np := s.npid)
        (rp := rp) (n := newRoot cfg sep s.root rp))
      change St.cont _ = s.cont at hc0
      rw [← hc0]
      exact this
    · have hb : Bnd cfg (St.growRoot { s with
          npid := s.npid + 1, own := upd s.own s.npid (some t),
          mt := upd s.mt s.npid (some (.base (newRoot cfg sep s.root rp))) } F s.npid rp
          (.base (newRoot cfg sep s.root rp))) ≤ M := by
        unfold Bnd
        change np s + 1 + (s.nfam + 1) + _ ≤ _
        unfold Bnd at hM
        omega
      exact hb
  · simp only [hroot, ne_eq, not_false_eq_true, if_true]
    apply tp_ret
    simp only [Bool.false_eq_true, if_false]
    apply tp_of_rt (searchTarget_root hI hri hr hcr (by intro G e; rw [he] at e; cases e)
      (hI.liveAbove hD.below (fun q hq => Or.inl hq)) (hI.wordsAbove hW) (by omega))
    rintro stk ⟨y, ys, cy, rfl, y1, y2, y3, hy⟩
    rcases hy with ⟨rfl, hrt⟩ | ⟨z, zs, cz, rfl, hz⟩
    · exfalso
      obtain ⟨croot, hcroot⟩ := hI.x.rootc
      cases low with
      | none =>
        rcases hI.inv.l.disj s.root lp _ _ _ _ _ hcroot hcl hrt hl hroot with
          ⟨a, b, a1, a2, a3⟩ | ⟨a, b, a1, a2, a3⟩ <;> cases a2
      | some k =>
        obtain ⟨P, cP, G, lP, p1, p2, p3, p4, _⟩ := hI.x.post lp cl F k hcl hl (by
          rintro (e | e)
          · obtain ⟨G, l, e1, e2⟩ := hE lp e
            rw [hl] at e1; cases e1; omega
          · exact hlr e)
        obtain ⟨T, t1, t2⟩ := hI.x.chain P cP G lP p1 p2
        change s.info s.root = _ at t1
        rw [hrt] at t1; cases t1
        have h1 := t2.le hI.inv.l.fcf (hI.inv.l.fam _ _ _ hl)
        have h2 := hI.inv.l.fcf G (Nat.pos_of_ne_zero p3) (hI.inv.l.fam _ _ _ p2)
        omega
    · exact splitLoop_live hsmo hR hc hI hE hD hW hnw hr he hcr (StkOK.par (C := solo t) y3) hz hN
        (by omega) hn (by omega)

/-- From any stack. -/
theorem splitLoop_tot (hsmo : TSmo cfg t N j smo) (hR : Roomy cfg) (hc : CfgOK2 cfg) {sep : K}
    {cr cl : Chain K V} {lp : PID} {rInner : Bool} {f : Nat} {stk : Stk}
    (hri : rInner = decide (F ≠ 0))
    (hI : SI cfg (fun q => E q ∨ q = rp) D W fl s) (hE : Below s F E) (hD : Low s F D)
    (hW : WBelow s F W) (hnw : NW cfg noP s)
    (hl : s.info lp = some (F, low)) (hml : s.mt lp = some cl) (hrl : cl.isRemoved = false)
    (hbig : (potM cfg : Int) ≤ cl.size)
    (hr : s.info rp = some (F, some sep)) (he : s.est rp = .unposted t) (hcr : s.cont rp = some cr)
    (hlr : lp ≠ rp) (hp : ParOK .free s F sep true stk)
    (hN : Bnd cfg s + 3 * cfg.maxEnt ≤ N) (hM : Bnd cfg s + 3 * cfg.maxEnt + 2 ≤ M) (hn : n ≤ s.ncell)
    (hf : s.nfam + np s + 5 + j ≤ f) :
    tp j (splitLoop cfg smo sep cr.high rInner rp lp f stk)
      (fun _ s' => TP cfg E D W fl F noP n M s s') s := by
  obtain ⟨f, rfl⟩ := Nat.exists_eq_add_of_le' (show 1 ≤ f by omega)
  cases stk with
  | nil =>
    exact splitLoop_nil hsmo hR hc hri hI hE hD hW hnw hl hml hrl hbig hr he hcr hlr hN hM hn (by omega)
  | cons x xs =>
    rcases hp with e | ⟨_, G, g1, g2, g3⟩
    · cases e
    have hGlt := g3.adj.head_lt hI.inv.l (by simp)
    have hFG : F < G := by
      have := hI.inv.l.fcf G g1 hGlt
      change s.fcf G < G at this
      omega
    have hclear := hI.clear (tgt := rp) (key := sep) (closed := true) hD.below
      (fun q hq => Or.inl hq) hr (hI.wordsAbove hW)
    have hlen := g3.adj.length hI.inv.l
    apply tp_of_rt (getHead_all hI hclear hnw hr hFG (by
      rw [← g2]; exact .step (by omega) (.refl _)) (by simp) (by
        rcases hlen with h | h
        · omega
        · cases h) g3)
    intro o hg
    cases o with
    | none =>
      exact splitLoop_nil hsmo hR hc hri hI hE hD hW hnw hl hml hrl hbig hr he hcr hlr hN hM hn
        (by omega)
    | some y =>
      obtain ⟨c, stk'⟩ := y
      obtain ⟨q, rest, lq, e0, e1, e2, e3, e4, e5, e6, e7, e8⟩ := hg
      subst e0
      have hhigh : HighOK c.high sep true := by
        rcases e8 with h | ⟨_, b, _, hb⟩
        · exact h
        · rw [hr] at hb; cases hb; exact absurd hFG (Nat.lt_irrefl _)
      exact splitPut_tot hsmo hR hc hI hE hD hW hnw hr he hcr g1 g2 hFG e1 e2 e3 e4 e5 hhigh e7 hN
        (by omega) hn (fun i hi => splitLoop_live (hsmo.le (Nat.le_of_lt hi)) hR hc hI hE hD hW hnw hr he
          hcr (Or.inr ⟨by simp, G, g1, g2, e7⟩) (St.cont_live e4 e1 e3) hN (by omega) hn (by omega))

/-- `Split` of a frozen page of this thread. -/
theorem split_tot (hsmo : TSmo cfg t N j smo) (hR : Roomy cfg)
    (hc : CfgOK2 cfg) {f : Nat} {c : Chain K V} {k : K} {rest : Stk} {lr rr : List (K × Pay V)}
    {x : K × Pay V} {l r : Node K V} (hI : SI cfg E D W fl s) (hE : Below s F E) (hD : Low s F D)
    (hW : WBelow s F W) (hnw : NW cfg (fun q => q = p) s)
    (hi : s.info p = some (F, low)) (hm : s.mt p = some c) (hrm : c.isRemoved = false)
    (hop : s.own p = some t) (hs : StkOK .free s F k true (p :: rest)) (hk : HighOK c.high k true)
    (hl : ∀ rp, { l with next := rp } = splitL cfg (decide (F ≠ 0)) c lr x.1 rp)
    (hr : r = splitR cfg (decide (F ≠ 0)) c x rr)
    (hlr : lr ≠ []) (hcat : lr ++ x :: rr = c.flat) (hsz : (cfg.page : Int) < c.size)
    (hsm : cfg.lsz (decide (F ≠ 0)) c lr - (cfg.recLen (decide (F ≠ 0)) + cfg.maxKey) ≤
        ((cfg.page - cfg.hdr) / 2 : Int) ∨ lr.length = 1)
    (hlg : ((cfg.page - cfg.hdr) / 2 : Int) < cfg.lsz (decide (F ≠ 0)) c lr)
    (hN : Bnd cfg s ≤ N + 2) (hf : Bnd cfg s + 5 + j ≤ f) :
    tp j (split cfg smo f l r x.1 (p :: rest))
      (fun _ s' => TP cfg E D W fl F (fun q => q = p) s.ncell (Bnd cfg s) s s') s := by
  have hfr := hI.inv.p.fresh s.npid (Or.inl (Nat.le_refl _))
  obtain ⟨i1, f1⟩ := hI.newPid t F
  have hpne : p ≠ s.npid := by
    intro e
    rw [e, hfr.2.1] at hi; cases hi
  have hn1 : s.info s.npid = none := hfr.2.1
  obtain ⟨hcont, hpw⟩ := hI.inv.live hi hm hrm
  obtain ⟨w1, w2, w3, w4, w5, w6, w7, w8, w9⟩ := hpw.split hc hlr hcat hsm hlg (r := s.npid) hfr.2.1
  obtain ⟨_, _, v3, v4, _⟩ := split_wf hpw.wf hlr hcat s.npid
  obtain ⟨z1, z2, z3⟩ := split_big hc.toCfgOK hR hpw.wf hsz hlr hcat hsm hlg
  have zl : (splitL cfg (decide (F ≠ 0)) c lr x.1 0).size =
      ({ l with next := s.npid } : Node K V).size := by rw [hl]; rfl
  rw [← hr] at w2 w4 w5 w9 v4
  rw [← hl] at w1 w3 w5 w8 v3
  rw [zl] at z1 z3
  rw [← hr] at z2 z3
  have ho1 : upd s.own s.npid (some t) s.npid = some t := upd_same _ _ _
  obtain ⟨i2, f2⟩ := i1.stage F (n := r) ho1 hn1 w2.wf.2.2 w2.base
  obtain ⟨i3, f3⟩ := i2.doSplit (t := t) (p := p) (r := s.npid) (nr := r)
    (nl := { l with next := s.npid }) hi
    (by show upd s.mt s.npid _ p = _; rw [upd_ne _ _ hpne]; exact hm) hrm
    (by show upd s.own s.npid _ p = _; rw [upd_ne _ _ hpne]; exact hop) ho1 hn1 (upd_same _ _ _)
    ⟨w1.wf, w1.ents, w1.link, w1.size, w1.base⟩ ⟨w2.wf, w2.ents, w2.link, w2.size, w2.base⟩ w3 w4 w8 w9 v3 v4 w5 w6 w7
  have f123 := f1.trans (f2.trans f3)
  have hphi := Phi_split (t := t) (sep := x.1) (nl := { l with next := s.npid }) (nr := r) hI.inv hi hm hrm
    (by have := hR.room (decide (F ≠ 0)); unfold potM Cfg.maxEnt; push_cast; omega) z1 z2 z3
  suffices hgoal : tp j (splitLoop cfg smo x.1 r.high r.inner s.npid p f rest)
      (fun _ s' => TP cfg E D W fl F (fun q => q = p) s.ncell (Bnd cfg s) s s')
      (St.doSplit { s with npid := s.npid + 1, own := upd s.own s.npid (some t),
                           mt := upd s.mt s.npid (some (.base r)) } t F x.1 p s.npid
        (.base { l with next := s.npid })) from
    ⟨{ s with npid := s.npid + 1, own := upd s.own s.npid (some t) }, rfl,
      { s with npid := s.npid + 1, own := upd s.own s.npid (some t),
               mt := upd s.mt s.npid (some (.base r)) }, rfl, _, rfl, hgoal⟩
  have hi3 := f123.mono.info _ _ hi
  have hs3 := hs.mono hI.inv.l f123.mono
  have hE3 := hE.mono f123.mono (Nat.le_refl _)
  have hD3 := hD.mono f123.mono (Nat.le_refl _)
  have hW3 := hW.mono f123.mono (Nat.le_refl _)
  have hr3 : upd s.info s.npid (some (F, some x.1)) s.npid = some (F, some x.1) := upd_same _ _ _
  have he3 : upd s.est s.npid (.unposted t) s.npid = .unposted t := upd_same _ _ _
  have hm3 : upd (upd s.mt s.npid (some (.base r))) p (some (.base { l with next := s.npid }))
      s.npid = some (.base r) := by rw [upd_ne _ _ (Ne.symm hpne), upd_same]
  have hnw3 : NW cfg noP (St.doSplit { s with
      npid := s.npid + 1, own := upd s.own s.npid (some t),
      mt := upd s.mt s.npid (some (.base r)) } t F x.1 p s.npid (.base { l with next := s.npid })) := by
    refine hnw.step ?_
    intro q c h1 h2 h3
    change upd s.info s.npid _ q ≠ none at h1
    change upd (upd s.mt s.npid _) p _ q = some c at h2
    by_cases e : q = p
    · subst e
      rw [upd_same] at h2; cases h2
      cases h3
    · rw [upd_ne _ _ e] at h2
      by_cases e' : q = s.npid
      · subst e'
        rw [upd_same] at h2; cases h2
        cases h3
      · rw [upd_ne _ _ e'] at h1 h2
        exact Or.inl ⟨h1, h2, fun x => (e x).elim⟩
  have hsub : Sub (fun q => q = p) s.ncell s (St.doSplit { s with
      npid := s.npid + 1, own := upd s.own s.npid (some t),
      mt := upd s.mt s.npid (some (.base r)) } t F x.1 p s.npid (.base { l with next := s.npid })) := by
    have hc0 := congrArg Lv.cont (St.stage_lv (s := { s with
      npid := s.npid + 1, own := upd s.own s.npid (some t) }) (c := .base r) hfr.2.1)
    change St.cont _ = s.cont at hc0
    have hcc := congrArg Lv.cont (St.doSplit_lv (s := { s with
      npid := s.npid + 1, own := upd s.own s.npid (some t),
      mt := upd s.mt s.npid (some (.base r)) }) (t := t) (F := F) (sep := x.1)
      (nl := { l with next := s.npid }) (nr := r)
      (r := s.npid) hi hfr.2.1 (upd_same _ _ _))
    change St.cont _ = upd (upd (St.cont _) p _) s.npid _ at hcc
    rw [hc0] at hcc
    intro w hw q hq
    unfold CellAt at hq ⊢
    rw [hcc] at hq
    by_cases e' : q = s.npid
    · subst e'
      rw [upd_same] at hq
      obtain ⟨_, a, b⟩ := hq
      cases a; exact b.elim
    · rw [upd_ne _ _ e'] at hq
      by_cases e : q = p
      · subst e
        rw [upd_same] at hq
        obtain ⟨_, a, b⟩ := hq
        cases a; exact b.elim
      · rw [upd_ne _ _ e] at hq
        exact ⟨hq, e⟩
  have hm3l : upd (upd s.mt s.npid (some (.base r))) p (some (.base { l with next := s.npid })) p =
    some (.base { l with next := s.npid }) := upd_same _ _ _
  have hb : Bnd cfg (St.doSplit { s with
      npid := s.npid + 1, own := upd s.own s.npid (some t),
      mt := upd s.mt s.npid (some (.base r)) } t F x.1 p s.npid (.base { l with next := s.npid })) +
      3 * cfg.maxEnt + 2 ≤ Bnd cfg s := by
    unfold Bnd
    change np s + 1 + s.nfam + _ + _ + _ ≤ _
    omega
  generalize hs' : St.doSplit _ t F x.1 p s.npid _ = s3 at *
  have hr3 : s3.info s.npid = some (F, some x.1) := by rw [← hs']; exact hr3
  have he3 : s3.est s.npid = .unposted t := by rw [← hs']; exact he3
  have hm3 : s3.mt s.npid = some (.base r) := by rw [← hs']; exact hm3
  have hm3l : s3.mt p = some (.base { l with next := s.npid }) := by rw [← hs']; exact hm3l
  have hnc : s3.ncell = s.ncell := by rw [← hs']; rfl
  clear hs'
  have hcr := St.cont_live hr3 hm3 rfl
  have hB3 : s3.nfam + np s3 ≤ Bnd cfg s3 := by unfold Bnd; omega
  refine tp_mono (splitLoop_tot (cr := .base r) (n := s3.ncell) (M := Bnd cfg s) hsmo hR hc (by rw [hr]; rfl) i3
    hE3 hD3 hW3 hnw3 hi3 hm3l rfl z1 hr3 he3 hcr hpne ?_ (by omega) (by omega) (Nat.le_refl _) (by omega))
    (fun _ s' h => h.pre (fun _ _ e => e) (Nat.le_refl _) f123 hsub (by omega) (by omega) (Nat.le_refl _))
  rcases StkOK.par (C := solo t) hs3 with e | ⟨e, G, h1, h2, h3⟩
  · exact Or.inl e
  · refine Or.inr ⟨e, G, h1, h2, ?_⟩
    refine h3.toLow i3.inv.l ?_ hcr hr3 ?_
    · rw [← h2]; exact .step (by omega) (.refl _)
    · rw [w4]; exact hk

end

end BwTree
