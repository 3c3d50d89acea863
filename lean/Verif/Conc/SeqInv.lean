import Verif.Conc.SeqLogic

/-!
# What holds in addition when one thread runs alone (helper lemmas)

When no other thread interferes, every page is indexed except for those the running thread is just
working on (`E`), every removed page has been merged except for those (`D`), every word of an
index-delete record is set except for those (`W`), and the records route exactly.  `fl` gives the page
that a word will hold.
-/

namespace BwTree

set_option linter.unusedSectionVars false

variable {K V : Type} [LinearOrder K] {cfg : Cfg K} {L : Lv K V} {E E' D D' : PID → Prop}
  {W W' : Nat → Prop} {fl fl' : Nat → Option PID} {root : PID} {F G : Nat} {low : Option K}
  {p q r : PID} {s s' : St K V} {t : Nat}

/-! ## Families -/

theorem Down.trans {fcf : Nat → Nat} {X Y Z : Nat} (h1 : Down fcf X Y) (h2 : Down fcf Y Z) :
    Down fcf X Z := by
  induction h1 with
  | refl => exact h2
  | step a _ ih => exact .step a (ih h2)

theorem Down.linear {fcf : Nat → Nat} {T G G' : Nat} (h : Down fcf T G) (h' : Down fcf T G') :
    Down fcf G G' ∨ Down fcf G' G := by
  induction h with
  | refl => exact Or.inl h'
  | step a b ih =>
    cases h' with
    | refl => exact Or.inr (.step a b)
    | step _ c => exact ih c

theorem Down.le {fcf : Nat → Nat} {nfam T G : Nat} (hf : ∀ F, 0 < F → F < nfam → fcf F < F)
    (h : Down fcf T G) (hT : T < nfam) : G ≤ T := by
  induction h with
  | refl => exact Nat.le_refl _
  | step a _ ih =>
    have := hf _ (Nat.pos_of_ne_zero a) hT
    exact Nat.le_trans (ih (Nat.lt_trans this hT)) (Nat.le_of_lt this)

/-- Every family below the top has at most one parent family. -/
theorem Down.inj {fcf : Nat → Nat} {nfam T G G' : Nat} (hf : ∀ F, 0 < F → F < nfam → fcf F < F)
    (hT : T < nfam) (h : Down fcf T G) (h' : Down fcf T G') (hG : G ≠ 0) (hG' : G' ≠ 0)
    (e : fcf G = fcf G') : G = G' := by
  have key : ∀ {A B : Nat}, Down fcf A B → A < nfam → B ≠ 0 → fcf A = fcf B → A = B := by
    intro A B hd hA hB e
    cases hd with
    | refl => rfl
    | step a b =>
      have h1 := hf A (Nat.pos_of_ne_zero a) hA
      have h2 := b.le hf (Nat.lt_trans h1 hA)
      have h3 := hf B (Nat.pos_of_ne_zero hB) (by omega)
      omega
  rcases h.linear h' with d | d
  · exact key d (Nat.lt_of_le_of_lt (h.le hf hT) hT) hG' e
  · exact (key d (Nat.lt_of_le_of_lt (h'.le hf hT) hT) hG e.symm).symm

/-! ## The invariant -/

/-- The logical part. -/
structure SX (E : PID → Prop) (fl : Nat → Option PID) (L : Lv K V) (root : PID) : Prop where
  exact : ∀ p c F low, L.cont p = some c → L.info p = some (F, low) → F ≠ 0 → ExactC fl c
  post : ∀ q c F k, L.cont q = some c → L.info q = some (F, some k) → ¬ E q →
    ∃ P cP G lP, L.cont P = some cP ∧ L.info P = some (G, lP) ∧ G ≠ 0 ∧ L.fcf G = F ∧
      (k, Pay.child q) ∈ cP.flatBody
  pre : ∀ p c y q, L.cont p = some c → (y, Pay.child q) ∈ c.pre → ∃ c', L.cont q = some c'
  chain : ∀ p c F low, L.cont p = some c → L.info p = some (F, low) →
    ∃ T, L.info root = some (T, none) ∧ Down L.fcf T F
  rootc : ∃ c, L.cont root = some c

/-- The invariant of a thread that runs alone. -/
structure SI (cfg : Cfg K) (E D : PID → Prop) (W : Nat → Prop) (fl : Nat → Option PID) (s : St K V) :
    Prop where
  inv : Inv cfg s
  x : SX E fl s.lv s.root
  pend : ∀ q n, s.pend q = some n → D q
  cell : ∀ w q, fl w = some q → w < s.ncell ∧ (s.cells w = q ∨ (s.cells w = 0 ∧ W w))

/-- The pages are of lower families. -/
def Below (s : St K V) (F : Nat) (E : PID → Prop) : Prop :=
  ∀ q, E q → ∃ G low, s.info q = some (G, low) ∧ G < F

theorem Below.mono (h : Below s F E) (m : Mono s s') (hF : F ≤ G) : Below s' G E := by
  intro q hq
  obtain ⟨G', l, e1, e2⟩ := h q hq
  exact ⟨G', l, m.info _ _ e1, by omega⟩

theorem Below.add (h : Below s F E) (hi : s.info r = some (F, low)) (hF : F < G) :
    Below s G (fun q => E q ∨ q = r) := by
  rintro q (hq | rfl)
  · obtain ⟨G', l, e1, e2⟩ := h q hq
    exact ⟨G', l, e1, by omega⟩
  · exact ⟨F, low, hi, hF⟩

/-- What a call keeps: the pages of lower families. -/
structure Frame (F : Nat) (s s' : St K V) : Prop where
  mono : Mono s s'
  keep : ∀ q G low, s.info q = some (G, low) → G < F →
    s'.mt q = s.mt q ∧ s'.own q = s.own q ∧ s'.pend q = s.pend q ∧ s'.est q = s.est q

theorem Frame.rfl : Frame F s s := ⟨Mono.rfl, fun _ _ _ _ _ => ⟨Eq.refl _, Eq.refl _, Eq.refl _, Eq.refl _⟩⟩

theorem Frame.trans {s'' : St K V} (h1 : Frame F s s') (h2 : Frame F s' s'') : Frame F s s'' := by
  refine ⟨h1.mono.trans h2.mono, fun q G low hi hG => ?_⟩
  obtain ⟨a1, a2, a3, a4⟩ := h1.keep q G low hi hG
  obtain ⟨b1, b2, b3, b4⟩ := h2.keep q G low (h1.mono.info _ _ hi) hG
  exact ⟨b1.trans a1, b2.trans a2, b3.trans a3, b4.trans a4⟩

theorem Frame.le (h : Frame G s s') (hF : F ≤ G) : Frame F s s' :=
  ⟨h.mono, fun q G' low hi hG' => h.keep q G' low hi (Nat.lt_of_lt_of_le hG' hF)⟩

theorem Frame.cont (h : Frame F s s') (hi : s.info q = some (G, low)) (hG : G < F) :
    s'.cont q = s.cont q := by
  obtain ⟨e1, _, e3, _⟩ := h.keep q G low hi hG
  unfold St.cont
  rw [h.mono.info _ _ hi, hi, e1, e3]

/-- Left of `F` every step may change at most `p` (of family at least `F`). -/
theorem Frame.mk1 (m : Mono s s') (P : PID → Prop)
    (hP : ∀ q, P q → ∀ G low, s.info q = some (G, low) → F ≤ G)
    (hk : ∀ q, ¬ P q → s'.mt q = s.mt q ∧ s'.own q = s.own q ∧ s'.pend q = s.pend q ∧
      s'.est q = s.est q) : Frame F s s' := by
  refine ⟨m, fun q G low hi hG => ?_⟩
  by_cases h : P q
  · have := hP q h G low hi
    omega
  · exact hk q h

/-! ## Facts about one state -/

theorem SX.weaken (h : SX E fl L root) (hE : ∀ q, E q → E' q)
    (hf : ∀ w q, fl w = some q → fl' w = some q) : SX E' fl' L root :=
  ⟨fun p c F low h1 h2 h3 => (h.exact p c F low h1 h2 h3).mono hf,
    fun q c F k h1 h2 h3 => h.post q c F k h1 h2 (fun e => h3 (hE q e)), h.pre, h.chain, h.rootc⟩

/-- All pages that are not exempt are indexed by the page that covers them. -/
theorem SX.parent (h : SX E fl L root) (hl : LInv cfg L) {P : PID} {cP c : Chain K V}
    {lP : Option K} {k : K} (hP : L.cont P = some cP) (hiP : L.info P = some (G, lP)) (hG : G ≠ 0)
    (hq : L.cont q = some c) (hiq : L.info q = some (L.fcf G, some k)) (hE : ¬ E q)
    (hk : InR lP cP.high k) : (k, Pay.child q) ∈ cP.flatBody := by
  obtain ⟨P', cP', G', lP', h1, h2, h3, h4, h5⟩ := h.post q c _ k hq hiq hE
  obtain ⟨T, t1, t2⟩ := h.chain P cP G lP hP hiP
  obtain ⟨T', t1', t2'⟩ := h.chain P' cP' G' lP' h1 h2
  rw [t1] at t1'; cases t1'
  have e := Down.inj hl.fcf (hl.fam _ _ _ t1) t2 t2' hG h3 h4.symm
  subst e
  have hr := (hl.page _ _ _ _ h1 h2).wf.flatBody_spec.2.1 _ h5
  have := hl.uniq hP h1 hiP h2 hk hr
  subst this
  rw [hP] at h1; cases h1
  exact h5

/-- The next page of a page of a family without exempt pages (except `r`) is indexed. -/
theorem SX.next (h : SX E fl L root) (hl : LInv cfg L) {P : PID} {cP c : Chain K V}
    {lP low : Option K} {b : K} (hP : L.cont P = some cP) (hiP : L.info P = some (G, lP)) (hG : G ≠ 0)
    (hq : L.cont q = some c) (hiq : L.info q = some (L.fcf G, low)) (hb : c.high = some b)
    (hE : ∀ x l, E x → L.info x = some (L.fcf G, l) → l ≠ some b)
    (hk : InR lP cP.high b) :
    (b, Pay.child c.nextPid) ∈ cP.flatBody := by
  have hw := hl.page _ _ _ _ hq hiq
  have h1 := hw.link b hb
  obtain ⟨c', h2⟩ := hl.linkl _ _ b hq hb
  exact h.parent hl hP hiP hG h2 h1 (fun e => hE _ _ e h1 rfl) hk

/-- What an index record for `r` has to satisfy holds when its upper bound is that of `r`. -/
theorem SX.entry (h : SX E fl L root) (hl : LInv cfg L) {c cr : Chain K V} {lp : Option K} {d : K}
    (hp : L.cont p = some c) (hip : L.info p = some (G, lp)) (hG : G ≠ 0)
    (hr : L.cont r = some cr) (hir : L.info r = some (L.fcf G, some d))
    (hE : ∀ x, E x → x = r ∨ ∀ l, L.info x ≠ some (L.fcf G, l))
    (hd : InR lp c.high d) :
    (∀ h, cr.high = some h → d < h) ∧
    (∀ x ∈ c.flatBody, d < x.1 → ∃ h, cr.high = some h ∧ h ≤ x.1) ∧
    (∀ h, cr.high = some h → HighOK c.high h true → alook c.flatBody h ≠ none) ∧
    (∀ b, c.high = some b → ∃ h, cr.high = some h ∧ h ≤ b) := by
  have hwr := hl.page _ _ _ _ hr hir
  have hwp := hl.page _ _ _ _ hp hip
  have hne : ∀ h, cr.high = some h → d < h := fun h e => hwr.wf.nonempty d h rfl e
  have hG' : decide (G ≠ 0) = true := by simp [hG]
  refine ⟨hne, ?_, ?_, ?_⟩
  · intro x hx hlt
    obtain ⟨k, pay⟩ := x
    have hk := hwp.wf.flatBody_spec.2.2 _ hx
    rw [hG'] at hk
    obtain ⟨q, hq⟩ : ∃ q, pay = .child q := by simpa [PayOK] using hk
    subst hq
    obtain ⟨_, cq, e2⟩ := hl.ents p c G lp k q hp hip hx
    have e3 := hl.ent_info hp hip hx
    have hqr : r ≠ q := by
      rintro rfl
      rw [hir] at e3; cases e3
      exact lt_irrefl _ hlt
    rcases hl.disj r q cr cq _ _ _ hr e2 hir e3 hqr with ⟨a, b, a1, a2, a3⟩ | ⟨a, b, a1, a2, a3⟩
    · cases a2; exact ⟨a, a1, a3⟩
    · cases a2
      have := (hl.page _ _ _ _ e2 e3).wf.nonempty k a rfl a1
      simp only at hlt
      exfalso; order
  · intro b hb hh
    have hlt := hne b hb
    have hm := h.next hl hp hip hG hr hir hb (by
      intro x l hx hix e
      subst e
      rcases hE x hx with e | e
      · subst e
        rw [hir] at hix; cases hix
        exact lt_irrefl _ hlt
      · exact e _ hix) ⟨by
        intro l e
        have := hd.1 l e
        simp only [if_true] at this ⊢; order, hh⟩
    rw [alook_of_mem hwp.wf.flatBody_spec.1 hm]
    simp
  · intro b hb
    obtain ⟨cn, hcn⟩ := hl.linkl p c b hp hb
    obtain ⟨q, cq, q1, q2, _⟩ := hl.fc hcn (hwp.link b hb) hG
    have hdb := hd.2 b hb
    simp only [if_true] at hdb
    have hqr : r ≠ q := by
      rintro rfl
      rw [hir] at q2; cases q2
      exact lt_irrefl _ hdb
    rcases hl.disj r q cr cq _ _ _ hr q1 hir q2 hqr with ⟨x, y, a1, a2, a3⟩ | ⟨x, y, a1, a2, a3⟩
    · cases a2; exact ⟨x, a1, a3⟩
    · cases a2
      have := (hl.page _ _ _ _ q1 q2).wf.nonempty b x rfl a1
      exfalso; order

/-- The left neighbour of `r` by the index. -/
theorem SX.left (h : SX E fl L root) (hl : LInv cfg L) {c cr : Chain K V} {lp : Option K} {d : K}
    (hp : L.cont p = some c) (hip : L.info p = some (G, lp)) (hG : G ≠ 0)
    (hr : L.cont r = some cr) (hir : L.info r = some (L.fcf G, some d))
    (hE : ∀ x, E x → x = r ∨ ∀ l, L.info x ≠ some (L.fcf G, l))
    (hd : InR lp c.high d) (hq : Floor c.pre c.flatBody d false q) :
    ∃ c0 l0, L.cont q = some c0 ∧ L.info q = some (L.fcf G, l0) ∧ LowOK l0 d false ∧
      c0.high = some d := by
  have hwp := hl.page _ _ _ _ hp hip
  have hwr := hl.page _ _ _ _ hr hir
  have hfl := hwp.ents.flat hwp.wf
  -- the page and its lower bound
  have h0 : ∃ c0 l0, L.cont q = some c0 ∧ L.info q = some (L.fcf G, l0) ∧ LowOK l0 d false ∧
      (∀ x, (∀ l, l0 = some l → l < x) → LowOK lp x true) ∧
      (∀ x ∈ c.flatBody, x.1 < d → (∀ l, l0 = some l → l < x.1) → False) := by
    rcases hq with ⟨sep, a1, a2, a3⟩ | ⟨⟨y, a1⟩, a2⟩
    · obtain ⟨_, c0, e2⟩ := hl.ents p c G lp sep q hp hip a1
      refine ⟨c0, some sep, e2, hl.ent_info hp hip a1, ?_, ?_, ?_⟩
      · intro l e; cases e; simpa [LEc] using a2
      · intro x hx l e
        have h1 := (hwp.wf.flatBody_spec.2.1 _ a1).1 l e
        have h2 := hx sep rfl
        simp only [if_true] at h1 ⊢; order
      · intro x hx h1 h2
        have h3 := a3 x hx (by simpa [LEc] using h1)
        have h4 := h2 sep rfl
        order
    · obtain ⟨c0, e2⟩ := h.pre p c y q hp a1
      refine ⟨c0, none, e2, hfl.1 _ a1 q rfl, (by intro l e; cases e), ?_, ?_⟩
      · intro x _ l e
        subst e
        rw [hwp.wf.pre_shape.2 (by simp)] at a1
        cases a1
      · intro x hx h1 _
        exact a2 x hx (by simpa [LEc] using h1)
  obtain ⟨c0, l0, e1, e2, e3, e4, e5⟩ := h0
  refine ⟨c0, l0, e1, e2, e3, ?_⟩
  have hqr : q ≠ r := by
    rintro rfl
    rw [hir] at e2; cases e2
    have := e3 d rfl
    simp at this
  rcases hl.disj q r c0 cr _ _ _ e1 hr e2 hir hqr with ⟨a, b, a1, a2, a3⟩ | ⟨a, b, a1, a2, a3⟩
  · cases a2
    rcases lt_or_eq_of_le a3 with hlt | heq
    · exfalso
      have hla : ∀ l, l0 = some l → l < a := by
        intro l e
        subst e
        exact (hl.page _ _ _ _ e1 e2).wf.nonempty l a rfl a1
      have hm := h.next hl hp hip hG e1 e2 a1 (by
        intro x l hx hix e
        subst e
        rcases hE x hx with e | e
        · subst e
          rw [hir] at hix; cases hix
          exact lt_irrefl _ hlt
        · exact e _ hix) ⟨e4 a hla, by
            intro b hb
            have := hd.2 b hb
            simp only [if_true] at this ⊢; order⟩
      exact e5 _ hm hlt hla
    · rw [a1, heq]
  · have h1 := e3 b a2
    have h2 := hwr.wf.nonempty d a rfl a1
    simp only [Bool.false_eq_true, if_false] at h1
    exfalso; order

/-! ## Updates -/

/-- New contents of a page. -/
theorem SX.replace (h : SX E fl L root) {c c' : Chain K V} (hp : L.cont p = some c)
    (hi : L.info p = some (F, low)) {est' : PID → Est} {m' : K → Option V}
    (hf : ∀ w q, fl w = some q → fl' w = some q)
    (hx : F ≠ 0 → ExactC fl' c') (hpre : c'.pre = c.pre)
    (hb : ∀ k q, ¬ E' q → (k, Pay.child q) ∈ c.flatBody → (k, Pay.child q) ∈ c'.flatBody)
    (hE : ∀ q Fq k, E q → ¬ E' q → L.info q = some (Fq, some k) →
      F ≠ 0 ∧ L.fcf F = Fq ∧ (k, Pay.child q) ∈ c'.flatBody) :
    SX E' fl' { L with cont := upd L.cont p (some c'), est := est', m := m' } root := by
  have hcont : ∀ q c0, L.cont q = some c0 → ∃ c1, upd L.cont p (some c') q = some c1 := by
    intro q c0 hq
    by_cases e : q = p
    · subst e; exact ⟨c', by simp⟩
    · exact ⟨c0, by rw [upd_ne _ _ e]; exact hq⟩
  have hback : ∀ q c0, upd L.cont p (some c') q = some c0 → ∃ c1, L.cont q = some c1 := by
    intro q c0 hq
    by_cases e : q = p
    · subst e; exact ⟨c, hp⟩
    · rw [upd_ne _ _ e] at hq; exact ⟨c0, hq⟩
  refine ⟨?_, ?_, ?_, ?_, ?_⟩
  · intro q c0 F0 l0 hq hiq hF
    simp only at hq hiq
    by_cases e : q = p
    · subst e
      rw [upd_same] at hq; cases hq
      rw [hi] at hiq; cases hiq
      exact hx hF
    · rw [upd_ne _ _ e] at hq
      exact (h.exact q c0 F0 l0 hq hiq hF).mono hf
  · intro q c0 F0 k hq hiq hEq
    simp only at hq hiq ⊢
    obtain ⟨c1, hq1⟩ := hback q c0 hq
    by_cases e0 : E q
    · obtain ⟨a1, a2, a3⟩ := hE q F0 k e0 hEq hiq
      exact ⟨p, c', F, low, by simp, hi, a1, a2, a3⟩
    · obtain ⟨P, cP, G, lP, h1, h2, h3, h4, h5⟩ := h.post q c1 F0 k hq1 hiq e0
      by_cases e : P = p
      · subst e
        rw [hp] at h1; cases h1
        exact ⟨P, c', G, lP, by simp, h2, h3, h4, hb k q hEq h5⟩
      · exact ⟨P, cP, G, lP, by rw [upd_ne _ _ e]; exact h1, h2, h3, h4, h5⟩
  · intro a ca y q ha hy
    simp only at ha ⊢
    by_cases e : a = p
    · subst e
      rw [upd_same] at ha; cases ha
      rw [hpre] at hy
      obtain ⟨c1, h1⟩ := h.pre a c y q hp hy
      exact hcont q c1 h1
    · rw [upd_ne _ _ e] at ha
      obtain ⟨c1, h1⟩ := h.pre a ca y q ha hy
      exact hcont q c1 h1
  · intro a ca F0 l0 ha hia
    obtain ⟨c1, h1⟩ := hback a ca ha
    exact h.chain a c1 F0 l0 h1 hia
  · obtain ⟨c1, h1⟩ := h.rootc
    exact hcont root c1 h1

/-- A page is split. -/
theorem SX.split (h : SX E fl L root) (hl : LInv cfg L) {c cl cr : Chain K V} {sep : K}
    {est' : PID → Est}
    (hp : L.cont p = some c) (hi : L.info p = some (F, low)) (hr : L.info r = none)
    (hxl : ExactC fl cl) (hxr : ExactC fl cr) (hpl : cl.pre = c.pre) (hpr : cr.pre = [])
    (hb : cl.flatBody ++ cr.flatBody = c.flatBody) :
    SX (fun q => E q ∨ q = r) fl
      { L with info := upd L.info r (some (F, some sep)),
               cont := upd (upd L.cont p (some cl)) r (some cr), est := est' } root := by
  have hrp : p ≠ r := by rintro rfl; rw [hi] at hr; cases hr
  have hrc := hl.cont_none hr
  have hinfo : ∀ q x, L.info q = some x → upd L.info r (some (F, some sep)) q = some x := by
    intro q x hq
    rw [upd_ne _ _ (by rintro rfl; rw [hr] at hq; cases hq)]; exact hq
  have hcont : ∀ q c0, L.cont q = some c0 →
      ∃ c1, upd (upd L.cont p (some cl)) r (some cr) q = some c1 := by
    intro q c0 hq
    have e' : q ≠ r := by rintro rfl; rw [hrc] at hq; cases hq
    rw [upd_ne _ _ e']
    by_cases e : q = p
    · subst e; exact ⟨cl, by simp⟩
    · exact ⟨c0, by rw [upd_ne _ _ e]; exact hq⟩
  have hcase : ∀ q c0 F0 low0, upd (upd L.cont p (some cl)) r (some cr) q = some c0 →
      upd L.info r (some (F, some sep)) q = some (F0, low0) →
      (q = r ∧ c0 = cr ∧ F0 = F ∧ low0 = some sep) ∨ (q = p ∧ c0 = cl ∧ F0 = F ∧ low0 = low) ∨
      (q ≠ r ∧ q ≠ p ∧ L.cont q = some c0 ∧ L.info q = some (F0, low0)) := by
    intro q c0 F0 low0 hq hiq
    by_cases e : q = r
    · subst e
      rw [upd_same] at hq hiq; cases hq; cases hiq
      exact Or.inl ⟨rfl, rfl, rfl, rfl⟩
    · rw [upd_ne _ _ e] at hq hiq
      by_cases e' : q = p
      · subst e'
        rw [upd_same] at hq; cases hq
        rw [hi] at hiq; cases hiq
        exact Or.inr (Or.inl ⟨rfl, rfl, rfl, rfl⟩)
      · rw [upd_ne _ _ e'] at hq
        exact Or.inr (Or.inr ⟨e, e', hq, hiq⟩)
  refine ⟨?_, ?_, ?_, ?_, ?_⟩
  · intro q c0 F0 l0 hq hiq hF
    rcases hcase q c0 F0 l0 hq hiq with ⟨rfl, rfl, rfl, rfl⟩ | ⟨rfl, rfl, rfl, rfl⟩ | ⟨_, _, e1, e2⟩
    · exact hxr
    · exact hxl
    · exact h.exact q c0 F0 l0 e1 e2 hF
  · intro q c0 F0 k hq hiq hEq
    simp only [not_or] at hEq
    have hq1 : ∃ c1, L.cont q = some c1 ∧ L.info q = some (F0, some k) := by
      rcases hcase q c0 F0 _ hq hiq with ⟨rfl, _⟩ | ⟨rfl, _, rfl, rfl⟩ | ⟨_, _, e1, e2⟩
      · exact absurd rfl hEq.2
      · exact ⟨c, hp, hi⟩
      · exact ⟨c0, e1, e2⟩
    obtain ⟨c1, hq1, hiq1⟩ := hq1
    obtain ⟨P, cP, G, lP, h1, h2, h3, h4, h5⟩ := h.post q c1 F0 k hq1 hiq1 hEq.1
    have hPr : P ≠ r := by rintro rfl; rw [hr] at h2; cases h2
    by_cases e : P = p
    · subst e
      rw [hp] at h1; cases h1
      rw [hi] at h2; cases h2
      rw [← hb] at h5
      rcases List.mem_append.1 h5 with h5 | h5
      · exact ⟨P, cl, F, low, by simp only; rw [upd_ne _ _ hPr, upd_same], hinfo _ _ hi, h3, h4, h5⟩
      · exact ⟨r, cr, F, some sep, by simp only; rw [upd_same], by simp only; rw [upd_same], h3, h4, h5⟩
    · exact ⟨P, cP, G, lP, by simp only; rw [upd_ne _ _ hPr, upd_ne _ _ e]; exact h1, hinfo _ _ h2, h3, h4, h5⟩
  · intro a ca y q ha hy
    simp only at ha ⊢
    have : ∃ c1, L.cont q = some c1 := by
      by_cases e : a = r
      · subst e
        rw [upd_same] at ha; cases ha
        rw [hpr] at hy; cases hy
      · rw [upd_ne _ _ e] at ha
        by_cases e' : a = p
        · subst e'
          rw [upd_same] at ha; cases ha
          rw [hpl] at hy
          exact h.pre a c y q hp hy
        · rw [upd_ne _ _ e'] at ha
          exact h.pre a ca y q ha hy
    obtain ⟨c1, h1⟩ := this
    exact hcont q c1 h1
  · intro a ca F0 l0 ha hia
    have : ∃ T, L.info root = some (T, none) ∧ Down L.fcf T F0 := by
      rcases hcase a ca F0 l0 ha hia with ⟨_, _, rfl, _⟩ | ⟨rfl, _, rfl, _⟩ | ⟨_, _, e1, e2⟩
      · exact h.chain p c _ low hp hi
      · exact h.chain a c _ low hp hi
      · exact h.chain a ca F0 l0 e1 e2
    obtain ⟨T, t1, t2⟩ := this
    exact ⟨T, hinfo _ _ t1, t2⟩
  · obtain ⟨c1, h1⟩ := h.rootc
    exact hcont root c1 h1

/-- A page is merged into its left neighbour. -/
theorem SX.merge (h : SX E fl L root) {c c' : Chain K V} {n : Chain K V} {dk : K}
    (hp : L.cont p = some c) (hi : L.info p = some (F, low))
    (hq : L.cont q = some n) (hiq : L.info q = some (F, some dk)) (hpq : p ≠ q)
    (hpre : c'.pre = c.pre) (hpreq : ∀ P cP y, L.cont P = some cP → (y, Pay.child q) ∉ cP.pre)
    (hroot : root ≠ q)
    (hx : F ≠ 0 → ExactC fl c') (hb : c'.flatBody = c.flatBody ++ n.flatBody)
    (hE : ∀ x, E x → E' x ∨ x = q) :
    SX E' fl { L with cont := upd (upd L.cont p (some c')) q none } root := by
  have hcont : ∀ x c0, x ≠ q → L.cont x = some c0 →
      ∃ c1, upd (upd L.cont p (some c')) q none x = some c1 := by
    intro x c0 hxq hx
    rw [upd_ne _ _ hxq]
    by_cases e : x = p
    · subst e; exact ⟨c', by simp⟩
    · exact ⟨c0, by rw [upd_ne _ _ e]; exact hx⟩
  have hback : ∀ x c0, upd (upd L.cont p (some c')) q none x = some c0 →
      x ≠ q ∧ ((x = p ∧ c0 = c') ∨ (x ≠ p ∧ L.cont x = some c0)) := by
    intro x c0 hx
    have e : x ≠ q := by rintro rfl; rw [upd_same] at hx; cases hx
    refine ⟨e, ?_⟩
    rw [upd_ne _ _ e] at hx
    by_cases e' : x = p
    · subst e'; rw [upd_same] at hx; cases hx; exact Or.inl ⟨rfl, rfl⟩
    · rw [upd_ne _ _ e'] at hx; exact Or.inr ⟨e', hx⟩
  refine ⟨?_, ?_, ?_, ?_, ?_⟩
  · intro x c0 F0 l0 hx0 hix hF
    obtain ⟨e, ⟨rfl, rfl⟩ | ⟨e', h1⟩⟩ := hback x c0 hx0
    · simp only at hix
      rw [hi] at hix; cases hix
      exact hx hF
    · exact h.exact x c0 F0 l0 h1 hix hF
  · intro x c0 F0 k hx0 hix hEx
    obtain ⟨e, g1⟩ := hback x c0 hx0
    have g2 : ∃ c1, L.cont x = some c1 := by
      rcases g1 with ⟨rfl, _⟩ | ⟨_, g1⟩
      · exact ⟨c, hp⟩
      · exact ⟨c0, g1⟩
    obtain ⟨c1, g2⟩ := g2
    obtain ⟨P, cP, G, lP, h1, h2, h3, h4, h5⟩ := h.post x c1 F0 k g2 hix (by
      intro e0
      rcases hE x e0 with e1 | e1
      · exact hEx e1
      · exact e e1)
    simp only
    by_cases eq : P = q
    · subst eq
      rw [hq] at h1; cases h1
      rw [hiq] at h2; cases h2
      exact ⟨p, c', F, low, by rw [upd_ne _ _ hpq, upd_same], hi, h3, h4,
        by rw [hb]; exact List.mem_append_right _ h5⟩
    · by_cases ep : P = p
      · subst ep
        rw [hp] at h1; cases h1
        exact ⟨P, c', G, lP, by rw [upd_ne _ _ hpq, upd_same], h2, h3, h4,
          by rw [hb]; exact List.mem_append_left _ h5⟩
      · exact ⟨P, cP, G, lP, by rw [upd_ne _ _ eq, upd_ne _ _ ep]; exact h1, h2, h3, h4, h5⟩
  · intro a ca y x ha hy
    obtain ⟨e, ⟨rfl, rfl⟩ | ⟨e', h1⟩⟩ := hback a ca ha
    · rw [hpre] at hy
      obtain ⟨c1, h1⟩ := h.pre a c y x hp hy
      exact hcont x c1 (by rintro rfl; exact hpreq a c y hp hy) h1
    · obtain ⟨c1, h2⟩ := h.pre a ca y x h1 hy
      exact hcont x c1 (by rintro rfl; exact hpreq a ca y h1 hy) h2
  · intro a ca F0 l0 ha hia
    obtain ⟨e, ⟨rfl, rfl⟩ | ⟨e', h1⟩⟩ := hback a ca ha
    · exact h.chain a c F0 l0 hp hia
    · exact h.chain a ca F0 l0 h1 hia
  · obtain ⟨c1, h1⟩ := h.rootc
    exact hcont root c1 hroot h1

/-- A root with a single child is removed. -/
theorem SX.kill (h : SX E fl L root) (hl : LInv cfg L) {c : Chain K V}
    (hp : L.cont root = some c) (hi : L.info root = some (F, none)) (hF : F ≠ 0)
    (hb : c.flatBody = []) {y : K} (hq : (y, Pay.child q) ∈ c.pre)
    (hE : ∀ x l, E x → L.info x ≠ some (F, l)) :
    SX E fl { L with cont := upd L.cont root none } q := by
  have hw := hl.page _ _ _ _ hp hi
  have hqi : L.info q = some (L.fcf F, none) := (hw.ents.flat hw.wf).1 _ hq q rfl
  have hFn := hl.fam _ _ _ hi
  have hlt := hl.fcf F (Nat.pos_of_ne_zero hF) hFn
  have htop : ∀ x cx G l, L.cont x = some cx → L.info x = some (G, l) → x ≠ root →
      G ≠ F ∧ Down L.fcf (L.fcf F) G := by
    intro x cx G l hx hix hne
    obtain ⟨T, t1, t2⟩ := h.chain x cx G l hx hix
    rw [hi] at t1; cases t1
    have hGF : G ≠ F := by
      rintro rfl
      cases l with
      | none =>
        rcases hl.disj x root cx c _ _ _ hx hp hix hi hne with ⟨_, _, _, e, _⟩ | ⟨_, _, _, e, _⟩ <;>
          cases e
      | some k =>
        obtain ⟨P, cP, G', lP, h1, h2, h3, h4, h5⟩ := h.post x cx G k hx hix (fun e => hE x _ e hix)
        obtain ⟨T, t1, t2⟩ := h.chain P cP G' lP h1 h2
        rw [hi] at t1; cases t1
        have h6 := t2.le hl.fcf hFn
        have h7 := hl.fcf G' (Nat.pos_of_ne_zero h3) (hl.fam _ _ _ h2)
        omega
    refine ⟨hGF, ?_⟩
    cases t2 with
    | refl => exact absurd rfl hGF
    | step _ d => exact d
  have hcont : ∀ x c0, x ≠ root → L.cont x = some c0 → upd L.cont root none x = some c0 := by
    intro x c0 e hx; rw [upd_ne _ _ e]; exact hx
  have hback : ∀ x c0, upd L.cont root none x = some c0 → x ≠ root ∧ L.cont x = some c0 := by
    intro x c0 hx
    have e : x ≠ root := by rintro rfl; rw [upd_same] at hx; cases hx
    rw [upd_ne _ _ e] at hx
    exact ⟨e, hx⟩
  have hqr : q ≠ root := by
    rintro rfl
    rw [hi] at hqi
    have : F = L.fcf F := congrArg Prod.fst (Option.some.inj hqi)
    omega
  refine ⟨?_, ?_, ?_, ?_, ?_⟩
  · intro x c0 F0 l0 hx hix hF0
    exact h.exact x c0 F0 l0 (hback x c0 hx).2 hix hF0
  · intro x c0 F0 k hx hix hEx
    obtain ⟨e, hx⟩ := hback x c0 hx
    obtain ⟨P, cP, G, lP, h1, h2, h3, h4, h5⟩ := h.post x c0 F0 k hx hix hEx
    refine ⟨P, cP, G, lP, hcont P cP ?_ h1, h2, h3, h4, h5⟩
    rintro rfl
    rw [hp] at h1; cases h1
    rw [hb] at h5; cases h5
  · intro a ca y' x ha hy
    obtain ⟨e, ha'⟩ := hback a ca ha
    obtain ⟨c1, h1⟩ := h.pre a ca y' x ha' hy
    refine ⟨c1, hcont x c1 ?_ h1⟩
    rintro rfl
    obtain ⟨G, l, hia⟩ := hl.known a ca ha'
    have hwa := hl.page _ _ _ _ ha' hia
    have h2 := (hwa.ents.flat hwa.wf).1 _ hy x rfl
    rw [hi] at h2
    obtain ⟨_, hd⟩ := htop a ca G l ha' hia e
    have h3 := hd.le hl.fcf (Nat.lt_trans hlt hFn)
    have hG0 : G ≠ 0 := by
      rintro rfl
      have := hwa.wf.pre_shape.2 (by simp)
      rw [this] at hy; cases hy
    have h4 := hl.fcf G (Nat.pos_of_ne_zero hG0) (hl.fam _ _ _ hia)
    have h5 : F = L.fcf G := congrArg Prod.fst (Option.some.inj h2)
    omega
  · intro a ca F0 l0 ha hia
    obtain ⟨e, ha⟩ := hback a ca ha
    exact ⟨_, hqi, (htop a ca F0 l0 ha hia e).2⟩
  · obtain ⟨c1, h1⟩ := h.pre root c y q hp hq
    exact ⟨c1, hcont q c1 hqr h1⟩

/-- A new root. -/
theorem SX.newRoot (h : SX E fl L root) (hl : LInv cfg L) {np rp : PID} {n : Chain K V} {sep y : K}
    {est' : PID → Est} (hnp : L.info np = none) (hi : L.info root = some (F, none))
    (hir : L.info rp = some (F, some sep))
    (hx : ExactC fl n) (hb : n.flatBody = [(sep, .child rp)]) (hpre : n.pre = [(y, .child root)])
    (hE : ∀ x, E x → E' x ∨ x = rp) :
    SX E' fl { L with info := upd L.info np (some (L.nfam, none)), nfam := L.nfam + 1,
                      fcf := upd L.fcf L.nfam F, est := est',
                      cont := upd L.cont np (some n) } np := by
  have hnc := hl.cont_none hnp
  have hinfo : ∀ q x, L.info q = some x → upd L.info np (some (L.nfam, none)) q = some x := by
    intro q x hq
    rw [upd_ne _ _ (by rintro rfl; rw [hnp] at hq; cases hq)]; exact hq
  have hcont : ∀ q c0, L.cont q = some c0 → upd L.cont np (some n) q = some c0 := by
    intro q c0 hq
    rw [upd_ne _ _ (by rintro rfl; rw [hnc] at hq; cases hq)]; exact hq
  have hcase : ∀ q c0 F0 low0, upd L.cont np (some n) q = some c0 →
      upd L.info np (some (L.nfam, none)) q = some (F0, low0) →
      (q = np ∧ c0 = n ∧ F0 = L.nfam ∧ low0 = none) ∨
      (q ≠ np ∧ L.cont q = some c0 ∧ L.info q = some (F0, low0)) := by
    intro q c0 F0 low0 hq hiq
    by_cases e : q = np
    · subst e
      rw [upd_same] at hq hiq; cases hq; cases hiq
      exact Or.inl ⟨rfl, rfl, rfl, rfl⟩
    · rw [upd_ne _ _ e] at hq hiq
      exact Or.inr ⟨e, hq, hiq⟩
  have hfc : ∀ G, G < L.nfam → upd L.fcf L.nfam F G = L.fcf G := fun G hG => upd_ne _ _ (by omega)
  have hFn := hl.fam _ _ _ hi
  have hdown : ∀ {A B}, Down L.fcf A B → A < L.nfam → Down (upd L.fcf L.nfam F) A B := by
    intro A B hd
    induction hd with
    | refl => intro _; exact .refl _
    | step a _ ih =>
      intro hA
      have h1 := hl.fcf _ (Nat.pos_of_ne_zero a) hA
      refine .step a ?_
      rw [hfc _ hA]
      exact ih (Nat.lt_trans h1 hA)
  have hn0 : L.nfam ≠ 0 := by omega
  refine ⟨?_, ?_, ?_, ?_, ?_⟩
  · intro q c0 F0 l0 hq hiq hF
    rcases hcase q c0 F0 l0 hq hiq with ⟨rfl, rfl, rfl, rfl⟩ | ⟨_, e1, e2⟩
    · exact hx
    · exact h.exact q c0 F0 l0 e1 e2 hF
  · intro q c0 F0 k hq hiq hEq
    simp only
    rcases hcase q c0 F0 _ hq hiq with ⟨_, _, _, e⟩ | ⟨_, e1, e2⟩
    · cases e
    · by_cases e0 : E q
      · rcases hE q e0 with e | e
        · exact absurd e hEq
        · subst e
          rw [hir] at e2; cases e2
          exact ⟨np, n, L.nfam, none, by rw [upd_same], by rw [upd_same], hn0, by rw [upd_same],
            by rw [hb]; simp⟩
      · obtain ⟨P, cP, G, lP, h1, h2, h3, h4, h5⟩ := h.post q c0 F0 k e1 e2 e0
        exact ⟨P, cP, G, lP, hcont _ _ h1, hinfo _ _ h2, h3,
          by rw [hfc _ (hl.fam _ _ _ h2)]; exact h4, h5⟩
  · intro a ca y' q ha hy
    simp only at ha ⊢
    have : ∃ c1, L.cont q = some c1 := by
      by_cases e : a = np
      · subst e
        rw [upd_same] at ha; cases ha
        rw [hpre] at hy
        simp only [List.mem_singleton, Prod.mk.injEq, Pay.child.injEq] at hy
        rw [hy.2]; exact h.rootc
      · rw [upd_ne _ _ e] at ha
        exact h.pre a ca y' q ha hy
    obtain ⟨c1, h1⟩ := this
    exact ⟨c1, hcont q c1 h1⟩
  · intro a ca F0 l0 ha hia
    refine ⟨L.nfam, by simp only; rw [upd_same], ?_⟩
    rcases hcase a ca F0 l0 ha hia with ⟨_, _, rfl, _⟩ | ⟨_, e1, e2⟩
    · exact .refl _
    · obtain ⟨T, t1, t2⟩ := h.chain a ca F0 l0 e1 e2
      rw [hi] at t1; cases t1
      refine .step hn0 ?_
      simp only
      rw [upd_same]
      exact hdown t2 hFn
  · exact ⟨n, by simp only; rw [upd_same]⟩

end BwTree
