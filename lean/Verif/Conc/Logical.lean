import Verif.Conc.Ghost

/-!
# The logical invariant and its updates (helper lemmas)
-/

namespace BwTree

set_option linter.unusedSectionVars false

variable {K V : Type} [LinearOrder K] {cfg : Cfg K} {L : Lv K V}

theorem Before.not_inR {hi lo low high' : Option K} {k : K} (h : Before hi lo)
    (h1 : InR low hi k) (h2 : InR lo high' k) : False := by
  obtain ⟨a, b, ha, hb, hab⟩ := h
  have e1 := h1.2 a ha
  have e2 := h2.1 b hb
  simp at e1 e2
  order

theorem PageWF.mono {L' : Lv K V} {F : Nat} {low : Option K} {c : Chain K V}
    (h : PageWF cfg L F low c) (hi : ∀ q x, L.info q = some x → L'.info q = some x)
    (hf : L'.fcf F = L.fcf F) (hc : ∀ w x, L.cellInfo w = some x → L'.cellInfo w = some x) :
    PageWF cfg L' F low c where
  wf := h.wf
  ents := h.ents.mono (fun s p e => by rw [hf]; exact hi _ _ e)
    (fun s p e => by rw [hf]; exact hc _ _ e)
  link := fun x e => hi _ _ (h.link x e)
  size := h.size
  base := h.base

theorem LInv.ent_info (h : LInv cfg L) {p q : PID} {c : Chain K V} {F : Nat} {low : Option K}
    {sep : K} (hp : L.cont p = some c) (hi : L.info p = some (F, low))
    (he : (sep, Pay.child q) ∈ c.flatBody) : L.info q = some (L.fcf F, some sep) := by
  have hw := h.page p c F low hp hi
  exact (hw.ents.flat hw.wf).2 _ he q rfl

theorem LInv.uniq (h : LInv cfg L) {p q : PID} {c c' : Chain K V} {F : Nat} {low low' : Option K}
    (hp : L.cont p = some c) (hq : L.cont q = some c') (hip : L.info p = some (F, low))
    (hiq : L.info q = some (F, low')) {k : K} (h1 : InR low c.high k) (h2 : InR low' c'.high k) :
    p = q := by
  by_contra hne
  rcases h.disj p q c c' F low low' hp hq hip hiq hne with e | e
  · exact e.not_inR h1 h2
  · exact e.not_inR h2 h1

theorem PageWF.inR_low {F : Nat} {l : K} {c : Chain K V} (h : PageWF cfg L F (some l) c) :
    InR (some l) c.high l := by
  refine ⟨?_, ?_⟩
  · intro x hx; cases hx; simp
  · intro b hb; simpa using h.wf.nonempty l b rfl hb

theorem LInv.uniq_low (h : LInv cfg L) {p q : PID} {c c' : Chain K V} {F : Nat} {l : K}
    (hp : L.cont p = some c) (hq : L.cont q = some c') (hip : L.info p = some (F, some l))
    (hiq : L.info q = some (F, some l)) : p = q :=
  h.uniq hp hq hip hiq (h.page _ _ _ _ hp hip).inR_low (h.page _ _ _ _ hq hiq).inR_low

/-- The first child of a page with a lower bound has the same lower bound. -/
theorem LInv.fc (h : LInv cfg L) {p : PID} {c : Chain K V} {F : Nat} {l : K}
    (hp : L.cont p = some c) (hi : L.info p = some (F, some l)) (hF : F ≠ 0) :
    ∃ q c', L.cont q = some c' ∧ L.info q = some (L.fcf F, some l) ∧ L.est q = .posted F := by
  have hw := h.page p c F _ hp hi
  have hwf := hw.wf
  simp only [hF, ne_eq, not_false_eq_true, decide_true] at hwf
  obtain ⟨pay, rs, e⟩ := hwf.head_low rfl
  obtain ⟨q, hq⟩ : ∃ q, pay = .child q := by
    have := hwf.flatBody_spec.2.2 (l, pay) (by rw [e]; simp)
    simpa [PayOK] using this
  subst hq
  have hm : (l, Pay.child q) ∈ c.flatBody := by rw [e]; simp
  obtain ⟨h1, c', h2⟩ := h.ents p c F _ l q hp hi hm
  exact ⟨q, c', h2, h.ent_info hp hi hm, h1⟩

/-- `F` is reached from `G` by going down. -/
inductive Down (fcf : Nat → Nat) : Nat → Nat → Prop
  | refl (F : Nat) : Down fcf F F
  | step {G F : Nat} : G ≠ 0 → Down fcf (fcf G) F → Down fcf G F

theorem LInv.fc_down (h : LInv cfg L) {G F : Nat} (hd : Down L.fcf G F) :
    ∀ {p : PID} {c : Chain K V} {l : K}, L.cont p = some c → L.info p = some (G, some l) →
    ∃ q c', L.cont q = some c' ∧ L.info q = some (F, some l) ∧
      (q = p ∨ ∃ H, L.est q = .posted H) := by
  induction hd with
  | refl => intro p c l hp hi; exact ⟨p, c, hp, hi, Or.inl rfl⟩
  | step hG _ ih =>
    intro p c l hp hi
    obtain ⟨q, c', h1, h2, h3⟩ := h.fc hp hi hG
    obtain ⟨q', c'', e1, e2, e3⟩ := ih h1 h2
    refine ⟨q', c'', e1, e2, Or.inr ?_⟩
    rcases e3 with e | e
    · subst e; exact ⟨_, h3⟩
    · exact e

/-! ## Updates -/

theorem LInv.cont_none (h : LInv cfg L) {p : PID} (hi : L.info p = none) : L.cont p = none := by
  cases e : L.cont p with
  | none => rfl
  | some c =>
    obtain ⟨F, low, e'⟩ := h.known p c e
    rw [hi] at e'; cases e'

/-- New contents of a page with the same range. -/
theorem LInv.replace (h : LInv cfg L) {p : PID} {c c' : Chain K V} {F : Nat} {low : Option K}
    (hp : L.cont p = some c) (hi : L.info p = some (F, low)) (hw : PageWF cfg L F low c')
    (hh : c'.high = c.high) (hn : c'.nextPid = c.nextPid) {est' : PID → Est} {m' : K → Option V}
    (he : ∀ sep q, (sep, Pay.child q) ∈ c'.flatBody → est' q = .posted F ∧ ∃ c0, L.cont q = some c0)
    (ho : ∀ p0 c0 F0 low0 sep q, p0 ≠ p → L.cont p0 = some c0 → L.info p0 = some (F0, low0) →
      (sep, Pay.child q) ∈ c0.flatBody → est' q = L.est q)
    (hl : ∀ q, est' q ≠ .deleted → L.est q ≠ .deleted)
    (hm : ∀ k, ¬ (F = 0 ∧ InR low c.high k) → m' k = L.m k)
    (hv : F = 0 → ∀ k, InR low c.high k → alook c'.flatBody k = (m' k).map Pay.val) :
    LInv cfg { L with cont := upd L.cont p (some c'), est := est', m := m' } := by
  have hcont : ∀ q c0, L.cont q = some c0 → ∃ c1, upd L.cont p (some c') q = some c1 := by
    intro q c0 hq
    by_cases e : q = p
    · subst e; exact ⟨c', by simp⟩
    · exact ⟨c0, by rw [upd_ne _ _ e]; exact hq⟩
  have hmono : ∀ {F low c}, PageWF cfg L F low c → PageWF cfg
      { L with cont := upd L.cont p (some c'), est := est', m := m' } F low c :=
    fun w => w.mono (fun _ _ e => e) rfl (fun _ _ e => e)
  refine ⟨?_, ?_, ?_, ?_, ?_, ?_, ?_, h.fam, h.fcf, ?_⟩
  · intro q c0 F0 low0 hq hi0
    by_cases e : q = p
    · subst e
      simp only [upd_same, Option.some.injEq] at hq
      simp only [hi, Option.some.injEq, Prod.mk.injEq] at hi0
      rw [← hq, ← hi0.1, ← hi0.2]; exact hmono hw
    · simp only [upd_ne _ _ e] at hq
      exact hmono (h.page q c0 F0 low0 hq hi0)
  · intro q c0 hq
    by_cases e : q = p
    · subst e; exact ⟨F, low, hi⟩
    · simp only [upd_ne _ _ e] at hq
      exact h.known q c0 hq
  · intro a b ca cb F0 la lb ha hb hia hib hne
    simp only at ha hb hia hib
    by_cases ea : a = p
    · subst ea
      rw [hi] at hia; cases hia
      rw [upd_same] at ha; cases ha
      rw [upd_ne _ _ (Ne.symm hne)] at hb
      rw [hh]
      exact h.disj a b c cb F low lb hp hb hi hib hne
    · rw [upd_ne _ _ ea] at ha
      by_cases eb : b = p
      · subst eb
        rw [hi] at hib; cases hib
        rw [upd_same] at hb; cases hb
        rw [hh]
        exact h.disj a b ca c F la low ha hp hia hi hne
      · rw [upd_ne _ _ eb] at hb
        exact h.disj a b ca cb F0 la lb ha hb hia hib hne
  · intro a ca F0 la sep q ha hia hs
    simp only at ha hia ⊢
    by_cases ea : a = p
    · subst ea
      rw [hi] at hia; cases hia
      rw [upd_same] at ha; cases ha
      obtain ⟨e1, c0, e2⟩ := he sep q hs
      exact ⟨e1, hcont q c0 e2⟩
    · rw [upd_ne _ _ ea] at ha
      obtain ⟨e1, c0, e2⟩ := h.ents a ca F0 la sep q ha hia hs
      exact ⟨by rw [ho a ca F0 la sep q ea ha hia hs]; exact e1, hcont q c0 e2⟩
  · intro a ca la k ha hia hk
    simp only at ha hia ⊢
    by_cases ea : a = p
    · subst ea
      rw [hi] at hia; cases hia
      rw [upd_same] at ha; cases ha
      rw [hh] at hk
      exact hv rfl k hk
    · rw [upd_ne _ _ ea] at ha
      rw [hm k, h.val a ca la k ha hia hk]
      rintro ⟨rfl, hk'⟩
      exact ea (h.uniq ha hp hia hi hk hk')
  · intro k
    obtain ⟨a, ca, la, h1, h2, h3⟩ := h.cover k
    simp only
    by_cases ea : a = p
    · subst ea
      rw [h1] at hp; cases hp
      exact ⟨a, c', la, by simp, h2, by rw [hh]; exact h3⟩
    · exact ⟨a, ca, la, by rw [upd_ne _ _ ea]; exact h1, h2, h3⟩
  · intro q F0 l hq hd
    obtain ⟨c0, e⟩ := h.live q F0 l hq (hl q hd)
    exact hcont q c0 e
  · intro q c0 x hq hx
    simp only at hq ⊢
    by_cases e : q = p
    · subst e
      rw [upd_same] at hq; cases hq
      obtain ⟨c1, e1⟩ := h.linkl q c x hp (by rw [← hh]; exact hx)
      rw [hn]; exact hcont _ c1 e1
    · rw [upd_ne _ _ e] at hq
      obtain ⟨c1, e1⟩ := h.linkl q c0 x hq hx
      exact hcont _ c1 e1

/-- A page is split; the right half becomes a page of its own. -/
theorem LInv.split (h : LInv cfg L) {p r : PID} {c cl cr : Chain K V} {F : Nat} {low : Option K}
    {sep : K} {t : Nat}
    (hp : L.cont p = some c) (hi : L.info p = some (F, low)) (hr : L.info r = none)
    (hwl : PageWF cfg { L with info := upd L.info r (some (F, some sep)) } F low cl)
    (hwr : PageWF cfg { L with info := upd L.info r (some (F, some sep)) } F (some sep) cr)
    (hhl : cl.high = some sep) (hhr : cr.high = c.high)
    (hnl : cl.nextPid = r) (hnr : cr.nextPid = c.nextPid)
    (hb : cl.flatBody ++ cr.flatBody = c.flatBody)
    (hs1 : LowOK low sep false) (hs2 : HighOK c.high sep true) :
    LInv cfg { L with info := upd L.info r (some (F, some sep)),
                      cont := upd (upd L.cont p (some cl)) r (some cr),
                      est := upd L.est r (.unposted t) } := by
  have hrp : p ≠ r := by rintro rfl; rw [hi] at hr; cases hr
  have hrc := h.cont_none hr
  have hinfo : ∀ q x, L.info q = some x → upd L.info r (some (F, some sep)) q = some x := by
    intro q x hq
    rw [upd_ne _ _ (by rintro rfl; rw [hr] at hq; cases hq)]; exact hq
  have hcont : ∀ q c0, L.cont q = some c0 →
      ∃ c1, upd (upd L.cont p (some cl)) r (some cr) q = some c1 := by
    intro q c0 hq
    have e' : q ≠ r := by rintro rfl; rw [hrc] at hq; cases hq
    rw [upd_ne _ _ e']
    by_cases e : q = p
    · subst e; exact ⟨cl, by simp⟩
    · exact ⟨c0, by rw [upd_ne _ _ e]; exact hq⟩
  have hmono : ∀ {F0 low0 c0}, PageWF cfg { L with info := upd L.info r (some (F, some sep)) }
      F0 low0 c0 → PageWF cfg { L with info := upd L.info r (some (F, some sep)), cont := upd (upd L.cont p (some cl)) r (some cr), est := upd L.est r (.unposted t) } F0 low0 c0 :=
    fun w => w.mono (fun _ _ e => e) rfl (fun _ _ e => e)
  -- the three kinds of pages
  have hcase : ∀ q c0 F0 low0, upd (upd L.cont p (some cl)) r (some cr) q = some c0 →
      upd L.info r (some (F, some sep)) q = some (F0, low0) →
      (q = r ∧ c0 = cr ∧ F0 = F ∧ low0 = some sep) ∨ (q = p ∧ c0 = cl ∧ F0 = F ∧ low0 = low) ∨
      (q ≠ r ∧ q ≠ p ∧ L.cont q = some c0 ∧ L.info q = some (F0, low0)) := by
    intro q c0 F0 low0 hq hiq
    by_cases e : q = r
    · subst e
      rw [upd_same] at hq hiq; cases hq; cases hiq
      exact Or.inl ⟨rfl, rfl, rfl, rfl⟩
    · rw [upd_ne _ _ e] at hq hiq
      by_cases e' : q = p
      · subst e'
        rw [upd_same] at hq; cases hq
        rw [hi] at hiq; cases hiq
        exact Or.inr (Or.inl ⟨rfl, rfl, rfl, rfl⟩)
      · rw [upd_ne _ _ e'] at hq
        exact Or.inr (Or.inr ⟨e, e', hq, hiq⟩)
  -- ranges
  have hd_l : ∀ q c0 low0, L.cont q = some c0 → L.info q = some (F, low0) → q ≠ p →
      Before cl.high low0 ∨ Before c0.high low := by
    intro q c0 low0 hq hiq hne
    rcases h.disj p q c c0 F low low0 hp hq hi hiq (Ne.symm hne) with ⟨a, b, e1, e2, e3⟩ | e
    · left
      have := hs2 a e1
      simp at this
      exact ⟨sep, b, hhl, e2, by order⟩
    · exact Or.inr e
  have hd_r : ∀ q c0 low0, L.cont q = some c0 → L.info q = some (F, low0) → q ≠ p →
      Before cr.high low0 ∨ Before c0.high (some sep) := by
    intro q c0 low0 hq hiq hne
    rcases h.disj p q c c0 F low low0 hp hq hi hiq (Ne.symm hne) with e | ⟨a, b, e1, e2, e3⟩
    · left; rw [hhr]; exact e
    · right
      have := hs1 b e2
      simp at this
      exact ⟨a, sep, e1, rfl, by order⟩
  have hlr : Before cl.high (some sep) := ⟨sep, sep, hhl, rfl, le_refl _⟩
  have hlrange := hwl.wf.flatBody_spec.2.1
  have hrrange := hwr.wf.flatBody_spec.2.1
  refine ⟨?_, ?_, ?_, ?_, ?_, ?_, ?_, ?_, h.fcf, ?_⟩
  · intro q c0 F0 low0 hq hi0
    rcases hcase q c0 F0 low0 hq hi0 with ⟨rfl, rfl, rfl, rfl⟩ | ⟨rfl, rfl, rfl, rfl⟩ | ⟨_, _, e1, e2⟩
    · exact hmono hwr
    · exact hmono hwl
    · exact hmono ((h.page q c0 F0 low0 e1 e2).mono (hinfo) rfl (fun _ _ e => e))
  · intro q c0 hq
    simp only at hq ⊢
    by_cases e : q = r
    · subst e; exact ⟨F, some sep, by simp⟩
    · rw [upd_ne _ _ e] at hq ⊢
      by_cases e' : q = p
      · subst e'; exact ⟨F, low, hi⟩
      · rw [upd_ne _ _ e'] at hq; exact h.known q c0 hq
  · intro a b ca cb F0 la lb ha hb' hia hib hne
    rcases hcase a ca F0 la ha hia with ⟨rfl, rfl, rfl, rfl⟩ | ⟨rfl, rfl, rfl, rfl⟩ | ⟨n1, n2, e1, e2⟩
    · rcases hcase b cb _ lb hb' hib with ⟨rfl, rfl, _, rfl⟩ | ⟨rfl, rfl, _, rfl⟩ | ⟨m1, m2, e3, e4⟩
      · exact absurd rfl hne
      · exact Or.inr hlr
      · exact hd_r b cb lb e3 e4 m2
    · rcases hcase b cb _ lb hb' hib with ⟨rfl, rfl, _, rfl⟩ | ⟨rfl, rfl, _, rfl⟩ | ⟨m1, m2, e3, e4⟩
      · exact Or.inl hlr
      · exact absurd rfl hne
      · exact hd_l b cb lb e3 e4 m2
    · rcases hcase b cb _ lb hb' hib with ⟨rfl, rfl, rfl, rfl⟩ | ⟨rfl, rfl, rfl, rfl⟩ | ⟨m1, m2, e3, e4⟩
      · exact (hd_r a ca la e1 e2 n2).symm
      · exact (hd_l a ca la e1 e2 n2).symm
      · exact h.disj a b ca cb F0 la lb e1 e3 e2 e4 hne
  · intro a ca F0 la s q ha hia hs
    have key : ∀ a0 c0 F1 l1, L.cont a0 = some c0 → L.info a0 = some (F1, l1) →
        (s, Pay.child q) ∈ c0.flatBody → upd L.est r (.unposted t) q = .posted F1 ∧
        ∃ c', upd (upd L.cont p (some cl)) r (some cr) q = some c' := by
      intro a0 c0 F1 l1 x1 x2 x3
      obtain ⟨y1, c1, y2⟩ := h.ents a0 c0 F1 l1 s q x1 x2 x3
      have : q ≠ r := by rintro rfl; rw [hrc] at y2; cases y2
      exact ⟨by rw [upd_ne _ _ this]; exact y1, hcont q c1 y2⟩
    rcases hcase a ca F0 la ha hia with ⟨rfl, rfl, rfl, rfl⟩ | ⟨rfl, rfl, rfl, rfl⟩ | ⟨n1, n2, e1, e2⟩
    · exact key p c _ low hp hi (by rw [← hb]; exact List.mem_append_right _ hs)
    · exact key a c _ _ hp hi (by rw [← hb]; exact List.mem_append_left _ hs)
    · exact key a ca F0 la e1 e2 hs
  · intro a ca la k ha hia hk
    have hv : F = 0 → InR low c.high k → alook (cl.flatBody ++ cr.flatBody) k =
        (L.m k).map Pay.val := by
      rintro rfl hk; rw [hb]; exact h.val p c low k hp hi hk
    rcases hcase a ca 0 la ha hia with ⟨rfl, rfl, rfl, rfl⟩ | ⟨rfl, rfl, rfl, rfl⟩ | ⟨n1, n2, e1, e2⟩
    · have h1 := hk.1 sep rfl
      simp at h1
      have := hv rfl ⟨?_, by rw [← hhr]; exact hk.2⟩
      · rw [alook_append, alook_none_of_gt] at this
        · simpa using this
        · intro x hx
          have := (hlrange x hx).2 sep hhl
          simp at this; order
      · intro b hb'
        have := hs1 b hb'
        simp at this ⊢; order
    · have h1 := hk.2 sep hhl
      simp at h1
      have := hv rfl ⟨hk.1, ?_⟩
      · rw [alook_append] at this
        cases e : alook ca.flatBody k with
        | some v => rw [e] at this; simpa using this
        | none =>
          rw [e, alook_none_of_lt (l := cr.flatBody)] at this
          · simpa using this
          · intro x hx
            have := (hrrange x hx).1 sep rfl
            simp at this; order
      · intro b hb'
        have := hs2 b hb'
        simp at this ⊢; order
    · exact h.val a ca la k e1 e2 hk
  · intro k
    obtain ⟨a, ca, la, h1, h2, h3⟩ := h.cover k
    simp only
    have har : a ≠ r := by rintro rfl; rw [hrc] at h1; cases h1
    by_cases ea : a = p
    · subst ea
      rw [h1] at hp; cases hp
      rw [h2] at hi; cases hi
      by_cases hks : k < sep
      · refine ⟨a, cl, _, by rw [upd_ne _ _ har]; simp, hinfo _ _ h2, h3.1, ?_⟩
        intro b hb'; rw [hhl] at hb'; cases hb'; simpa using hks
      · refine ⟨r, cr, some sep, by simp, by simp, ?_, by rw [hhr]; exact h3.2⟩
        intro b hb'; cases hb'; simp; order
    · exact ⟨a, ca, la, by rw [upd_ne _ _ har, upd_ne _ _ ea]; exact h1, hinfo _ _ h2, h3⟩
  · intro q F0 l hq hd
    simp only at hq hd ⊢
    by_cases e : q = r
    · subst e; exact ⟨cr, by simp⟩
    · rw [upd_ne _ _ e] at hq hd
      obtain ⟨c0, e⟩ := h.live q F0 l hq hd
      exact hcont q c0 e
  · intro q F0 l hq
    simp only at hq
    by_cases e : q = r
    · subst e; rw [upd_same] at hq; cases hq; exact h.fam p F low hi
    · rw [upd_ne _ _ e] at hq; exact h.fam q F0 l hq
  · intro q c0 x hq hx
    simp only at hq ⊢
    by_cases e : q = r
    · subst e
      rw [upd_same] at hq; cases hq
      obtain ⟨c1, e1⟩ := h.linkl p c x hp (by rw [← hhr]; exact hx)
      rw [hnr]; exact hcont _ c1 e1
    · rw [upd_ne _ _ e] at hq
      by_cases e' : q = p
      · subst e'
        rw [upd_same] at hq; cases hq
        rw [hnl]; exact ⟨cr, by simp⟩
      · rw [upd_ne _ _ e'] at hq
        obtain ⟨c1, e1⟩ := h.linkl q c0 x hq hx
        exact hcont _ c1 e1

/-- A page is merged into its left neighbour. -/
theorem LInv.merge (h : LInv cfg L) {p q : PID} {c c' cq : Chain K V} {F : Nat} {low : Option K}
    {dk : K} (hp : L.cont p = some c) (hi : L.info p = some (F, low)) (hq : L.cont q = some cq)
    (hiq : L.info q = some (F, some dk)) (hne : p ≠ q) (hd : L.est q = .deleted)
    (hw : PageWF cfg L F low c') (hh : c.high = some dk) (hh' : c'.high = cq.high)
    (hn : c'.nextPid = cq.nextPid)
    (hb : c'.flatBody = c.flatBody ++ cq.flatBody) :
    LInv cfg { L with cont := upd (upd L.cont p (some c')) q none } := by
  have hnoent : ∀ a ca F0 la s x, L.cont a = some ca → L.info a = some (F0, la) →
      (s, Pay.child x) ∈ ca.flatBody → x ≠ q := by
    rintro a ca F0 la s x h1 h2 h3 rfl
    have := (h.ents a ca F0 la s x h1 h2 h3).1
    rw [hd] at this; cases this
  have hcont : ∀ x c0, x ≠ q → L.cont x = some c0 →
      ∃ c1, upd (upd L.cont p (some c')) q none x = some c1 := by
    intro x c0 hx hc
    rw [upd_ne _ _ hx]
    by_cases e : x = p
    · subst e; exact ⟨c', by simp⟩
    · exact ⟨c0, by rw [upd_ne _ _ e]; exact hc⟩
  have hmono : ∀ {F low c}, PageWF cfg L F low c → PageWF cfg
      { L with cont := upd (upd L.cont p (some c')) q none } F low c :=
    fun w => w.mono (fun _ _ e => e) rfl (fun _ _ e => e)
  have hcase : ∀ a ca, upd (upd L.cont p (some c')) q none a = some ca →
      a ≠ q ∧ ((a = p ∧ ca = c') ∨ (a ≠ p ∧ L.cont a = some ca)) := by
    intro a ca ha
    have e : a ≠ q := by rintro rfl; rw [upd_same] at ha; cases ha
    rw [upd_ne _ _ e] at ha
    by_cases e' : a = p
    · subst e'; rw [upd_same] at ha; cases ha; exact ⟨e, Or.inl ⟨rfl, rfl⟩⟩
    · rw [upd_ne _ _ e'] at ha; exact ⟨e, Or.inr ⟨e', ha⟩⟩
  have hwp := h.page p c F low hp hi
  have hwq := h.page q cq F _ hq hiq
  have hdp : ∀ a ca la, L.cont a = some ca → L.info a = some (F, la) → a ≠ p → a ≠ q →
      Before c'.high la ∨ Before ca.high low := by
    intro a ca la ha hia n1 n2
    rcases h.disj p a c ca F low la hp ha hi hia (Ne.symm n1) with ⟨x, y, e1, e2, e3⟩ | e
    · rw [hh] at e1; cases e1
      rcases h.disj q a cq ca F _ la hq ha hiq hia (Ne.symm n2) with e | ⟨x, y', e4, e5, e6⟩
      · left; rw [hh']; exact e
      · cases e5
        have := (h.page a ca F la ha hia).wf.nonempty _ _ e2 e4
        order
    · exact Or.inr e
  refine ⟨?_, ?_, ?_, ?_, ?_, ?_, ?_, h.fam, h.fcf, ?_⟩
  · intro a ca F0 la ha hia
    obtain ⟨_, ⟨rfl, rfl⟩ | ⟨_, e⟩⟩ := hcase a ca ha
    · simp only at hia; rw [hi] at hia; cases hia; exact hmono hw
    · exact hmono (h.page a ca F0 la e hia)
  · intro a ca ha
    obtain ⟨_, ⟨rfl, rfl⟩ | ⟨_, e⟩⟩ := hcase a ca ha
    · exact ⟨F, low, hi⟩
    · exact h.known a ca e
  · intro a b ca cb F0 la lb ha hb' hia hib hne'
    simp only at hia hib
    obtain ⟨na, ⟨rfl, rfl⟩ | ⟨pa, e⟩⟩ := hcase a ca ha
    · rw [hi] at hia; cases hia
      obtain ⟨nb, ⟨rfl, _⟩ | ⟨pb, e'⟩⟩ := hcase b cb hb'
      · exact absurd rfl hne'
      · exact hdp b cb lb e' hib pb nb
    · obtain ⟨nb, ⟨rfl, rfl⟩ | ⟨pb, e'⟩⟩ := hcase b cb hb'
      · rw [hi] at hib; cases hib
        exact (hdp a ca la e hia pa na).symm
      · exact h.disj a b ca cb F0 la lb e e' hia hib hne'
  · intro a ca F0 la s x ha hia hs
    simp only at hia ⊢
    have key : ∀ a0 c0 l1, L.cont a0 = some c0 → L.info a0 = some (F0, l1) →
        (s, Pay.child x) ∈ c0.flatBody → L.est x = .posted F0 ∧
        ∃ c1, upd (upd L.cont p (some c')) q none x = some c1 := by
      intro a0 c0 l1 x1 x2 x3
      obtain ⟨y1, c1, y2⟩ := h.ents a0 c0 F0 l1 s x x1 x2 x3
      exact ⟨y1, hcont x c1 (hnoent a0 c0 F0 l1 s x x1 x2 x3) y2⟩
    obtain ⟨na, ⟨rfl, rfl⟩ | ⟨pa, e⟩⟩ := hcase a ca ha
    · rw [hi] at hia; cases hia
      rw [hb] at hs
      rcases List.mem_append.1 hs with hs | hs
      · exact key a c low hp hi hs
      · exact key q cq _ hq hiq hs
    · exact key a ca la e hia hs
  · intro a ca la k ha hia hk
    simp only at hia ⊢
    obtain ⟨na, ⟨rfl, rfl⟩ | ⟨pa, e⟩⟩ := hcase a ca ha
    · rw [hi] at hia; cases hia
      rw [hb, alook_append]
      by_cases hkd : k < dk
      · have h1 := h.val a c low k hp hi ⟨hk.1, by intro b hb'; rw [hh] at hb'; cases hb'; simpa⟩
        cases e : alook c.flatBody k with
        | some v => rw [e] at h1; simpa using h1
        | none =>
          rw [e] at h1
          rw [alook_none_of_lt (l := cq.flatBody)]
          · simpa using h1
          · intro x hx
            have := (hwq.wf.flatBody_spec.2.1 x hx).1 dk rfl
            simp at this; order
      · have h1 := h.val q cq _ k hq hiq ⟨by intro b hb'; cases hb'; simp; order,
          by rw [← hh']; exact hk.2⟩
        rw [alook_none_of_gt (l := c.flatBody)]
        · simpa using h1
        · intro x hx
          have := (hwp.wf.flatBody_spec.2.1 x hx).2 dk hh
          simp at this; order
    · exact h.val a ca la k e hia hk
  · intro k
    obtain ⟨a, ca, la, h1, h2, h3⟩ := h.cover k
    simp only
    by_cases ea : a = p
    · subst ea
      rw [h1] at hp; cases hp
      rw [h2] at hi; cases hi
      refine ⟨a, c', _, by rw [upd_ne _ _ hne]; simp, h2, h3.1, ?_⟩
      intro b hb'
      have := h3.2 dk hh
      rw [hh'] at hb'
      have := hwq.wf.nonempty dk b rfl hb'
      simp at *; order
    · by_cases eq : a = q
      · subst eq
        rw [h1] at hq; cases hq
        rw [h2] at hiq; cases hiq
        refine ⟨p, c', low, by rw [upd_ne _ _ hne]; simp, hi, ?_, by rw [hh']; exact h3.2⟩
        intro b hb'
        have e1 := hwp.wf.nonempty b dk hb' hh
        have e2 := h3.1 dk rfl
        simp at *; order
      · exact ⟨a, ca, la, by rw [upd_ne _ _ eq, upd_ne _ _ ea]; exact h1, h2, h3⟩
  · intro x F0 l hx hd'
    simp only at hx hd'
    obtain ⟨c0, e⟩ := h.live x F0 l hx hd'
    exact hcont x c0 (by rintro rfl; exact hd' hd) e
  · intro a ca x ha hx
    obtain ⟨na, ⟨rfl, rfl⟩ | ⟨pa, e⟩⟩ := hcase a ca ha
    · rw [hh'] at hx
      obtain ⟨c1, e1⟩ := h.linkl q cq x hq hx
      have e2 := hwq.link x hx
      simp only
      rw [hn]
      refine hcont _ c1 ?_ e1
      intro e3
      rw [e3, hiq] at e2
      simp only [Option.some.injEq, Prod.mk.injEq, true_and] at e2
      have := hwq.wf.nonempty dk x rfl hx
      order
    · obtain ⟨c1, e1⟩ := h.linkl a ca x e hx
      refine hcont _ c1 ?_ e1
      intro e3
      obtain ⟨Fa, la, hia⟩ := h.known a ca e
      have hwa := h.page a ca Fa la e hia
      have e2 := hwa.link x hx
      rw [e3, hiq] at e2
      simp only [Option.some.injEq, Prod.mk.injEq] at e2
      obtain ⟨e4, e5⟩ := e2
      subst e4; subst e5
      rcases h.disj p a c ca F low la hp e hi hia (Ne.symm pa) with ⟨y, z, f1, f2, f3⟩ | ⟨y, z, f1, f2, f3⟩
      · rw [hh] at f1; cases f1
        have := hwa.wf.nonempty z _ f2 hx
        order
      · rw [hx] at f1; cases f1
        have := hwp.wf.nonempty z _ f2 hh
        order

/-- A new root above two pages, as the only page of a new family. -/
theorem LInv.newRoot (h : LInv cfg L) {np rp : PID} {c : Chain K V} {F t : Nat}
    (hn : L.info np = none) (hF : F < L.nfam) (hr : L.est rp = .unposted t)
    (hrc : ∃ c0, L.cont rp = some c0)
    (hw : PageWF cfg { L with info := upd L.info np (some (L.nfam, none)),
                              fcf := upd L.fcf L.nfam F } L.nfam none c)
    (he : ∀ sep q, (sep, Pay.child q) ∈ c.flatBody → q = rp) (h0 : 0 < L.nfam)
    (hh : c.high = none) :
    LInv cfg { L with info := upd L.info np (some (L.nfam, none)),
                      nfam := L.nfam + 1,
                      fcf := upd L.fcf L.nfam F,
                      est := upd L.est rp (.posted L.nfam),
                      cont := upd L.cont np (some c) } := by
  have hnc := h.cont_none hn
  have hinfo : ∀ q x, L.info q = some x → upd L.info np (some (L.nfam, none)) q = some x := by
    intro q x hq
    rw [upd_ne _ _ (by rintro rfl; rw [hn] at hq; cases hq)]; exact hq
  have hcont : ∀ q c0, L.cont q = some c0 → upd L.cont np (some c) q = some c0 := by
    intro q c0 hq
    rw [upd_ne _ _ (by rintro rfl; rw [hnc] at hq; cases hq)]; exact hq
  have hcase : ∀ q c0 F0 low0, upd L.cont np (some c) q = some c0 →
      upd L.info np (some (L.nfam, none)) q = some (F0, low0) →
      (q = np ∧ c0 = c ∧ F0 = L.nfam ∧ low0 = none) ∨
      (q ≠ np ∧ L.cont q = some c0 ∧ L.info q = some (F0, low0) ∧ F0 < L.nfam) := by
    intro q c0 F0 low0 hq hiq
    by_cases e : q = np
    · subst e
      rw [upd_same] at hq hiq; cases hq; cases hiq
      exact Or.inl ⟨rfl, rfl, rfl, rfl⟩
    · rw [upd_ne _ _ e] at hq hiq
      exact Or.inr ⟨e, hq, hiq, h.fam q F0 low0 hiq⟩
  refine ⟨?_, ?_, ?_, ?_, ?_, ?_, ?_, ?_, ?_, ?_⟩
  · intro q c0 F0 low0 hq hi0
    rcases hcase q c0 F0 low0 hq hi0 with ⟨rfl, rfl, rfl, rfl⟩ | ⟨_, e1, e2, e3⟩
    · exact hw.mono (fun _ _ e => e) rfl (fun _ _ e => e)
    · exact (h.page q c0 F0 low0 e1 e2).mono hinfo (upd_ne _ _ (Nat.ne_of_lt e3)) (fun _ _ e => e)
  · intro q c0 hq
    simp only at hq ⊢
    by_cases e : q = np
    · subst e; exact ⟨L.nfam, none, by simp⟩
    · rw [upd_ne _ _ e] at hq ⊢; exact h.known q c0 hq
  · intro a b ca cb F0 la lb ha hb' hia hib hne
    rcases hcase a ca F0 la ha hia with ⟨rfl, rfl, rfl, rfl⟩ | ⟨n1, e1, e2, e5⟩
    · rcases hcase b cb _ lb hb' hib with ⟨rfl, rfl, _, rfl⟩ | ⟨m1, e3, e4, e6⟩
      · exact absurd rfl hne
      · exact absurd e6 (Nat.lt_irrefl _)
    · rcases hcase b cb _ lb hb' hib with ⟨rfl, rfl, rfl, rfl⟩ | ⟨m1, e3, e4, e6⟩
      · exact absurd e5 (Nat.lt_irrefl _)
      · exact h.disj a b ca cb F0 la lb e1 e3 e2 e4 hne
  · intro a ca F0 la s q ha hia hs
    simp only
    rcases hcase a ca F0 la ha hia with ⟨rfl, rfl, rfl, rfl⟩ | ⟨n1, e1, e2, e5⟩
    · have := he s q hs; subst this
      obtain ⟨c0, hrc⟩ := hrc
      exact ⟨by simp, c0, hcont _ _ hrc⟩
    · obtain ⟨y1, c1, y2⟩ := h.ents a ca F0 la s q e1 e2 hs
      have : q ≠ rp := by rintro rfl; rw [hr] at y1; cases y1
      exact ⟨by rw [upd_ne _ _ this]; exact y1, c1, hcont _ _ y2⟩
  · intro a ca la k ha hia hk
    rcases hcase a ca 0 la ha hia with ⟨_, _, e, _⟩ | ⟨n1, e1, e2, e5⟩
    · rw [← e] at h0; exact absurd h0 (Nat.lt_irrefl _)
    · exact h.val a ca la k e1 e2 hk
  · intro k
    obtain ⟨a, ca, la, h1, h2, h3⟩ := h.cover k
    exact ⟨a, ca, la, hcont _ _ h1, hinfo _ _ h2, h3⟩
  · intro q F0 l hq hd
    simp only at hq hd ⊢
    by_cases e : q = np
    · subst e; rw [upd_same] at hq; cases hq
    · rw [upd_ne _ _ e] at hq
      by_cases e' : q = rp
      · subst e'
        obtain ⟨c0, hrc⟩ := hrc
        exact ⟨c0, hcont _ _ hrc⟩
      · rw [upd_ne _ _ e'] at hd
        obtain ⟨c0, e⟩ := h.live q F0 l hq hd
        exact ⟨c0, hcont q c0 e⟩
  · intro q F0 l hq
    simp only at hq ⊢
    by_cases e : q = np
    · subst e; rw [upd_same] at hq; cases hq; omega
    · rw [upd_ne _ _ e] at hq
      have := h.fam q F0 l hq; omega
  · intro G hG hG'
    simp only at hG' ⊢
    by_cases e : G = L.nfam
    · subst e; rw [upd_same]; exact hF
    · rw [upd_ne _ _ e]; exact h.fcf G hG (by omega)
  · intro q c0 x hq hx
    simp only at hq ⊢
    by_cases e : q = np
    · subst e
      rw [upd_same] at hq; cases hq
      rw [hh] at hx; cases hx
    · rw [upd_ne _ _ e] at hq
      obtain ⟨c1, e1⟩ := h.linkl q c0 x hq hx
      exact ⟨c1, hcont _ _ e1⟩

/-- A dead root disappears. -/
theorem LInv.kill (h : LInv cfg L) {p : PID} {F : Nat} (hi : L.info p = some (F, none))
    (hF : F ≠ 0) : LInv cfg { L with cont := upd L.cont p none } := by
  have hcase : ∀ a ca, upd L.cont p none a = some ca → a ≠ p ∧ L.cont a = some ca := by
    intro a ca ha
    have e : a ≠ p := by rintro rfl; rw [upd_same] at ha; cases ha
    rw [upd_ne _ _ e] at ha
    exact ⟨e, ha⟩
  refine ⟨?_, ?_, ?_, ?_, ?_, ?_, ?_, h.fam, h.fcf, ?_⟩
  · intro a ca F0 la ha hia
    exact (h.page a ca F0 la (hcase a ca ha).2 hia).mono (fun _ _ e => e) rfl (fun _ _ e => e)
  · intro a ca ha
    exact h.known a ca (hcase a ca ha).2
  · intro a b ca cb F0 la lb ha hb' hia hib hne'
    exact h.disj a b ca cb F0 la lb (hcase a ca ha).2 (hcase b cb hb').2 hia hib hne'
  · intro a ca F0 la s x ha hia hs
    simp only at hia ⊢
    have ha' := (hcase a ca ha).2
    obtain ⟨y1, c1, y2⟩ := h.ents a ca F0 la s x ha' hia hs
    refine ⟨y1, c1, ?_⟩
    rw [upd_ne]
    · exact y2
    · rintro rfl
      have := h.ent_info ha' hia hs
      rw [hi] at this; cases this
  · intro a ca la k ha hia hk
    exact h.val a ca la k (hcase a ca ha).2 hia hk
  · intro k
    obtain ⟨a, ca, la, h1, h2, h3⟩ := h.cover k
    refine ⟨a, ca, la, ?_, h2, h3⟩
    simp only
    rw [upd_ne]
    · exact h1
    · rintro rfl; rw [hi] at h2; simp at h2; exact hF h2.1
  · intro x F0 l hx hd'
    simp only at hx hd' ⊢
    obtain ⟨c0, e⟩ := h.live x F0 l hx hd'
    refine ⟨c0, ?_⟩
    rw [upd_ne]
    · exact e
    · rintro rfl; rw [hi] at hx; cases hx
  · intro a ca x ha hx
    have ha' := (hcase a ca ha).2
    obtain ⟨c1, e1⟩ := h.linkl a ca x ha' hx
    obtain ⟨Fa, la, hia⟩ := h.known a ca ha'
    refine ⟨c1, ?_⟩
    simp only
    rw [upd_ne]
    · exact e1
    · intro e
      have e2 := (h.page a ca Fa la ha' hia).link x hx
      rw [e, hi] at e2; cases e2

/-- A new index-delete word. -/
theorem LInv.cellExt (h : LInv cfg L) {ci : Nat → Option (Nat × K)}
    (hc : ∀ w x, L.cellInfo w = some x → ci w = some x) :
    LInv cfg { L with cellInfo := ci } :=
  ⟨fun q c F low h1 h2 => (h.page q c F low h1 h2).mono (fun _ _ e => e) rfl hc, h.known, h.disj,
    h.ents, h.val, h.cover, h.live, h.fam, h.fcf, h.linkl⟩

end BwTree
