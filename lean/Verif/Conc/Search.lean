import Verif.Conc.Steps2

/-!
# Specifications of the search procedures (helper lemmas)
-/

namespace BwTree

set_option linter.unusedSectionVars false

variable {K V : Type} [LinearOrder K] {cfg : Cfg K} {s s' : St K V} {C : Ctx} {F : Nat}
  {key : K} {closed : Bool} {R : Regime}

/-- The pages of a stack belong to successive levels, the top one to family `F`. -/
def Adj (s : St K V) : Nat → Stk → Prop
  | _, [] => True
  | F, p :: rest => (∃ low, s.info p = some (F, low)) ∧
      (rest = [] ∨ ∃ G, 0 < G ∧ s.fcf G = F ∧ Adj s G rest)

/-- The page is gone, or the key is not below its range. -/
def Adm (s : St K V) (key : K) (closed : Bool) (p : PID) : Prop :=
  s.est p = .deleted ∨ ∃ F low, s.info p = some (F, low) ∧ LowOK low key closed

/-- A stack of a search for a key. -/
structure StkOK (R : Regime) (s : St K V) (F : Nat) (key : K) (closed : Bool) (stk : Stk) :
    Prop where
  adj : Adj s F stk
  adm : ∀ p ∈ stk, Adm s key closed p
  bot : ∀ b G low, stk.getLast? = some b → s.info b = some (G, low) → R.bot G

theorem Adm.mono {p : PID} (h : Adm s key closed p) (m : Mono s s') : Adm s' key closed p := by
  rcases h with h | ⟨F, low, h1, h2⟩
  · exact Or.inl (m.del p h)
  · exact Or.inr ⟨F, low, m.info p _ h1, h2⟩

theorem Adj.head_lt {stk : Stk} (hl : LInv cfg s.lv) (h : Adj s F stk) (hne : stk ≠ []) :
    F < s.nfam := by
  cases stk with
  | nil => exact absurd rfl hne
  | cons p rest =>
    obtain ⟨⟨low, h1⟩, _⟩ := h
    exact hl.fam p F low h1

theorem Adj.mono (hl : LInv cfg s.lv) (m : Mono s s') :
    ∀ {stk : Stk} {F : Nat}, Adj s F stk → Adj s' F stk := by
  intro stk
  induction stk with
  | nil => intro F _; trivial
  | cons p rest ih =>
    intro F h
    obtain ⟨⟨low, h1⟩, h2⟩ := h
    refine ⟨⟨low, m.info p _ h1⟩, ?_⟩
    rcases h2 with e | ⟨G, g1, g2, g3⟩
    · exact Or.inl e
    · by_cases hr : rest = []
      · exact Or.inl hr
      · exact Or.inr ⟨G, g1, by rw [m.fcf G (g3.head_lt hl hr)]; exact g2, ih g3⟩

theorem Adj.info_ne : ∀ {stk : Stk} {F : Nat}, Adj s F stk → ∀ {p : PID}, p ∈ stk →
    s.info p ≠ none := by
  intro stk
  induction stk with
  | nil => intro F _ p hp; cases hp
  | cons q rest ih =>
    intro F h p hp
    obtain ⟨⟨low, h1⟩, h2⟩ := h
    rcases List.mem_cons.1 hp with e | e
    · subst e; rw [h1]; simp
    · rcases h2 with e' | ⟨G, _, _, g3⟩
      · subst e'; cases e
      · exact ih g3 e

theorem StkOK.mono {stk : Stk} (h : StkOK R s F key closed stk) (hl : LInv cfg s.lv)
    (m : Mono s s') : StkOK R s' F key closed stk := by
  refine ⟨h.adj.mono hl m, fun p hp => (h.adm p hp).mono m, ?_⟩
  intro b G low hb hi
  obtain ⟨⟨G', low'⟩, hi'⟩ := Option.ne_none_iff_exists'.1
    (h.adj.info_ne (List.mem_of_getLast? hb))
  rw [m.info b _ hi'] at hi
  cases hi
  exact h.bot b _ _ hb hi'

theorem StkOK.nil : StkOK R s F key closed [] :=
  ⟨trivial, fun _ h => (by cases h), fun _ _ _ h => (by cases h)⟩

theorem StkOK.tail {p : PID} {rest : Stk} (h : StkOK R s F key closed (p :: rest))
    (hne : rest ≠ []) : ∃ G, 0 < G ∧ s.fcf G = F ∧ StkOK R s G key closed rest := by
  obtain ⟨⟨_, h2⟩, h3, h4⟩ := h
  rcases h2 with e | ⟨G, g1, g2, g3⟩
  · exact absurd e hne
  · refine ⟨G, g1, g2, g3, fun q hq => h3 q (by simp [hq]), fun b G' low hb => h4 b G' low ?_⟩
    rw [List.getLast?_cons, hb]; rfl

/-- Replace the top of a stack by a page of the same family. -/
theorem StkOK.swap {p q : PID} {rest : Stk} (h : StkOK R s F key closed (p :: rest)) {low : Option K}
    (hi : s.info q = some (F, low)) (hl : LowOK low key closed) :
    StkOK R s F key closed (q :: rest) := by
  obtain ⟨⟨⟨lp, hp⟩, h2⟩, h3, h4⟩ := h
  refine ⟨⟨⟨low, hi⟩, h2⟩, ?_, ?_⟩
  · intro x hx
    rcases List.mem_cons.1 hx with e | e
    · subst e; exact Or.inr ⟨F, low, hi, hl⟩
    · exact h3 x (by simp [e])
  · intro b G lb hb hib
    cases hr : rest.getLast? with
    | none =>
      rw [List.getLast?_cons, hr] at hb
      cases hb
      simp only [Option.getD_none] at hib
      rw [hi] at hib; cases hib
      exact h4 p F lp (by rw [List.getLast?_cons, hr]; rfl) hp
    | some z =>
      rw [List.getLast?_cons, hr] at hb
      cases hb
      exact h4 z G lb (by rw [List.getLast?_cons, hr]; rfl) hib

theorem StkOK.push {q : PID} {stk : Stk} (h : StkOK R s F key closed stk) {low : Option K}
    (hne : stk ≠ []) (hF : 0 < F) (hi : s.info q = some (s.fcf F, low)) (hl : LowOK low key closed) :
    StkOK R s (s.fcf F) key closed (q :: stk) := by
  refine ⟨⟨⟨low, hi⟩, Or.inr ⟨F, hF, rfl, h.adj⟩⟩, ?_, ?_⟩
  · intro x hx
    rcases List.mem_cons.1 hx with e | e
    · subst e; exact Or.inr ⟨_, low, hi, hl⟩
    · exact h.adm x e
  · intro b G lb hb
    obtain ⟨z, hz⟩ : ∃ z, stk.getLast? = some z := by
      cases stk with
      | nil => exact absurd rfl hne
      | cons x xs => exact ⟨_, List.getLast?_cons⟩
    rw [List.getLast?_cons, hz] at hb
    cases hb
    exact h.bot z G lb hz

theorem StkOK.root {p : PID} (hi : s.info p = some (F, none)) (hb : R.bot F) :
    StkOK R s F key closed [p] := by
  refine ⟨⟨⟨none, hi⟩, Or.inl rfl⟩, ?_, ?_⟩
  · intro x hx
    simp at hx; subst hx
    exact Or.inr ⟨F, none, hi, by intro l h; cases h⟩
  · intro b G low e h
    have e' : p = b := Option.some.inj e
    subst e'
    rw [hi] at h; cases h
    exact hb

/-- The root page may be at the bottom of a stack. -/
theorem Regime.ok.root (ho : R.ok s) (hI : Inv cfg s) :
    ∃ G, s.info s.root = some (G, none) ∧ R.bot G := by
  obtain ⟨G, hG⟩ := hI.p.root
  refine ⟨G, hG, ?_⟩
  cases R with
  | free => trivial
  | nomark => trivial
  | fixed r B =>
    obtain ⟨e1, e2⟩ := ho
    rw [e1, e2] at hG; cases hG
    rfl

/-- In an assumed regime a page at the bottom of a stack that has been removed is of the root's
family, and the root has not moved. -/
theorem Regime.ok.removed (ho : R.ok s) (hR : R ≠ .free) {p : PID} {b : Bool} {low : Option K}
    (hm : s.mt p = some (.removed b)) (hs : StkOK R s F key closed [p])
    (hi : s.info p = some (F, low)) : ∃ r, R = .fixed r F ∧ s.info s.root = some (F, none) := by
  cases R with
  | free => exact absurd rfl hR
  | nomark => exact absurd hm (ho p b)
  | fixed r B =>
    have := hs.bot p F low rfl hi
    change F = B at this
    subst this
    exact ⟨r, rfl, by rw [ho.1]; exact ho.2⟩

theorem Inv.info_ne_zero (h : Inv cfg s) {p : PID} {x : Nat × Option K} (hi : s.info p = some x) :
    p ≠ 0 := by
  rintro rfl
  rw [(h.p.fresh 0 (Or.inr rfl)).2.1] at hi; cases hi

/-- What is known about a live head on the top of a stack. -/
theorem StkOK.live {p : PID} {rest : Stk} {c : Chain K V} (h : StkOK R s F key closed (p :: rest))
    (hI : Inv cfg s) (hm : s.mt p = some c) (hr : c.isRemoved = false) :
    ∃ low, s.info p = some (F, low) ∧ LowOK low key closed ∧ s.lv.cont p = some c ∧
      PageWF cfg s.lv F low c := by
  obtain ⟨⟨low, h1⟩, _⟩ := h.adj
  obtain ⟨e1, e2⟩ := hI.live h1 hm hr
  refine ⟨low, h1, ?_, e1, e2⟩
  rcases h.adm p (by simp) with e | ⟨F', low', e, e'⟩
  · obtain ⟨_, b, hb⟩ := hI.p.del p e
    rw [hm] at hb; cases hb; cases hr
  · rw [h1] at e; cases e; exact e'

theorem StkOK.slot {p : PID} {rest : Stk} (h : StkOK R s F key closed (p :: rest))
    (hI : Inv cfg s) : ∃ c, s.mt p = some c ∧ (c.isLeaf = decide (F = 0)) := by
  obtain ⟨⟨low, h1⟩, _⟩ := h.adj
  obtain ⟨c, h2, h3⟩ := hI.p.slot p F low h1
  refine ⟨c, h2, ?_⟩
  cases hr : c.isRemoved with
  | true =>
    cases c with
    | removed b => exact h3 b rfl
    | base n => cases hr
    | delta d nx => cases hr
  | false => exact (hI.live h1 h2 hr).2.isLeaf

/-- The right sibling of a page whose range ends before the key. -/
theorem PageWF.sibling {low : Option K} {c : Chain K V} (h : PageWF cfg s.lv F low c)
    (hh : ¬ HighOK c.high key closed) :
    ∃ b, c.high = some b ∧ s.info c.nextPid = some (F, some b) ∧ LowOK (some b) key closed := by
  cases e : c.high with
  | none => exact absurd (by intro x hx; rw [e] at hx; cases hx) hh
  | some b =>
    refine ⟨b, rfl, h.link b e, ?_⟩
    intro x hx
    cases hx
    by_contra hc
    apply hh
    intro y hy
    rw [e] at hy; cases hy
    cases closed <;> simp at hc ⊢ <;> exact hc

/-! ## Waiting for an index-delete word -/

theorem waitCell_spec {w : Nat} {G : Nat} {k : K} {Q : PID → St K V → Prop} :
    ∀ (f : Nat) {s : St K V}, s.cellInfo w = some (G, k) →
      (∀ s' q low, Rely C.t s s' → Inv cfg s' → s'.info q = some (G, low) → LowOK low k false →
        Q q s') → wp cfg C (waitCell f w) Q s := by
  intro f
  induction f with
  | zero => intro s _ _; trivial
  | succ f ih =>
    intro s hw hQ
    apply wp_loadCell
    intro s' r i o
    have hw' := r.mono.cell w _ hw
    by_cases e : s'.cells w = 0
    · simp only [e, if_true]
      exact ih hw' fun s2 q low r2 => hQ s2 q low (r.trans r2)
    · simp only [e, if_false]
      rcases i.p.cell w G k hw' with e' | ⟨low, e1, e2⟩
      · exact absurd e' e
      · exact hQ s' _ low r i e1 e2

/-! ## `SearchChildNode` -/

/-- Result of a search in one level, entered with a stack whose top belongs to family `F`. -/
def ScPost (R : Regime) (s : St K V) (F : Nat) (key : K) (closed : Bool) (tgt : PID) (x : Bool × Stk) : Prop :=
  (x.1 = true ∧ x.2 ≠ [] ∧ tgt ≠ 0 ∧ ∃ F' low, F ≤ F' ∧ s.info tgt = some (F', low) ∧
    StkOK R s F' key closed x.2) ∨
  (x.1 = false ∧ x.2 = [] ∧ tgt ≠ 0) ∨
  (x.1 = false ∧ x.2 ≠ [] ∧ ∃ F', StkOK R s F' key closed x.2 ∧
    (tgt ≠ 0 ∨ R ≠ .free → F' = s.fcf F))

theorem searchChild_spec {tgt : PID} : ∀ (f : Nat) {stk : Stk} {F : Nat} {s : St K V}
    {Q : Bool × Stk → St K V → Prop}, Inv cfg s → stk ≠ [] → StkOK C.reg s F key closed stk →
    (C.reg ≠ .free → F ≠ 0) → (∀ s' x, Rely C.t s s' → Inv cfg s' → ScPost C.reg s' F key closed tgt x → Q x s') →
    wp cfg C (searchChild key closed tgt f stk) Q s := by
  intro f
  induction f with
  | zero => intro stk F s Q _ _ _ _ _; trivial
  | succ f ih =>
    intro stk F s Q hI hne hs hnz hQ
    cases stk with
    | nil => exact absurd rfl hne
    | cons p rest =>
    have hFlt := hs.adj.head_lt hI.l hne
    apply wp_load
    intro s1 r1 i1 o1
    have hs1 := hs.mono hI.l r1.mono
    obtain ⟨c, hc, hleaf⟩ := hs1.slot i1
    refine ⟨c, hc, ?_⟩
    cases hrem : c.isRemoved with
    | true =>
      have hb : ∃ b, c = .removed b := by
        cases c with
        | removed b => exact ⟨b, rfl⟩
        | base n => cases hrem
        | delta d nx => cases hrem
      obtain ⟨b, rfl⟩ := hb
      have hll : (Chain.removed (K := K) (V := V) b).liveLeaf = false := by
        simp [Chain.liveLeaf, Chain.isRemoved]
      have hst : childStep key closed (Chain.removed (K := K) (V := V) b) = .removed := rfl
      simp only [hll, hst, Bool.false_eq_true, if_false]
      by_cases hrest : rest = []
      · simp only [hrest, if_true]
        by_cases ht : tgt = 0
        · simp only [ht, ne_eq, not_true_eq_false, if_false]
          subst ht
          apply wp_loadRoot
          intro s2 r2 i2 o2
          obtain ⟨G, hG, hB⟩ := o2.root i2
          have hGF : C.reg ≠ .free → G = F := by
            intro hR
            obtain ⟨⟨low, h1⟩, _⟩ := hs1.adj
            rw [hrest] at hs1
            obtain ⟨r, e, _⟩ := o1.removed hR hc hs1 h1
            rw [e] at o2
            obtain ⟨e1, e2⟩ := o2
            rw [e1, e2] at hG; cases hG; rfl
          apply ih i2 (by simp) (StkOK.root hG hB) (fun hR => by rw [hGF hR]; exact hnz hR)
          intro s3 x r3 i3 hp
          apply hQ s3 x (r1.trans (r2.trans r3)) i3
          rcases hp with ⟨_, _, e, _⟩ | ⟨_, _, e⟩ | ⟨e1, e2, F', e3, e4⟩
          · exact absurd rfl e
          · exact absurd rfl e
          · refine Or.inr (Or.inr ⟨e1, e2, F', e3, fun e => ?_⟩)
            rcases e with e | e
            · exact absurd rfl e
            · rw [e4 (Or.inr e), hGF e]
        · simp only [ht, ne_eq, not_false_eq_true, if_true]
          exact hQ s1 _ r1 i1 (Or.inr (Or.inl ⟨rfl, rfl, ht⟩))
      · simp only [hrest, if_false]
        obtain ⟨G, hG0, hGF, hG⟩ := hs1.tail hrest
        have hGlt := hG.adj.head_lt i1.l hrest
        apply wp_bind
        apply ih i1 hrest hG (fun _ => Nat.pos_iff_ne_zero.1 hG0)
        intro s2 x r2 i2 hp
        rcases hp with ⟨e1, e2, e3, F', low, e4, e5, e6⟩ | ⟨e1, e2, e3⟩ | ⟨e1, e2, F', e3, e4⟩
        · simp only [e1, if_true]
          apply hQ s2 _ (r1.trans r2) i2
          refine Or.inl ⟨rfl, e2, e3, F', low, ?_, e5, e6⟩
          have := i1.l.fcf G hG0 hGlt
          change s1.fcf G < G at this
          omega
        · simp only [e1, e2, Bool.false_eq_true, if_false, if_true]
          exact hQ s2 _ (r1.trans r2) i2 (Or.inr (Or.inl ⟨rfl, rfl, e3⟩))
        · simp only [e1, e2, Bool.false_eq_true, if_false]
          have hF' : tgt ≠ 0 ∨ C.reg ≠ .free → F' = F := by
            intro h; rw [e4 h, r2.mono.fcf G hGlt, hGF]
          apply ih i2 e2 e3 (fun hR => by rw [hF' (Or.inr hR)]; exact hnz hR)
          intro s3 y r3 i3 hp
          apply hQ s3 y (r1.trans (r2.trans r3)) i3
          rcases hp with ⟨d1, d2, d3, F'', low, d4, d5, d6⟩ | ⟨d1, d2, d3⟩ | ⟨d1, d2, F'', d3, d4⟩
          · exact Or.inl ⟨d1, d2, d3, F'', low, by rw [← hF' (Or.inl d3)]; exact d4, d5, d6⟩
          · exact Or.inr (Or.inl ⟨d1, d2, d3⟩)
          · exact Or.inr (Or.inr ⟨d1, d2, F'', d3, fun e => by rw [d4 e, hF' e]⟩)
    | false =>
      obtain ⟨low, l1, l2, l3, l4⟩ := hs1.live i1 hc hrem
      have hll : c.liveLeaf = decide (F = 0) := by simp [Chain.liveLeaf, hrem, hleaf]
      by_cases hF : F = 0
      · simp only [hll, hF, decide_true, if_true]
        show C.reg.fl _
        by_cases hR : C.reg = .free
        · rw [hR]; trivial
        · exact absurd hF (hnz hR)
      · simp only [hll, hF, decide_false, Bool.false_eq_true, if_false]
        have hwf := l4.wf
        simp only [hF, ne_eq, not_false_eq_true, decide_true] at hwf
        rcases childStep_spec hwf l4.ents key closed l2 with
          ⟨q, sep, h1, h2, h3⟩ | ⟨w, sep, h1, h2, h3⟩ | ⟨h1, h2⟩
        · simp only [h1]
          apply hQ s1 _ r1 i1
          exact Or.inr (Or.inr ⟨rfl, by simp, _, hs1.push (by simp) (Nat.pos_of_ne_zero hF) h2 h3,
            fun _ => rfl⟩)
        · simp only [h1]
          apply wp_bind
          apply waitCell_spec f h2
          intro s2 q lq r2 i2 hq1 hq2
          apply hQ s2 _ (r1.trans r2) i2
          have hF1 : s1.lv.fcf F = s2.fcf F :=
            (r2.mono.fcf F (Nat.lt_of_lt_of_le hFlt r1.mono.nfam)).symm
          rw [hF1] at hq1
          refine Or.inr (Or.inr ⟨rfl, by simp, _,
            (hs1.mono i1.l r2.mono).push (by simp) (Nat.pos_of_ne_zero hF) hq1 ?_, fun _ => rfl⟩)
          intro x hx
          have a1 := hq2 x hx
          have a2 := h3 sep rfl
          cases closed <;> simp at a1 a2 ⊢ <;> order
        · simp only [h1]
          obtain ⟨b, b1, b2, b3⟩ := l4.sibling h2
          by_cases ht : c.nextPid = tgt
          · simp only [ht, if_true]
            apply hQ s1 _ r1 i1
            rw [ht] at b2
            exact Or.inl ⟨rfl, by simp, i1.info_ne_zero b2, F, _, Nat.le_refl _, b2, hs1⟩
          · simp only [ht, if_false]
            apply ih i1 (by simp) (hs1.swap b2 b3) hnz
            intro s3 x r3 i3 hp
            exact hQ s3 x (r1.trans r3) i3 hp

/-! ## `SearchLeafNode`, `SearchTargetNode` -/

theorem searchLeafLoop_spec : ∀ (f : Nat) {stk : Stk} {F : Nat} {s : St K V}
    {Q : Stk → St K V → Prop}, Inv cfg s → stk ≠ [] → StkOK C.reg s F key closed stk →
    (∀ s' x, Rely C.t s s' → Inv cfg s' → x ≠ [] → StkOK C.reg s' 0 key closed x → Q x s') →
    wp cfg C (searchLeafLoop key closed f stk) Q s := by
  intro f
  induction f with
  | zero => intro stk F s Q _ _ _ _; trivial
  | succ f ih =>
    intro stk F s Q hI hne hs hQ
    cases stk with
    | nil => exact absurd rfl hne
    | cons p rest =>
    apply wp_load
    intro s1 r1 i1 o1
    have hs1 := hs.mono hI.l r1.mono
    obtain ⟨c, hc, hleaf⟩ := hs1.slot i1
    refine ⟨c, hc, ?_⟩
    by_cases hF : F = 0
    · simp only [hleaf, hF, decide_true, if_true]
      subst hF
      exact hQ s1 _ r1 i1 (by simp) hs1
    · simp only [hleaf, hF, decide_false, Bool.false_eq_true, if_false]
      apply wp_bind
      apply searchChild_spec f i1 (by simp) hs1 (fun _ => hF)
      intro s2 x r2 i2 hp
      rcases hp with ⟨_, _, e, _⟩ | ⟨_, _, e⟩ | ⟨e1, e2, F', e3, _⟩
      · exact absurd rfl e
      · exact absurd rfl e
      · apply ih i2 e2 e3
        intro s3 y r3 i3 h1 h2
        exact hQ s3 y (r1.trans (r2.trans r3)) i3 h1 h2

theorem searchLeaf_spec {f : Nat} {Q : Stk → St K V → Prop}
    (hQ : ∀ s' x, Rely C.t s s' → Inv cfg s' → x ≠ [] → StkOK C.reg s' 0 key closed x → Q x s') :
    wp cfg C (searchLeaf key closed f) Q s := by
  apply wp_loadRoot
  intro s1 r1 i1 o1
  obtain ⟨G, hG, hB⟩ := o1.root i1
  apply searchLeafLoop_spec f i1 (by simp) (StkOK.root hG hB)
  intro s2 x r2
  exact hQ s2 x (r1.trans r2)

theorem searchTarget_spec {tgt : PID} {Ft : Nat} {lt : Option K} {tInner : Bool}
    (hti : tInner = decide (Ft ≠ 0)) : ∀ (f : Nat) {stk : Stk} {F : Nat} {s : St K V}
    {Q : Stk → St K V → Prop}, Inv cfg s → s.info tgt = some (Ft, lt) →
    StkOK C.reg s F key true stk →
    (∀ s' x, Rely C.t s s' → Inv cfg s' → x ≠ [] → StkOK C.reg s' Ft key true x → Q x s') →
    wp cfg C (searchTarget key tInner tgt f stk) Q s := by
  intro f
  induction f with
  | zero => intro stk F s Q _ _ _ _; trivial
  | succ f ih =>
    intro stk F s Q hI ht hs hQ
    cases stk with
    | nil =>
      apply wp_loadRoot
      intro s1 r1 i1 o1
      obtain ⟨G, hG, hB⟩ := o1.root i1
      apply ih i1 (r1.mono.info _ _ ht) (StkOK.root hG hB)
      intro s2 x r2
      exact hQ s2 x (r1.trans r2)
    | cons p rest =>
    apply wp_load
    intro s1 r1 i1 o1
    have hs1 := hs.mono hI.l r1.mono
    have ht1 := r1.mono.info _ _ ht
    obtain ⟨c, hc, hleaf⟩ := hs1.slot i1
    refine ⟨c, hc, ?_⟩
    by_cases hF : F = 0
    · simp only [hleaf, hF, decide_true, if_true]
      subst hF
      by_cases hT : Ft = 0
      · subst hT
        simp only [hti, ne_eq, not_true_eq_false, decide_false, Bool.false_eq_true, if_false]
        exact hQ s1 _ r1 i1 (by simp) hs1
      · simp only [hti, ne_eq, hT, not_false_eq_true, decide_true, if_true]
        show C.reg.fl _
        cases C.reg with
        | free => trivial
        | fixed r B => exact Or.inl rfl
        | nomark => rfl
    · simp only [hleaf, hF, decide_false, Bool.false_eq_true, if_false]
      apply wp_bind
      apply searchChild_spec f i1 (by simp) hs1 (fun _ => hF)
      intro s2 x r2 i2 hp
      have ht2 := r2.mono.info _ _ ht1
      rcases hp with ⟨e1, e2, _, F', low, _, e5, e6⟩ | ⟨e1, e2, _⟩ | ⟨e1, e2, F', e3, _⟩
      · simp only [e1, if_true]
        rw [ht2] at e5; cases e5
        exact hQ s2 _ (r1.trans r2) i2 e2 e6
      · simp only [e1, e2, Bool.false_eq_true, if_false]
        apply ih (F := 0) i2 ht2 StkOK.nil
        intro s3 y r3
        exact hQ s3 y (r1.trans (r2.trans r3))
      · simp only [e1, Bool.false_eq_true, if_false]
        apply ih i2 ht2 e3
        intro s3 y r3
        exact hQ s3 y (r1.trans (r2.trans r3))

/-! ## `LoadValidHead`, `GetHead`, `GetHeadWithKeyCheck`, `GetHeadForMerge` -/

/-- The caller may choose a ghost update at the load that returns. -/
theorem loadValidHead_spec {p : PID} {Q : Chain K V → St K V → Prop} :
    ∀ (f : Nat) {s : St K V}, s.info p ≠ none →
    (∀ s' c, Rely C.t s s' → Inv cfg s' → s'.mt p = some c → c.needWait cfg = false →
      ∃ s'', s''.toSh = s'.toSh ∧ Inv cfg s'' ∧ GuarM C s' s'' ∧ Q c s'') →
    wp cfg C (loadValidHead cfg f p) Q s := by
  intro f
  induction f with
  | zero => intro s _ _; trivial
  | succ f ih =>
    intro s hp hQ s1 r1 i1 o1
    obtain ⟨⟨F, low⟩, hi⟩ := Option.ne_none_iff_exists'.1 (r1.mono.info_ne hp)
    obtain ⟨c, hc, _⟩ := i1.p.slot p F low hi
    refine ⟨c, hc, ?_⟩
    cases hw : c.needWait cfg with
    | true =>
      refine ⟨s1, rfl, i1, GuarM.rfl, ?_⟩
      simp only [hw, if_true]
      exact ih (r1.mono.info_ne hp) fun s2 c2 r2 => hQ s2 c2 (r1.trans r2)
    | false =>
      obtain ⟨s2, e1, e2, e3, e4⟩ := hQ s1 c r1 i1 hc hw
      refine ⟨s2, e1, e2, e3, ?_⟩
      simp only [hw, Bool.false_eq_true, if_false]
      exact e4

theorem loadValidHead_spec' {p : PID} {Q : Chain K V → St K V → Prop} (f : Nat)
    (hp : s.info p ≠ none)
    (hQ : ∀ s' c, Rely C.t s s' → Inv cfg s' → s'.mt p = some c → c.needWait cfg = false →
      Q c s') : wp cfg C (loadValidHead cfg f p) Q s :=
  loadValidHead_spec f hp fun s' c r i h1 h2 => ⟨s', rfl, i, GuarM.rfl, hQ s' c r i h1 h2⟩

theorem Adj.head_ne {p : PID} {rest : Stk} (h : Adj s F (p :: rest)) : s.info p ≠ none := by
  obtain ⟨⟨low, h⟩, _⟩ := h; rw [h]; simp

theorem isRemoved_true {c : Chain K V} (h : c.isRemoved = true) : ∃ b, c = .removed b := by
  cases c with
  | removed b => exact ⟨b, rfl⟩
  | base n => cases h
  | delta d nx => cases h

/-- Result of `GetHead` with a target. -/
def GhPost (cfg : Cfg K) (R : Regime) (s : St K V) (F : Nat) (key : K) (closed : Bool) (tgt : PID) :
    Option (Chain K V × Stk) → Prop
  | none => True
  | some (c, stk) => ∃ p rest low, stk = p :: rest ∧ s.mt p = some c ∧ c.needWait cfg = false ∧
      c.isRemoved = false ∧ s.info p = some (F, low) ∧ LowOK low key closed ∧
      PageWF cfg s.lv F low c ∧ StkOK R s F key closed stk ∧
      (HighOK c.high key closed ∨
        (¬ HighOK c.high key closed ∧ ∃ b, c.high = some b ∧ s.info tgt = some (F, some b)))

theorem getHead_spec {tgt : PID} {Ft : Nat} {lt : Option K} : ∀ (f : Nat) {stk : Stk} {F : Nat}
    {s : St K V} {Q : Option (Chain K V × Stk) → St K V → Prop}, Inv cfg s →
    s.info tgt = some (Ft, lt) → Ft ≤ F → stk ≠ [] → StkOK C.reg s F key closed stk →
    (∀ s' o, Rely C.t s s' → Inv cfg s' → GhPost cfg C.reg s' F key closed tgt o → Q o s') →
    wp cfg C (getHead cfg key closed tgt f stk) Q s := by
  intro f
  induction f with
  | zero => intro stk F s Q _ _ _ _ _ _; trivial
  | succ f ih =>
    intro stk F s Q hI ht hle hne hs hQ
    cases stk with
    | nil => exact absurd rfl hne
    | cons p rest =>
    apply wp_bind
    apply loadValidHead_spec' f hs.adj.head_ne
    intro s1 c r1 i1 hc hw
    have hs1 := hs.mono hI.l r1.mono
    have ht1 := r1.mono.info _ _ ht
    have htz : tgt ≠ 0 := i1.info_ne_zero ht1
    cases hrem : c.isRemoved with
    | true =>
      obtain ⟨b, rfl⟩ := isRemoved_true hrem
      have hst : dcValidate key closed (Chain.removed (K := K) (V := V) b) = .removed := rfl
      simp only [hst]
      by_cases hrest : rest = []
      · simp only [hrest, if_true, htz, ne_eq, not_false_eq_true]
        exact hQ s1 _ r1 i1 trivial
      · simp only [hrest, if_false]
        obtain ⟨G, hG0, hGF, hG⟩ := hs1.tail hrest
        have hGlt := hG.adj.head_lt i1.l hrest
        have hlt := i1.l.fcf G hG0 hGlt
        change s1.fcf G < G at hlt
        apply wp_bind
        apply searchChild_spec f i1 hrest hG (fun _ => Nat.pos_iff_ne_zero.1 hG0)
        intro s2 x r2 i2 hp
        have ht2 := r2.mono.info _ _ ht1
        rcases hp with ⟨_, _, _, F', low, e4, e5, _⟩ | ⟨_, e2, _⟩ | ⟨_, e2, F', e3, e4⟩
        · rw [ht2] at e5; cases e5; omega
        · simp only [e2, if_true]
          exact hQ s2 _ (r1.trans r2) i2 trivial
        · simp only [e2, if_false]
          have hF' : F' = F := by rw [e4 (Or.inl htz), r2.mono.fcf G hGlt, hGF]
          subst hF'
          apply ih i2 ht2 hle e2 e3
          intro s3 o r3
          exact hQ s3 o (r1.trans (r2.trans r3))
    | false =>
      obtain ⟨low, l1, l2, l3, l4⟩ := hs1.live i1 hc hrem
      by_cases hh : HighOK c.high key closed
      · have hst := (dcValidate_spec l4.wf key closed).1 hh
        simp only [hst]
        exact hQ s1 _ r1 i1 ⟨p, rest, low, rfl, hc, hw, hrem, l1, l2, l4, hs1, Or.inl hh⟩
      · have hst := (dcValidate_spec l4.wf key closed).2 hh
        simp only [hst]
        obtain ⟨b, b1, b2, b3⟩ := l4.sibling hh
        by_cases e : c.nextPid = tgt
        · simp only [e, if_true]
          rw [e] at b2
          exact hQ s1 _ r1 i1 ⟨p, rest, low, rfl, hc, hw, hrem, l1, l2, l4, hs1,
            Or.inr ⟨hh, b, b1, b2⟩⟩
        · simp only [e, if_false]
          apply ih i1 ht1 hle (by simp) (hs1.swap b2 b3)
          intro s3 o r3
          exact hQ s3 o (r1.trans r3)

/-- A leaf head whose range contains the key. -/
structure LeafAt (cfg : Cfg K) (R : Regime) (s : St K V) (key : K) (p : PID) (rest : Stk) (c : Chain K V)
    (low : Option K) : Prop where
  mt : s.mt p = some c
  nowait : c.needWait cfg = false
  live : c.isRemoved = false
  info : s.info p = some (0, low)
  cont : s.lv.cont p = some c
  range : InR low c.high key
  wf : PageWF cfg s.lv 0 low c
  stk : StkOK R s 0 key true (p :: rest)

theorem liveInner_eq {c : Chain K V} (hr : c.isRemoved = false) (hl : c.isLeaf = decide (F = 0)) :
    c.liveInner = decide (F ≠ 0) := by
  simp [Chain.liveInner, hr, hl]

/-- `GetHeadWithKeyCheck`; the caller may choose a ghost update at the load that returns. -/
theorem getHeadKC_spec : ∀ (f : Nat) {stk : Stk} {F : Nat} {s : St K V}
    {Q : Stk × Chain K V × Bool → St K V → Prop}, Inv cfg s → stk ≠ [] →
    StkOK C.reg s F key true stk → (C.reg ≠ .free → F = 0) →
    (∀ s' p rest c low b, Rely C.t s s' → Inv cfg s' → LeafAt cfg C.reg s' key p rest c low →
      (b = true ↔ alook c.flatBody key ≠ none) →
      ∃ s'', s''.toSh = s'.toSh ∧ Inv cfg s'' ∧ GuarM C s' s'' ∧ Q (p :: rest, c, b) s'') →
    wp cfg C (getHeadKC cfg key f stk) Q s := by
  intro f
  induction f with
  | zero => intro stk F s Q _ _ _ _ _; trivial
  | succ f ih =>
    intro stk F s Q hI hne hs hz hQ
    cases stk with
    | nil => exact absurd rfl hne
    | cons p rest =>
    apply wp_bind
    apply loadValidHead_spec f hs.adj.head_ne
    intro s1 c r1 i1 hc hw
    have hs1 := hs.mono hI.l r1.mono
    cases hrem : c.isRemoved with
    | true =>
      obtain ⟨b, rfl⟩ := isRemoved_true hrem
      refine ⟨s1, rfl, i1, GuarM.rfl, ?_⟩
      have hst : keyCheck key (Chain.removed (K := K) (V := V) b) = .removed := rfl
      have hli : (Chain.removed (K := K) (V := V) b).liveInner = false := by
        simp [Chain.liveInner, Chain.isRemoved]
      simp only [hst, hli, Bool.false_eq_true, if_false]
      by_cases hrest : rest = []
      · simp only [hrest, if_true]
        apply wp_bind
        apply searchLeaf_spec
        intro s2 x r2 i2 h1 h2
        apply ih i2 h1 h2 (fun _ => rfl)
        intro s3 p' rest' c' low' b' r3
        exact hQ s3 p' rest' c' low' b' (r1.trans (r2.trans r3))
      · simp only [hrest, if_false]
        obtain ⟨G, hG0, hGF, hG⟩ := hs1.tail hrest
        apply wp_bind
        apply searchChild_spec f i1 hrest hG (fun _ => Nat.pos_iff_ne_zero.1 hG0)
        intro s2 x r2 i2 hp
        rcases hp with ⟨_, _, e, _⟩ | ⟨_, _, e⟩ | ⟨_, e2, F', e3, e4⟩
        · exact absurd rfl e
        · exact absurd rfl e
        · apply ih i2 e2 e3 (fun hR => by
            rw [e4 (Or.inr hR), r2.mono.fcf G (hG.adj.head_lt i1.l hrest), hGF]; exact hz hR)
          intro s3 p' rest' c' low' b' r3
          exact hQ s3 p' rest' c' low' b' (r1.trans (r2.trans r3))
    | false =>
      obtain ⟨low, l1, l2, l3, l4⟩ := hs1.live i1 hc hrem
      have hli := liveInner_eq hrem l4.isLeaf
      by_cases hF : F = 0
      · subst hF
        simp only [ne_eq, not_true_eq_false, decide_false] at hli
        simp only [hli, Bool.false_eq_true, if_false]
        by_cases hh : HighOK c.high key true
        · obtain ⟨b, hb1, hb2⟩ := (keyCheck_spec l4.wf key).2 hh
          simp only [hb1]
          exact hQ s1 p rest c low b r1 i1 ⟨hc, hw, hrem, l1, l3, ⟨l2, hh⟩, l4, hs1⟩ hb2
        · have hb1 := (keyCheck_spec l4.wf key).1 hh
          refine ⟨s1, rfl, i1, GuarM.rfl, ?_⟩
          simp only [hb1]
          obtain ⟨b, b1, b2, b3⟩ := l4.sibling hh
          apply ih i1 (by simp) (hs1.swap b2 b3) hz
          intro s3 p' rest' c' low' b' r3
          exact hQ s3 p' rest' c' low' b' (r1.trans r3)
      · refine ⟨s1, rfl, i1, GuarM.rfl, ?_⟩
        simp only [ne_eq, hF, not_false_eq_true, decide_true] at hli
        simp only [hli, if_true]
        show C.reg.fl _
        by_cases hR : C.reg = .free
        · rw [hR]; trivial
        · exact absurd (hz hR) hF

/-- Result of `GetHeadForMerge`. -/
def GmPost (cfg : Cfg K) (R : Regime) (s : St K V) (F : Nat) (key : K) (x : Stk × Chain K V × Bool × Option K) :
    Prop :=
  x.2.2.1 = true → ∃ p rest low, x.1 = p :: rest ∧ s.mt p = some x.2.1 ∧
    x.2.1.needWait cfg = false ∧ x.2.1.isRemoved = false ∧ s.info p = some (F, low) ∧
    LowOK low key true ∧ PageWF cfg s.lv F low x.2.1 ∧ StkOK R s F key true x.1 ∧
    KeyIn low x.2.1 key

theorem getHeadForMerge_spec (hF : 0 < F) : ∀ (f : Nat) {sib : Option K} {stk : Stk}
    {s : St K V} {Q : Stk × Chain K V × Bool × Option K → St K V → Prop}, Inv cfg s → stk ≠ [] →
    StkOK C.reg s F key true stk →
    (∀ s' x, Rely C.t s s' → Inv cfg s' → GmPost cfg C.reg s' F key x → Q x s') →
    wp cfg C (getHeadForMerge cfg key f sib stk) Q s := by
  intro f
  induction f with
  | zero => intro sib stk s Q _ _ _ _; trivial
  | succ f ih =>
    intro sib stk s Q hI hne hs hQ
    cases stk with
    | nil => exact absurd rfl hne
    | cons p rest =>
    apply wp_bind
    apply loadValidHead_spec' f hs.adj.head_ne
    intro s1 c r1 i1 hc hw
    have hs1 := hs.mono hI.l r1.mono
    cases hrem : c.isRemoved with
    | true =>
      obtain ⟨b, rfl⟩ := isRemoved_true hrem
      have hst := mergeStep_removed (V := V) (cfg := cfg) key sib b
      simp only [hst]
      apply hQ s1 _ r1 i1
      intro e; cases e
    | false =>
      obtain ⟨low, l1, l2, l3, l4⟩ := hs1.live i1 hc hrem
      have hwf := l4.wf
      simp only [Nat.pos_iff_ne_zero.1 hF, ne_eq, not_false_eq_true, decide_true] at hwf
      rcases mergeStep_spec hwf key sib with ⟨e1, e2⟩ | e1 | ⟨e1, e2⟩
      · simp only [e1]
        apply hQ s1 _ r1 i1
        intro _
        exact ⟨p, rest, low, rfl, hc, hw, hrem, l1, l2, l4, hs1, e2⟩
      · simp only [e1]
        apply hQ s1 _ r1 i1
        intro e; cases e
      · simp only [e1]
        obtain ⟨b, b1, b2, b3⟩ := l4.sibling e2
        apply ih i1 (by simp) (hs1.swap b2 b3)
        intro s3 x r3
        exact hQ s3 x (r1.trans r3)

end BwTree
