import Verif.Conc.TotSmo

/-!
# Merges of a thread that runs alone end (helper lemmas)
-/

namespace BwTree

set_option linter.unusedSectionVars false

variable {K V : Type} [LinearOrder K] {cfg : Cfg K} {E D : PID → Prop}
  {W : Nat → Prop} {fl : Nat → Option PID} {F G H : Nat} {low : Option K}
  {p q r rp tgt : PID} {s s' s1 : St K V} {t : Nat} {key : K} {closed : Bool}
  {smo : Chain K V → Stk → Prog K V Unit} {N M m j : Nat}

/-- From a page left of the removed one. -/
theorem mergeLoop_found (hsmo : TSmo cfg t N j smo) (hR : Roomy cfg) (hc : CfgOK2 cfg) {dk : K} {w : Nat}
    {rem L0 y : PID} {ys : Stk} {cy : Chain K V} {n : Node K V} {f : Nat} (hfw : fl w = some L0)
    (hI : SI cfg (fun q => E q ∨ q = rem) (fun q => D q ∨ q = rem) (fun x => W x ∨ x = w) fl s)
    (hE : Below s F E) (hD : Low s F D) (hW : WBelow s F W) (hnw : NW cfg noP s)
    (hrem : RemAt (solo t) s F (some dk) rem n) (hd : s.est rem = .deleted)
    (hleft : LeftOf s F dk L0) (hcell : s.cellInfo w = some (F, dk))
    (hs : StkOK .free s F dk false (y :: ys)) (hy : s.cont y = some cy) (hyr : y ≠ rem)
    (hN : Bnd cfg s ≤ N) (hM : Bnd cfg s ≤ M) (hm : m ≤ s.ncell) (hf : np s + 3 + j ≤ f) :
    tp j (mergeLoop cfg smo n dk w rem f false (y :: ys))
      (fun _ s' => TP cfg E D W fl F (fun q => q = rem) m M s s') s := by
  induction j using Nat.strongRecOn generalizing y ys cy f with | _ j ih => ?_
  obtain ⟨f, rfl⟩ := Nat.exists_eq_add_of_le' (show 1 ≤ f by omega)
  apply tp_of_rt (getHead_live hI (hI.liveAbove hD.below (fun q hq => hq) F (.refl _)) hnw hrem.info
    (Nat.le_refl _) (by omega) hs hy hyr)
  rintro o ⟨ho, hg⟩
  cases o with
  | none => exact absurd rfl ho
  | some z =>
    obtain ⟨c, stk'⟩ := z
    obtain ⟨q, rest, lq, e0, e1, e2, e3, e4, e5, e6, e7, e8⟩ := hg
    subst e0
    have hhigh : HighOK c.high dk false := by
      rcases e8 with h | ⟨h, b, hb1, hb⟩
      · exact h
      · rw [hrem.info] at hb; cases hb
        exfalso
        apply h
        intro y hy
        rw [hb1] at hy; cases hy
        simp
    have hq0 : q = L0 := by
      obtain ⟨c0, l0, a1, a2, a3, a4⟩ := hleft
      by_contra hne
      have hcq := St.cont_live e4 e1 e3
      rcases hI.inv.l.disj q L0 c c0 F lq l0 hcq a1 e4 a2 hne with
        ⟨x, y, b1, b2, b3⟩ | ⟨x, y, b1, b2, b3⟩
      · have b4 := hhigh x b1
        have b5 := a3 y b2
        simp only [Bool.false_eq_true, if_false] at b4 b5
        order
      · rw [a4] at b1; cases b1
        have b5 := e5 y b2
        simp only [Bool.false_eq_true, if_false] at b5
        order
    obtain ⟨i3, f3, hrange, hrm, hne'⟩ := hI.merge hc.maxPos e4 e1 e3 e2 e5 hhigh hrem hd
    obtain ⟨i4, f4⟩ := i3.storeCell (G := F) (f3.mono.cell _ _ hcell) (f3.mono.info _ _ e4) e5
      (by rw [hfw, hq0])
    have f34 := f3.trans f4
    have hphi := Phi_merge hc.toCfgOK hI.inv e4 e1 e3 hrem hd hne'
    obtain ⟨b, hb⟩ := hrem.mt
    have hcc : (s.doMerge cfg t q rem (Chain.push (mergeDelta n dk) c (cfg.nodeDiff n))).cont =
        upd (upd s.cont q (some (Chain.push (mergeDelta n dk) c (cfg.nodeDiff n)))) rem none :=
      congrArg Lv.cont (St.doMerge_lv (cfg := cfg) (t := t) e4 hrem.info hb hne' rfl)
    have hcq := St.cont_live e4 e1 e3
    refine Or.inr ⟨e1, fun _ i hi => ih i hi (hsmo.le (Nat.le_of_lt hi)) e7 hcq hne' (by omega),
      s.doMerge cfg t q rem _, rfl, ?_⟩
    simp only [if_true]
    refine ⟨{ s.doMerge cfg t q rem (Chain.push (mergeDelta n dk) c (cfg.nodeDiff n)) with
      cells := upd s.cells w q }, rfl, ?_⟩
    have hsub : Sub (fun x => x = rem) m s
        { s.doMerge cfg t q rem (Chain.push (mergeDelta n dk) c (cfg.nodeDiff n)) with
          cells := upd s.cells w q } := by
      intro w' hw' x hx
      have hx : ∃ c', (s.doMerge cfg t q rem (Chain.push (mergeDelta n dk) c (cfg.nodeDiff n))).cont x =
        some c' ∧ c'.hasCell w' := hx
      rw [hcc] at hx
      obtain ⟨c', x1, x2⟩ := hx
      by_cases e : x = rem
      · subst e; rw [upd_same] at x1; cases x1
      · rw [upd_ne _ _ e] at x1
        refine ⟨?_, e⟩
        by_cases e' : x = q
        · subst e'
          rw [upd_same] at x1; cases x1
          rcases x2 with x2 | x2
          · cases x2
          · exact ⟨c, hcq, x2⟩
        · rw [upd_ne _ _ e'] at x1
          exact ⟨c', x1, x2⟩
    have hnw4 : ∀ O', ((Chain.push (mergeDelta n dk) c (cfg.nodeDiff n)).needWait cfg = true → O' q) →
        NW cfg O' { s.doMerge cfg t q rem (Chain.push (mergeDelta n dk) c (cfg.nodeDiff n)) with
          cells := upd s.cells w q } := by
      intro O' hO
      refine hnw.step ?_
      intro x c' h1 h2 h3
      change upd s.mt q _ x = some c' at h2
      by_cases e : x = q
      · subst e
        rw [upd_same] at h2; cases h2
        exact Or.inr (hO h3)
      · rw [upd_ne _ _ e] at h2
        exact Or.inl ⟨h1, h2, fun e => e.elim⟩
    have hb4 : Bnd cfg { s.doMerge cfg t q rem (Chain.push (mergeDelta n dk) c (cfg.nodeDiff n)) with
          cells := upd s.cells w q } ≤ Bnd cfg s := by
      have : Bnd cfg (s.doMerge cfg t q rem (Chain.push (mergeDelta n dk) c (cfg.nodeDiff n))) ≤
          Bnd cfg s := by
        unfold Bnd
        change np s + s.nfam + _ ≤ _
        omega
      exact this
    cases hcons : (Chain.push (mergeDelta n dk) c (cfg.nodeDiff n)).needConsolidation cfg with
    | true =>
      simp only [if_true]
      refine tp_mono (hsmo E D W fl F lq dk _ _ _ _ i4 (hE.mono f34.mono (Nat.le_refl _))
        (hD.mono f34.mono (Nat.le_refl _)) (hW.mono f34.mono (Nat.le_refl _)) (hnw4 _ fun _ => rfl)
        (f34.mono.info _ _ e4)
        (e7.mono hI.inv.l f34.mono).toClosed hrange hrm ?_ ?_ (Nat.le_trans hb4 hN))
        (fun _ s' h => h.pre (fun _ _ e => e) (Nat.le_refl _) f34 hsub (Nat.le_refl _) hm
          (Nat.le_trans hb4 hM))
      · simp [St.doMerge]
      · intro hw
        simp only [St.doMerge]
        rw [upd_ne _ _ hne', upd_same, if_pos hw]
    | false =>
      simp only [Bool.false_eq_true, if_false]
      exact ⟨⟨fl, fun _ _ e => e, i4⟩, f34,
        hnw4 _ (fun e => by rw [wait_of_cons hR hcons] at e; cases e), hsub, Nat.le_refl _,
        Nat.le_trans hb4 hM⟩

/-- From an empty stack. -/
theorem mergeLoop_nil (hsmo : TSmo cfg t N j smo) (hR : Roomy cfg) (hc : CfgOK2 cfg) {dk : K} {w : Nat}
    {rem L0 : PID} {n : Node K V} {f : Nat} (hfw : fl w = some L0)
    (hI : SI cfg (fun q => E q ∨ q = rem) (fun q => D q ∨ q = rem) (fun x => W x ∨ x = w) fl s)
    (hE : Below s F E) (hD : Low s F D) (hW : WBelow s F W) (hnw : NW cfg noP s)
    (hrem : RemAt (solo t) s F (some dk) rem n) (hd : s.est rem = .deleted)
    (hleft : LeftOf s F dk L0) (hcell : s.cellInfo w = some (F, dk)) (hno : ∀ q, ¬ CellAt s w q)
    (hN : Bnd cfg s ≤ N) (hM : Bnd cfg s ≤ M) (hm : m ≤ s.ncell) (hf : s.nfam + np s + 4 + j ≤ f) :
    tp j (mergeLoop cfg smo n dk w rem f true [])
      (fun _ s' => TP cfg E D W fl F (fun q => q = rem) m M s s') s := by
  obtain ⟨f, rfl⟩ := Nat.exists_eq_add_of_le' (show 1 ≤ f by omega)
  have hnw' := hI.inv.l.page rem _ F _ hrem.cont hrem.info
  apply tp_of_rt (searchTarget_root (tInner := n.inner) hI hnw'.wf.1 hrem.info hrem.cont
    (by intro G e; rw [hd] at e; cases e) (hI.liveAbove hD.below (fun q hq => hq))
    (hI.wordsOwn hW hcell (Or.inr hno)) (by omega))
  rintro stk ⟨y, ys, cy, rfl, y1, y2, y3, _⟩
  exact mergeLoop_found hsmo hR hc hfw hI hE hD hW hnw hrem hd hleft hcell
    (y3.toOpen hI.inv.l (.refl _) hrem.cont hrem.info hd) y2 y1 hN hM hm (by omega)

/-- From the parent. -/
theorem mergeLoop_tot (hsmo : TSmo cfg t N j smo) (hR : Roomy cfg) (hc : CfgOK2 cfg) {dk : K} {w : Nat}
    {rem L0 y : PID} {ys : Stk} {n : Node K V} {f : Nat} (hfw : fl w = some L0)
    (hI : SI cfg (fun q => E q ∨ q = rem) (fun q => D q ∨ q = rem) (fun x => W x ∨ x = w) fl s)
    (hE : Below s F E) (hD : Low s F D) (hW : WBelow s F W) (hnw : NW cfg noP s)
    (hrem : RemAt (solo t) s F (some dk) rem n) (hd : s.est rem = .deleted)
    (hleft : LeftOf s F dk L0) (hcell : s.cellInfo w = some (F, dk))
    (g1 : 0 < G) (g2 : s.fcf G = F) (g3 : StkOK .free s G dk false (y :: ys))
    (hor : (∀ q, ¬ CellAt s w q) ∨ ∃ c, s.mt y = some c ∧ c.isRemoved = false)
    (hN : Bnd cfg s ≤ N) (hM : Bnd cfg s ≤ M) (hm : m ≤ s.ncell) (hf : s.nfam + np s + 5 + j ≤ f) :
    tp j (mergeLoop cfg smo n dk w rem f true (y :: ys))
      (fun _ s' => TP cfg E D W fl F (fun q => q = rem) m M s s') s := by
  obtain ⟨f, rfl⟩ := Nat.exists_eq_add_of_le' (show 1 ≤ f by omega)
  have hGlt := g3.adj.head_lt hI.inv.l (by simp)
  have hFG : F < G := by
    have := hI.inv.l.fcf G g1 hGlt
    change s.fcf G < G at this
    omega
  have hdn : Down s.fcf G F := by rw [← g2]; exact .step (by omega) (.refl _)
  have hclear := hI.clear (tgt := rem) (key := dk) (closed := false) hD.below (fun q hq => hq) hrem.info
    (hI.wordsOwn hW hcell (Or.inl ⟨rfl, rfl⟩))
  have hsrch : rt s.toSh (searchChild dk false rem f (y :: ys)) (fun x =>
      (x.2 = [] ∧ ∀ q, ¬ CellAt s w q) ∨
      ∃ q p' rest, x.2 = q :: p' :: rest ∧ StkOK .free s F dk false x.2 ∧ Reach s F dk false q) := by
    rcases hor with hno | ⟨c, hc1, hc2⟩
    · have hlen := g3.adj.length hI.inv.l
      refine rt_mono (searchChild_all hI hclear (hI.inv.info_ne_zero hrem.info) hFG hdn g3 (by simp) (by
        rcases hlen with h | h
        · omega
        · cases h)) ?_
      rintro x ⟨_, x2 | ⟨q, p', rest, cp, x2, x3, x4, x5⟩⟩
      · exact Or.inl ⟨x2, hno⟩
      · rw [g2] at x3 x5
        exact Or.inr ⟨q, p', rest, x2, x3, x5⟩
    · obtain ⟨⟨ly, hiy⟩, _⟩ := g3.adj
      refine rt_mono (searchChild_live hI (by omega) (hclear.tgt G hFG) (hclear.live G hFG)
        (hclear.words G hdn hFG) (by omega) g3 (St.cont_live hiy hc1 hc2)) ?_
      rintro x ⟨_, q, p', cp, x2, x3, x4, x5⟩
      rw [g2] at x3 x5
      exact Or.inr ⟨q, p', ys, x2, x3, x5⟩
  apply tp_of_rt hsrch
  rintro x (⟨x2, hno⟩ | ⟨q, p', rest, x2, x3, cq, lq, q1, q2, q3, _⟩)
  · simp only [x2, if_true]
    exact mergeLoop_nil hsmo hR hc hfw hI hE hD hW hnw hrem hd hleft hcell hno hN hM hm (by omega)
  · rw [x2] at x3
    simp only [x2, if_false, reduceCtorEq]
    refine mergeLoop_found hsmo hR hc hfw hI hE hD hW hnw hrem hd hleft hcell x3 q2 ?_ hN hM hm (by omega)
    rintro rfl
    rw [hrem.info] at q1; cases q1
    have := q3 dk rfl
    simp at this

/-- The page is present. -/
def Here (s : St K V) (y : PID) : Prop := ∃ c, s.mt y = some c ∧ c.isRemoved = false

/-- The deletion of the index entry. -/
theorem deleteLoop_tot (hsmo : TSmo cfg t N j smo) (hR : Roomy cfg) (hc : CfgOK2 cfg) {dk : K} {w : Nat}
    {rem y : PID} {ys : Stk} {n : Node K V} {f : Nat} {sib : Option K} (hG : 0 < G)
    (hI : SI cfg E (fun q => D q ∨ q = rem) W fl s) (hE : Below s F E) (hD : Low s F D)
    (hW : WBelow s F W) (hnw : NW cfg noP s)
    (hrem : RemAt (solo t) s F (some dk) rem n) (hnd : s.est rem ≠ .deleted)
    (hcell : s.cellInfo w = some (F, dk)) (hw1 : w < s.ncell) (hw2 : s.cells w = 0) (hw3 : fl w = none)
    (hno : ∀ q, ¬ CellAt s w q)
    (hGF : s.fcf G = F) (hs : StkOK .free s G dk true (y :: ys))
    (hN : Bnd cfg s ≤ N + 2) (hf : np s + 3 + j ≤ f) :
    tp j (deleteLoop cfg smo dk n.high w f sib (y :: ys)) (fun o s' => (o = none ∧ s' = s) ∨
      (o = some w ∧ DelPost cfg t E D W fl F dk rem n w s s' ∧ NW cfg noP s' ∧ Sub noP w s s' ∧
        s.ncell ≤ s'.ncell ∧ Bnd cfg s' + 3 ≤ Bnd cfg s ∧ Here s y ∧
        ((∀ q, ¬ CellAt s' w q) ∨ ∀ z, Here s z → Here s' z))) s := by
  induction j using Nat.strongRecOn generalizing y ys sib f with | _ j ih => ?_
  obtain ⟨f, rfl⟩ := Nat.exists_eq_add_of_le' (show 1 ≤ f by omega)
  have hGlt := hs.adj.head_lt hI.inv.l (by simp)
  have hFG : F < G := by
    have := hI.inv.l.fcf G hG hGlt
    change s.fcf G < G at this
    omega
  apply tp_of_rt (getHeadForMerge_live hG hI hnw (by omega) hs)
  rintro x ⟨hlive, hx⟩
  cases hb : x.2.2.1 with
  | false =>
    simp only [Bool.false_eq_true, if_false]
    exact Or.inl ⟨rfl, rfl⟩
  | true =>
    simp only [if_true]
    obtain ⟨q, rest, lq, e0, e1, e2, e3, e4, e5, e6, e7, e8⟩ := hx hb
    simp only [e0] at e7 ⊢
    obtain ⟨b, hmr⟩ := hrem.mt
    obtain ⟨L0, c0, l0, i3, f3, hh, hrm, hrange, hqr, d1, d2, d3, d4⟩ := hI.putDelEntry hc.maxPos hE
      hG hGF e4 e1 e3 e2 e8 hrem hcell hw1 hw2 hw3
    have hrem3 : RemAt (solo t) (s.put cfg t q (Chain.push (deleteDelta dk n.high w) x.2.1
        (-(cfg.entLen true dk : Int))) (upd s.est rem .deleted) s.m s.ops) F (some dk) rem n := by
      refine ⟨hrem.info, ?_, hrem.pend, ⟨b, ?_⟩, hrem.nX⟩
      · simp only [St.put, upd_ne _ _ (Ne.symm hqr)]; exact hrem.own
      · simp only [St.put, upd_ne _ _ (Ne.symm hqr)]; exact hmr
    have hd3 : (s.put cfg t q (Chain.push (deleteDelta dk n.high w) x.2.1
        (-(cfg.entLen true dk : Int))) (upd s.est rem .deleted) s.m s.ops).est rem = .deleted := by
      simp [St.put]
    have hext : ∀ x y, fl x = some y → upd fl w (some L0) x = some y := by
      intro x y e
      rw [upd_ne]
      · exact e
      · rintro rfl; rw [hw3] at e; cases e
    have hphi := Phi_putDel (w := w) (hk := n.high) hc.toCfgOK hI.inv e4 e1 e3 hrem hnd (hI.inv.p.pend _ _ hrem.pend).2.2.2
    have hcont := put_cont (cfg := cfg) (t := t) (est' := upd s.est rem .deleted) (m' := s.m)
      (ops' := s.ops) (c' := Chain.push (deleteDelta dk n.high w) x.2.1 (-(cfg.entLen true dk : Int))) e4 rfl
    have hcq := St.cont_live e4 e1 e3
    have hnw3 : ∀ O', ((Chain.push (deleteDelta dk n.high w) x.2.1 (-(cfg.entLen true dk : Int))).needWait cfg
        = true → O' q) → NW cfg O' (s.put cfg t q (Chain.push (deleteDelta dk n.high w) x.2.1
        (-(cfg.entLen true dk : Int))) (upd s.est rem .deleted) s.m s.ops) :=
      fun O' h => hnw.put (fun _ _ e => e.elim) h
    have hsub : Sub noP w s (s.put cfg t q (Chain.push (deleteDelta dk n.high w) x.2.1
        (-(cfg.entLen true dk : Int))) (upd s.est rem .deleted) s.m s.ops) := by
      refine Sub.change hcont hcq ?_
      intro w' hw' h
      rcases h with h | h
      · cases h; exact absurd hw' (Nat.lt_irrefl _)
      · exact h
    have honly : ∀ z, CellAt (s.put cfg t q (Chain.push (deleteDelta dk n.high w) x.2.1
        (-(cfg.entLen true dk : Int))) (upd s.est rem .deleted) s.m s.ops) w z → z = q := by
      intro z hz
      by_contra hne
      unfold CellAt at hz
      rw [hcont, upd_ne _ _ hne] at hz
      exact hno z hz
    have hb3 : Bnd cfg (s.put cfg t q (Chain.push (deleteDelta dk n.high w) x.2.1
        (-(cfg.entLen true dk : Int))) (upd s.est rem .deleted) s.m s.ops) + 3 ≤ Bnd cfg s := by
      unfold Bnd
      change np s + s.nfam + _ + _ ≤ _
      omega
    refine Or.inr ⟨e1, fun _ i hi => tp_mono (ih i hi (hsmo.le (Nat.le_of_lt hi)) e7 (by omega)) ?_,
      s.put cfg t q _ (upd s.est rem .deleted) s.m s.ops, rfl, ?_⟩
    · rintro o s' (h | ⟨h1, h2, h3, h4, h5, h6, _, h7⟩)
      · exact Or.inl h
      · exact Or.inr ⟨h1, h2, h3, h4, h5, h6, hlive hb, h7⟩
    simp only [if_true]
    cases hcons : (Chain.push (deleteDelta dk n.high w) x.2.1
        (-(cfg.entLen true dk : Int))).needConsolidation cfg with
    | true =>
      simp only [if_true]
      apply tp_bind
      refine tp_mono (hsmo _ _ _ _ G lq dk _ _ _ _ i3
        ((hE.mono f3.mono (Nat.le_refl _)).add hrem3.info hFG)
        ((hD.mono f3.mono (Nat.le_refl _)).add hrem3.info hFG)
        ((hW.mono f3.mono (Nat.le_refl _)).add (f3.mono.cell _ _ hcell) hFG)
        (hnw3 _ fun _ => rfl) e4
        (e7.mono hI.inv.l f3.mono) ?_ hrm (by simp [St.put]) ?_ (by omega)) ?_
      · rw [hh]; exact hrange
      · intro hw; simp [St.put, hw]
      · intro _ s' htp
        obtain ⟨fl', a1, a2⟩ := htp.si
        have a3 := htp.frame
        have hbb := htp.bnd
        apply tp_ret
        right
        refine ⟨rfl, ⟨fl', L0, fun x y e => a1 _ _ (hext x y e), a1 _ _ (upd_same _ _ _), a2,
          f3.trans (a3.le (Nat.le_of_lt hFG)), hrem3.frame a3 hFG, a3.mono.del _ hd3, c0, l0, ?_,
          a3.mono.info _ _ d2, d3, d4⟩, htp.nw, hsub.trans htp.sub (Nat.le_of_lt hw1), htp.nc, by omega,
          hlive hb, Or.inl ?_⟩
        · rw [a3.cont d2 hFG]; exact d1
        · intro z hz
          obtain ⟨z1, z2⟩ := htp.sub w hw1 z hz
          exact z2 (honly z z1)
    | false =>
      simp only [Bool.false_eq_true, if_false]
      refine Or.inr ⟨rfl, ⟨_, L0, hext, upd_same _ _ _, i3, f3, hrem3, hd3, c0, l0, d1, d2, d3, d4⟩,
        hnw3 _ (fun e => by rw [wait_of_cons hR hcons] at e; cases e), hsub, Nat.le_refl _, hb3,
        hlive hb, Or.inr ?_⟩
      rintro y ⟨cy, y1, y2⟩
      by_cases e : y = q
      · subst e
        exact ⟨_, upd_same _ _ _, rfl⟩
      · exact ⟨cy, (upd_ne _ _ e).trans y1, y2⟩

/-- The root is removed or the node is put back. -/
theorem removeRoot_tot (hc : CfgOK2 cfg) {rem : PID} {n : Node K V} {stk : Stk}
    (hI : SI cfg E (fun q => D q ∨ q = rem) W fl s) (hE : Below s F E) (hD : Low s F D)
    (hnw : NW cfg noP s)
    (hrem : RemAt (solo t) s F low rem n) (hnd : s.est rem ≠ .deleted) :
    tp j ((tryRemoveRoot n rem stk).bind fun b =>
      if b then .ret () else .store rem (.base n) (.ret ()))
      (fun _ s' => TP cfg E D W fl F noP s.ncell (Bnd cfg s) s s') s := by
  have hback : tp j (if false = true then .ret () else .store rem (.base n) (.ret ()))
        (fun _ s' => TP cfg E D W fl F noP s.ncell (Bnd cfg s) s s') s := by
    simp only [Bool.false_eq_true, if_false]
    obtain ⟨i3, f3⟩ := hI.undo hrem hnd
    refine ⟨s.undo rem n, rfl, ⟨fl, fun _ _ e => e, i3⟩, f3, ?_, ?_, Nat.le_refl _, ?_⟩
    · refine hnw.step ?_
      intro x c h1 h2 h3
      change upd s.mt rem _ x = some c at h2
      by_cases e : x = rem
      · subst e
        rw [upd_same] at h2; cases h2
        cases h3
      · rw [upd_ne _ _ e] at h2
        exact Or.inl ⟨h1, h2, fun e => e⟩
    · obtain ⟨b, hb⟩ := hrem.mt
      exact Sub.same (congrArg Lv.cont (St.undo_lv hrem.info hb hrem.pend))
    · have := Phi_undo (cfg := cfg) hrem
      unfold Bnd
      rw [this]
      exact Nat.le_refl _
  apply tp_bind
  unfold tryRemoveRoot
  split
  · exact hback
  · rename_i hcond
    simp only [not_or, not_not, Bool.not_eq_false] at hcond
    have hnw' := hI.inv.l.page rem _ F _ hrem.cont hrem.info
    have hF : F ≠ 0 := by
      have := hnw'.wf.1
      rw [hcond.2.2] at this
      simpa using this.symm
    have hwf := hnw'.wf
    simp only [hF, ne_eq, not_false_eq_true, decide_true] at hwf
    obtain ⟨q, hq1, hq2⟩ := hwf.leftmostChild hnw'.ents
    change s.info q = some (s.fcf F, low) at hq2
    rw [hq1]
    obtain ⟨cq, hcq, _⟩ := hI.inv.p.slot q _ _ hq2
    refine ⟨cq, hcq, ?_⟩
    simp only
    split
    · exact hback
    · by_cases hroot : s.root = rem
      swap
      · exact Or.inl ⟨hroot, hback⟩
      refine Or.inr ⟨hroot, ?_⟩
      obtain ⟨G, hG⟩ := hI.inv.p.root
      rw [hroot, hrem.info] at hG; cases hG
      have hlow : n.low = none := hwf.2.1
      have hli : n.leftInner = true := by simp [Node.leftInner, hlow, hcond.2.2]
      subst hroot
      have hb : (Chain.base n).flatBody = [] := by
        show n.body = []
        simp only [Node.body, hli, if_true]
        exact List.drop_eq_nil_of_le (Nat.not_lt.1 hcond.2.1)
      have hpre : ∃ y, (y, Pay.child q) ∈ (Chain.base n).pre := by
        show ∃ y, (y, Pay.child q) ∈ n.pre
        simp only [Node.pre, hli, if_true]
        simp only [Chain.leftmostChild] at hq1
        split at hq1
        · next y p' l e =>
          cases hq1
          exact ⟨y, by simp [e]⟩
        · cases hq1
      obtain ⟨y, hy⟩ := hpre
      obtain ⟨i3, f3⟩ := hI.kill hc.maxPos hE hrem hF hb hy
      obtain ⟨cq', hcq'⟩ := hI.x.pre s.root _ y q hrem.cont hy
      change s.cont q = some cq' at hcq'
      have hlt := hI.inv.l.fcf F (Nat.pos_of_ne_zero hF) (hI.inv.l.fam _ _ _ hrem.info)
      change s.fcf F < F at hlt
      have hqr : q ≠ s.root := by
        intro e
        rw [e, hrem.info] at hq2
        simp only [Option.some.injEq, Prod.mk.injEq] at hq2
        omega
      have hdq : s.est q ≠ .deleted := by
        intro e
        obtain ⟨_, b, hb⟩ := hI.inv.p.del q e
        rw [St.cont_pend hq2 hb] at hcq'
        cases hp : s.pend q with
        | none => rw [hp] at hcq'; cases hcq'
        | some n' =>
          rcases hI.pend q n' hp with e | e
          · obtain ⟨G, k, e1, _⟩ := hD q e
            rw [hq2] at e1; cases e1
          · exact hqr e
      have hphi := Phi_kill hI.inv hrem hcq' hdq hqr
      refine ⟨s.killRoot s.root q, rfl, ⟨fl, fun _ _ e => e, i3⟩, f3, ?_, ?_, Nat.le_refl _, ?_⟩
      · refine hnw.step ?_
        intro x c h1 h2 h3
        exact Or.inl ⟨h1, h2, fun e => e⟩
      · obtain ⟨b, hb⟩ := hrem.mt
        exact (Sub.none (congrArg Lv.cont (St.killRoot_lv hrem.info hb))).weak (fun _ e => e.elim)
      · unfold Bnd
        change np s + s.nfam + _ ≤ _
        omega

/-- `TryMerge`. -/
theorem tryMerge_tot (hsmo : TSmo cfg t N j smo) (hR : Roomy cfg)
    (hc : CfgOK2 cfg) {f : Nat} {head : Chain K V} {k : K} {rest : Stk}
    (hI : SI cfg E D W fl s) (hE : Below s F E) (hD : Low s F D)
    (hW : WBelow s F W) (hnw : NW cfg (fun q => q = p) s)
    (hi : s.info p = some (F, low)) (hrm : head.isRemoved = false)
    (hs : StkOK .free s F k true (p :: rest)) (hk : HighOK head.high k true)
    (hm : s.mt p = some head)
    (hfro : head.needWait cfg = true → s.own p = some t) (hsz : head.size ≤ cfg.page)
    (hmin : head.size ≤ cfg.minSize) (hN : Bnd cfg s ≤ N + 2) (hf : Bnd cfg s + 5 + j ≤ f) :
    tp j (tryMerge cfg smo f head (consNode (decide (F ≠ 0)) head head.size) (p :: rest))
      (fun _ s' => TP cfg E D W fl F (fun q => q = p) s.ncell (Bnd cfg s) s s') s := by
  refine Or.inr ⟨hm, (fun ⟨_, e⟩ => by cases e), ?_⟩
  have hown : s.own p = none ∨ s.own p = some t := by
    cases hw : head.needWait cfg with
    | true => exact Or.inr (hfro hw)
    | false => exact Or.inl (hI.inv.own_none (by rw [hi]; simp) hm hrm hw)
  obtain ⟨i2, f2, hrem, hnd, hlow, hhigh⟩ := hI.doRemove hi hm hrm hsz hown hmin
  have hbool : (!(consNode (decide (F ≠ 0)) head head.size).inner) = decide (F = 0) := by
    simp [consNode]
  have hphi := Phi_doRemove (t := t) (b := decide (F = 0)) (b' := decide (F ≠ 0)) hI.inv hi hm hrm
  have hb2 : Bnd cfg (s.doRemove t p (decide (F = 0)) (consNode (decide (F ≠ 0)) head head.size)) =
      Bnd cfg s := by
    unfold Bnd; rw [hphi]; rfl
  have hsub2 : Sub (fun q => q = p) s.ncell s
      (s.doRemove t p (decide (F = 0)) (consNode (decide (F ≠ 0)) head head.size)) :=
    Sub.base (congrArg Lv.cont (St.doRemove_lv hi))
  have hnw2 : NW cfg noP (s.doRemove t p (decide (F = 0)) (consNode (decide (F ≠ 0)) head head.size)) := by
    refine hnw.step ?_
    intro x c h1 h2 h3
    change upd s.mt p _ x = some c at h2
    by_cases e : x = p
    · subst e
      rw [upd_same] at h2; cases h2
      rw [needWait_removed hc.maxPos] at h3; cases h3
    · rw [upd_ne _ _ e] at h2
      exact Or.inl ⟨h1, h2, fun x => (e x).elim⟩
  refine ⟨s.doRemove t p (decide (F = 0)) (consNode (decide (F ≠ 0)) head head.size),
    by rw [hbool]; rfl, ?_⟩
  simp only [if_true]
  have hnc2 : (s.doRemove t p (decide (F = 0)) (consNode (decide (F ≠ 0)) head head.size)).ncell =
    s.ncell := rfl
  generalize hn : consNode (decide (F ≠ 0)) head head.size = n at *
  have hs2 := hs.mono hI.inv.l f2.mono
  generalize hs2' : s.doRemove t p (decide (F = 0)) n = s2 at *
  have hE2 := hE.mono f2.mono (Nat.le_refl _)
  have hD2 := hD.mono f2.mono (Nat.le_refl _)
  have hW2 := hW.mono f2.mono (Nat.le_refl _)
  have hrr : tp j ((tryRemoveRoot n p rest).bind fun b =>
      if b then .ret () else .store p (.base n) (.ret ()))
      (fun _ s' => TP cfg E D W fl F (fun q => q = p) s.ncell (Bnd cfg s) s s') s2 :=
    tp_mono (removeRoot_tot hc i2 hE2 hD2 hnw2 hrem hnd)
      (fun _ s' h => h.pre (fun _ _ e => e) (Nat.le_refl _) f2 hsub2 (by omega) (by omega) (by omega))
  apply tp_bind
  unfold tryDeleteIndexEntry
  cases rest with
  | nil =>
    simp only [if_true]
    apply tp_ret
    simp only
    exact hrr
  | cons y ys =>
    simp only [reduceCtorEq, if_false]
    rw [hlow]
    cases hl : low with
    | none =>
      simp only
      apply tp_ret
      exact hrr
    | some dk =>
      subst hl
      simp only
      obtain ⟨i4, f4, hfn⟩ := i2.newCell F dk F
      have hrem4 : RemAt (solo t)
          { s2 with
            ncell := s2.ncell + 1, cells := upd s2.cells s2.ncell 0,
            cellInfo := upd s2.cellInfo s2.ncell (some (F, dk)) } F
          (some dk) p n := ⟨hrem.info, hrem.own, hrem.pend, hrem.mt, hrem.nX⟩
      refine ⟨{ s2 with
        ncell := s2.ncell + 1, cells := upd s2.cells s2.ncell 0,
        cellInfo := upd s2.cellInfo s2.ncell (some (F, dk)) }, rfl, ?_⟩
      have hs4 := hs2.mono i2.inv.l f4.mono
      rcases StkOK.par (C := solo t) hs4 with e | ⟨_, G, q1, q2, q3⟩
      · cases e
      have hdn : Down s2.fcf G F := by
        change s2.fcf G = F at q2
        rw [← q2]; exact .step (by omega) (.refl _)
      have hlow4 : StkOK .free _ G dk true (y :: ys) := q3.toLow i4.inv.l hdn hrem4.cont hrem4.info (by
        show HighOK n.high k true
        rw [hhigh]; exact hk)
      have hno : ∀ q, ¬ CellAt { s2 with
          ncell := s2.ncell + 1, cells := upd s2.cells s2.ncell 0,
          cellInfo := upd s2.cellInfo s2.ncell (some (F, dk)) } s2.ncell q := by
        intro q hq
        have : CellAt s2 s2.ncell q := hq
        exact absurd (this.lt i2.inv) (Nat.lt_irrefl _)
      have hsub4 : Sub noP s2.ncell s2 { s2 with
          ncell := s2.ncell + 1, cells := upd s2.cells s2.ncell 0,
          cellInfo := upd s2.cellInfo s2.ncell (some (F, dk)) } := Sub.same rfl
      have hb4 : Bnd cfg { s2 with
          ncell := s2.ncell + 1, cells := upd s2.cells s2.ncell 0,
          cellInfo := upd s2.cellInfo s2.ncell (some (F, dk)) } = Bnd cfg s2 := rfl
      have hnw4 : NW cfg noP { s2 with
          ncell := s2.ncell + 1, cells := upd s2.cells s2.ncell 0,
          cellInfo := upd s2.cellInfo s2.ncell (some (F, dk)) } := hnw2
      have hB2 : s2.nfam + np s2 ≤ Bnd cfg s2 := by unfold Bnd; omega
      refine tp_mono (deleteLoop_tot hsmo hR hc q1 i4 (hE2.mono f4.mono (Nat.le_refl _))
        (hD2.mono f4.mono (Nat.le_refl _)) (hW2.mono f4.mono (Nat.le_refl _)) hnw4 hrem4 hnd
        (upd_same _ _ _) (Nat.lt_succ_self _)
        (upd_same _ _ _) hfn hno q2 hlow4 (by omega) (by change np s2 + 3 + j ≤ f; omega)) ?_
      rintro o s5 (⟨rfl, rfl⟩ | ⟨rfl, ⟨fl', L0, a1, a2, i5, f5, rem5, d5, left5⟩, nw5, sub5, nc5, b5, hy5, or5⟩)
      · simp only
        exact tp_mono (removeRoot_tot hc i4 (hE2.mono f4.mono (Nat.le_refl _))
            (hD2.mono f4.mono (Nat.le_refl _)) hnw4 hrem4 hnd)
          (fun _ s' h => h.pre (fun _ _ e => e) (Nat.le_refl _) (f2.trans f4)
            (hsub2.trans hsub4 (by omega)) (by rw [← hnc2]; exact Nat.le_succ _)
            (by rw [← hnc2]; exact Nat.le_succ _) (by omega))
      · simp only
        have f25 := f2.trans (f4.trans f5)
        have hGlt := q3.adj.head_lt i4.inv.l (by simp)
        have hG5 : s5.fcf G = F := by rw [f5.mono.fcf G hGlt]; exact q2
        have hnc5 : s.ncell ≤ s5.ncell := by
          rw [← hnc2]; exact Nat.le_trans (Nat.le_succ _) nc5
        have hB5 : s5.nfam + np s5 ≤ Bnd cfg s5 := by unfold Bnd; omega
        refine tp_mono (mergeLoop_tot (m := s5.ncell) (M := Bnd cfg s) hsmo hR hc a2 i5
          (hE.mono f25.mono (Nat.le_refl _))
          (hD.mono f25.mono (Nat.le_refl _)) (hW.mono f25.mono (Nat.le_refl _)) nw5 rem5 d5 left5
          (f5.mono.cell _ _ (upd_same _ _ _)) q1 hG5
          ((hlow4.mono i4.inv.l f5.mono).toOpen i5.inv.l
            (by rw [← hG5]; exact .step (by omega) (.refl _)) rem5.cont rem5.info d5) (or5.imp_right fun h => h y hy5) (by omega)
            (by omega) (Nat.le_refl _) (by omega))
          (fun _ s' h => h.pre a1 (Nat.le_refl _) f25
            (hsub2.trans (hsub4.trans sub5 (Nat.le_refl _)) (by omega)) hnc5 hnc5 (Nat.le_refl _))

/-! ## `TrySMOs` -/

theorem trySMOs_tot (hR : Roomy cfg) (hc : CfgOK2 cfg) : ∀ (f : Nat) {N : Nat}, N + 6 + j ≤ f →
    TSmo cfg t N j (trySMOs (K := K) (V := V) cfg f) := by
  intro f
  induction f with
  | zero => intro N h; omega
  | succ f ih =>
    intro N hf E D W fl F low k head p rest s hI hE hD hW hnw h1 h2 h3 h4 hm h5 hN
    have hsmo : TSmo cfg t (N - 1) j (trySMOs (K := K) (V := V) cfg f) := by
      intro E D W fl F low k head p rest s hI hE hD hW hnw h1 h2 h3 h4 hm h5 hN'
      by_cases hz : N = 0
      · exfalso
        have : 0 < Bnd cfg s := by
          unfold Bnd
          have : 0 < np s := hI.inv.p.npos
          omega
        omega
      · exact ih (N := N - 1) (by omega) E D W fl F low k head p rest s hI hE hD hW hnw h1 h2 h3 h4 hm h5 hN'
    refine Or.inr ⟨hm, fun h => (Weak.irrefl h).elim, s, toSh_same hm, ?_⟩
    simp only [if_true]
    obtain ⟨hcont, hpw⟩ := hI.inv.live h1 hm h4
    obtain ⟨_, t2, t3, t4⟩ := tryConsolidate_spec hc.toCfgOK hpw.wf false
    by_cases hsz : head.size ≤ cfg.page
    · by_cases hmin : head.size ≤ cfg.minSize
      · rw [t2 rfl hsz hmin]
        exact tryMerge_tot hsmo hR hc hI hE hD hW hnw h1 h4 h2 h3.2 hm h5 hsz hmin (by omega) (by omega)
      · rw [t3 rfl hsz hmin]
        have hown : s.own p = none ∨ s.own p = some t := by
          cases hw : head.needWait cfg with
          | true => exact Or.inr (h5 hw)
          | false => exact Or.inl (hI.inv.own_none (by rw [h1]; simp) hm h4 hw)
        obtain ⟨i3, f3⟩ := hI.putCons h1 hm h4 hsz hown
        have hphi := Phi_putCons (t := t) (b := decide (F ≠ 0)) hI.inv h1 hm h4
        refine Or.inr ⟨hm, (fun ⟨_, e⟩ => by cases e),
          s.put cfg t p (.base (consNode (decide (F ≠ 0)) head head.size)) s.est s.m s.ops, rfl, ⟨fl, fun _ _ e => e, i3⟩, f3, ?_, ?_, Nat.le_refl _, ?_⟩
        · exact hnw.put (fun q h e => (h e).elim) (fun e => by cases e)
        · exact Sub.base (put_cont h1 rfl)
        · unfold Bnd
          rw [hphi]
          exact Nat.le_refl _
    · obtain ⟨lr, x, rr, a1, a2, a3, a4, a5⟩ := t4 rfl hsz
      rw [a5]
      simp only
      have hw : head.needWait cfg = true := by
        cases hd : head.isDelta with
        | false => exact absurd (hpw.base_le hd) hsz
        | true =>
          unfold Chain.needWait
          rw [hd, decide_eq_true (p := (cfg.page : Int) < head.size) (by omega)]
          simp
      exact split_tot hsmo hR hc hI hE hD hW hnw h1 hm h4 (h5 hw) h2 h3.2 (fun _ => rfl) rfl a1 a2
        (by omega) a3 a4 (by omega) (by omega)

end BwTree
