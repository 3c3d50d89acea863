import Verif.Conc.QuietScan
import Verif.Conc.Ops
import Verif.Conc.Init

/-!
# Writes that run alone (helper lemmas)
-/

namespace BwTree

set_option linter.unusedSectionVars false

variable {K V : Type} {α β : Type}

/-- Loads, stores and successful compare-and-swaps of one thread, up to its return. -/
inductive Ends : Sh K V → Prog K V α → Sh K V → α → Prop
  | ret (sh : Sh K V) (a : α) : Ends sh (.ret a) sh a
  | load {sh sh' : Sh K V} {p : PID} {c : Chain K V} {k : Chain K V → Prog K V α} {a : α} :
      sh.mt p = some c → Ends sh (k c) sh' a → Ends sh (.load p k) sh' a
  | loadRoot {sh sh' : Sh K V} {k : PID → Prog K V α} {a : α} : Ends sh (k sh.root) sh' a →
      Ends sh (.loadRoot k) sh' a
  | loadCell {sh sh' : Sh K V} {w : Nat} {k : PID → Prog K V α} {a : α} :
      Ends sh (k (sh.cells w)) sh' a → Ends sh (.loadCell w k) sh' a
  | cas {sh sh' : Sh K V} {p : PID} {o n : Chain K V} {k : Bool → Prog K V α} {a : α} :
      sh.mt p = some o → Ends { sh with mt := upd sh.mt p (some n) } (k true) sh' a →
      Ends sh (.cas p o n k) sh' a
  | store {sh sh' : Sh K V} {p : PID} {c : Chain K V} {k : Prog K V α} {a : α} :
      Ends { sh with mt := upd sh.mt p (some c) } k sh' a → Ends sh (.store p c k) sh' a

theorem Yields.ends {sh : Sh K V} {p : Prog K V α} {a : α} (h : Yields sh p a) : Ends sh p sh a := by
  induction h with
  | ret a => exact .ret _ a
  | load hm _ ih => exact .load hm ih
  | loadRoot _ ih => exact .loadRoot ih
  | loadCell _ ih => exact .loadCell ih

theorem Ends.bind {sh sh' sh'' : Sh K V} {p : Prog K V α} {g : α → Prog K V β} {a : α} {b : β}
    (h : Ends sh p sh' a) (h' : Ends sh' (g a) sh'' b) : Ends sh (p.bind g) sh'' b := by
  induction h with
  | ret sh a => exact h'
  | load hm _ ih => exact .load hm (ih h')
  | loadRoot _ ih => exact .loadRoot (ih h')
  | loadCell _ ih => exact .loadCell (ih h')
  | cas hm _ ih => exact .cas hm (ih h')
  | store _ ih => exact .store (ih h')

variable [LinearOrder K] {cfg : Cfg K} {s : St K V} {key : K}

/-- In the system. -/
theorem Ends.sure {S₀ S : Sys K V} {h : List (Spec.Event K V)} {t : Nat} {call : Spec.Call K V}
    {prog : Prog K V (Out K V)} {a : Out K V} {sh sh' : Sh K V} (hy : Ends sh prog sh' a)
    (hsh : S.sh = sh) (hr : SureRun cfg S₀ h S) (ht : S.th t = .run call prog) :
    ∃ S', SureRun cfg S₀ h S' ∧ S'.sh = sh' ∧ S'.th t = .run call (.ret a) ∧
      (∀ u, u ≠ t → S'.th u = S.th u) ∧ S'.it = S.it := by
  have step : ∀ {p p' : Prog K V (Out K V)} {S : Sys K V} {sh sh1 : Sh K V}, SureRun cfg S₀ h S →
      S.sh = sh → S.th t = .run call p → Sure sh p sh1 p' →
      (∀ S : Sys K V, SureRun cfg S₀ h S → S.sh = sh1 → S.th t = .run call p' →
        ∃ S', SureRun cfg S₀ h S' ∧ S'.sh = sh' ∧ S'.th t = .run call (.ret a) ∧
          (∀ u, u ≠ t → S'.th u = S.th u) ∧ S'.it = S.it) →
      ∃ S', SureRun cfg S₀ h S' ∧ S'.sh = sh' ∧ S'.th t = .run call (.ret a) ∧
          (∀ u, u ≠ t → S'.th u = S.th u) ∧ S'.it = S.it := by
    intro p p' S sh sh1 hr hs ht hst ih
    obtain ⟨S', g1, g2, g3, g4, g5⟩ := ih _ (hr.tau (.access S t call p p' sh1 ht (by rw [hs]; exact hst)))
      rfl (upd_same ..)
    exact ⟨S', g1, g2, g3, fun u hu => (g4 u hu).trans (upd_ne _ _ hu), g5⟩
  induction hy generalizing S with
  | ret sh a => exact ⟨S, hr, hsh, ht, fun _ _ => rfl, rfl⟩
  | load hm _ ih => exact step hr hsh ht (.firm (.mk (.load _ _ _ _ hm) (by rintro _ _ _ _ ⟨⟩))) fun S g1 g2 g3 => ih g2 g1 g3 step
  | loadRoot _ ih => exact step hr hsh ht (.firm (.mk (.loadRoot _ _) (by rintro _ _ _ _ ⟨⟩))) fun S g1 g2 g3 => ih g2 g1 g3 step
  | loadCell _ ih => exact step hr hsh ht (.firm (.mk (.loadCell _ _ _) (by rintro _ _ _ _ ⟨⟩))) fun S g1 g2 g3 => ih g2 g1 g3 step
  | cas hm _ ih => exact step hr hsh ht (.firm (.mk (.casOk _ _ _ _ _ hm) (by rintro _ _ _ _ ⟨⟩ _; exact ⟨rfl, rfl⟩))) fun S g1 g2 g3 => ih g2 g1 g3 step
  | store _ ih => exact step hr hsh ht (.firm (.mk (.store _ _ _ _) (by rintro _ _ _ _ ⟨⟩))) fun S g1 g2 g3 => ih g2 g1 g3 step

theorem getHeadKC_yields (hI : Inv cfg s) (hC : Spec.Calm s.toSh key true)
    (hS : ∀ p c, s.mt p = some c → c.needWait cfg = false) :
    ∀ (n : Nat) {low : Option K} {p : PID} {rest : Stk}, (after s 0 low).card < n →
      OnRoute s key true 0 low p →
      ∃ N q c low' b, (∀ f, N ≤ f →
        Yields s.toSh (getHeadKC cfg key f (p :: rest)) (q :: rest, c, b)) ∧
        OnRoute s key true 0 low' q ∧ s.mt q = some c ∧ c.isRemoved = false ∧
        HighOK c.high key true ∧ (b = true ↔ alook c.flatBody key ≠ none) := by
  intro n
  induction n with
  | zero => intro low p rest hn; exact absurd hn (Nat.not_lt_zero _)
  | succ n ih =>
    intro low p rest hn h
    obtain ⟨c, h1, h2, h3, h4⟩ := h.live hI hC
    have hli : c.liveInner = false := by simp [Chain.liveInner, h4.isLeaf]
    have hl : c.isLeaf = true := by rw [h4.isLeaf]; simp
    have head : ∀ f, Yields s.toSh (loadValidHead cfg (f + 1) p) c := fun f => by
      refine .load h1 ?_
      simp only [hS p c h1, Bool.false_eq_true, if_false]
      exact .ret _
    by_cases hh : HighOK c.high key true
    · obtain ⟨b, hb1, hb2⟩ := (keyCheck_spec h4.wf key).2 hh
      refine ⟨2, p, c, low, b, ?_, h, h1, h2, hh, hb2⟩
      intro f hf
      obtain ⟨f, rfl⟩ := Nat.exists_eq_add_of_le' hf
      refine (head f).bind ?_
      simp only [hli, Bool.false_eq_true, if_false, hb1]
      exact .ret _
    · have hb1 := (keyCheck_spec h4.wf key).1 hh
      obtain ⟨b, b1, b2, b3⟩ := h4.sibling hh
      have hlt := after_lt hI (low := low) b2 (fun x hx => by
        subst hx; exact h4.wf.nonempty x b rfl b1)
      obtain ⟨N, q, c', low', b', g1, g2⟩ := ih (low := some b) (p := c.nextPid) (rest := rest) (by omega)
        ⟨.leaf h.route h1 hl b1 (b3 b rfl), b2, b3⟩
      refine ⟨N + 2, q, c', low', b', ?_, g2⟩
      intro f hf
      obtain ⟨f, rfl⟩ := Nat.exists_eq_add_of_le' (Nat.le_trans (Nat.le_add_left 2 N) hf)
      refine (head f).bind ?_
      simp only [hli, Bool.false_eq_true, if_false, hb1]
      exact g1 (f + 1) (by omega)

theorem deltas_len (c : Chain K V) : Spec.deltas c = deltaLen c := by
  induction c with
  | base n => rfl
  | removed b => rfl
  | delta d nx ih => simp only [Spec.deltas, deltaLen, ih]

/-- A write that runs alone and needs no split or merge returns the right answer. -/
theorem write_ends (hc : CfgOK2 cfg) (hI : Inv cfg s) {op : Spec.Op K V} (hop : op.isRead = false)
    (hC : Spec.Calm s.toSh (opKey op) true)
    (hS : ∀ p c, s.mt p = some c → c.needWait cfg = false)
    (hR : ∀ p c, Spec.Route s.toSh (opKey op) true p → s.mt p = some c → c.isLeaf = true →
      Spec.Covers c (opKey op) → Spec.Roomy cfg (opKey op) c) :
    ∃ N, ∀ f, N ≤ f → ∃ sh', Ends s.toSh (runOp cfg f op) sh' (Spec.apply s.m op).2 := by
  obtain ⟨N, q, rest, low, h1, h2⟩ := searchLeaf_yields hI hC
  obtain ⟨N', p, c, low', b, h3, h4, h5, h6, h7, h8⟩ :=
    getHeadKC_yields hI hC hS _ (rest := rest) (Nat.lt_succ_self _) h2
  obtain ⟨h9, hw⟩ := hI.live h4.info h5 h6
  have hwf := hw.wf
  simp only [ne_eq, not_true_eq_false, decide_false] at hwf
  have hf := LeafAt.found hI h4.info h9 ⟨h4.low, h7⟩ h8
  have hd := writeDelta_spec (cfg := cfg) hop hf
  have hroom := hR p c h4.route h5 (by rw [hw.isLeaf]; simp) ((covers_iff hwf.low_eq _).mpr ⟨h4.low, h7⟩)
  have hn := hS p c h5
  refine ⟨max N N' + 2, fun f hle => ?_⟩
  obtain ⟨f, rfl⟩ := Nat.exists_eq_add_of_le' (Nat.le_trans (Nat.le_add_left 2 _) hle)
  have main : ∃ sh', Ends s.toSh (writeLoop cfg op (opKey op) (f + 2) (q :: rest)) sh'
      (Spec.apply s.m op).2 := by
    cases hwd : writeDelta cfg op b with
    | inl r =>
      rw [hwd] at hd
      simp only at hd
      refine ⟨s.toSh, (h3 (f + 1) (by omega)).ends.bind ?_⟩
      simp only [hwd, hd]
      exact .ret _ _
    | inr x =>
      obtain ⟨d, diff⟩ := x
      rw [hwd] at hd
      simp only at hd
      have hres : (Spec.apply s.m op).2 = .success := by
        rcases hd with ⟨ty, v, _, e, _⟩ | ⟨_, _, _, e⟩ <;> rw [e]
      have hwf' : ChainWF cfg false low' (Chain.push d c diff) := by
        rcases hd with ⟨ty, v, rfl, e2, e3⟩ | ⟨rfl, rfl, e3, e4⟩
        · rcases e3 with ⟨rfl, x2, x3⟩ | ⟨rfl, x2, x3⟩
          · refine (push_put_wf (d := putDelta _ (opKey op) v) (p := .val v) hwf rfl (by simp [putDelta, DPayOK]) rfl hn hc.maxPos ⟨h4.low, h7⟩
              (Or.inl ⟨rfl, ?_, x3⟩)).1
            cases ha : alook c.flatBody (opKey op) with
            | none => exact ha
            | some y => rw [h8.mpr (by rw [ha]; simp)] at x2; cases x2
          · exact (push_put_wf (d := putDelta _ (opKey op) v) (p := .val v) hwf rfl (by simp [putDelta, DPayOK]) rfl hn hc.maxPos ⟨h4.low, h7⟩
              (Or.inr ⟨rfl, h8.mp x2, x3⟩)).1
        · exact (push_del_wf (d := delDelta (opKey op)) hwf rfl (by simp [delDelta, DPayOK]) rfl hn hc.maxPos ⟨h4.low, h7⟩ (h8.mp e3)
            (by intro e; cases e)).1
      have hdiff : -(cfg.entLen false (opKey op) : Int) ≤ diff ∧ diff ≤ cfg.entLen false (opKey op) := by
        rcases hd with ⟨ty, v, _, _, ⟨_, _, e⟩ | ⟨_, _, e⟩⟩ | ⟨_, e, _⟩ <;> rw [e] <;> omega
      have hsize : (Chain.push d c diff).size = c.size + diff := rfl
      have hcnt : (Chain.push d c diff).cnt = Spec.deltas c + 1 := by
        rw [(deltas_len c).trans hwf.deltaLen_eq]
        show (if c.isDelta then c.cnt + 1 else 1) = _
        split <;> rfl
      obtain ⟨r1, r2⟩ := hroom
      cases hnc : (Chain.push d c diff).needConsolidation cfg with
      | false =>
        refine ⟨{ s.toSh with mt := upd s.mt p (some (.push d c diff)) }, (h3 (f + 1) (by omega)).ends.bind ?_⟩
        simp only [hwd]
        refine .cas h5 ?_
        simp only [hnc, if_true, Bool.false_eq_true, if_false, hres]
        exact .ret _ _
      | true =>
        suffices hsuf : ∃ sh', Ends ({ s.toSh with mt := upd s.mt p (some (.push d c diff)) } : Sh K V)
            (trySMOs cfg (f + 1) (.push d c diff) (p :: rest)) sh' () by
          obtain ⟨sh', hsuf⟩ := hsuf
          refine ⟨sh', (h3 (f + 1) (by omega)).ends.bind ?_⟩
          simp only [hwd]
          refine .cas h5 ?_
          simp only [hnc, if_true, hres]
          exact hsuf.bind (.ret _ _)
        let c1 : Chain K V := .push d c diff
        let sh1 : Sh K V := { s.toSh with mt := upd (upd s.mt p (some c1)) p (some c1) }
        by_cases hsz : (Chain.push d c diff).size ≤ cfg.minSize
        · have hlow : c.low = none := by
            rcases r2 with r2 | r2 | r2
            · exfalso
              unfold Chain.needConsolidation at hnc
              rw [Bool.and_eq_true, Bool.or_eq_true, decide_eq_true_eq, decide_eq_true_eq] at hnc
              rcases hnc.2 with hnc | hnc
              · omega
              · omega
            · rw [hsize] at hsz; omega
            · exact r2
          have ht := (tryConsolidate_spec hc.toCfgOK hwf' false).2.1 rfl (by rw [hsize]; omega) hsz
          have hlow1 : (consNode false c1 c1.size).low = none := by
            show c1.low = none
            rw [hwf'.low_eq, ← hwf.low_eq]; exact hlow
          let sh2 : Sh K V := { sh1 with mt := upd sh1.mt p (some (.removed true)) }
          refine ⟨{ sh2 with mt := upd sh2.mt p (some (.base (consNode false c1 c1.size))) }, ?_⟩
          refine .cas (upd_same ..) ?_
          simp only [if_true, ht, tryMerge]
          refine .cas (upd_same ..) ?_
          have hdel : tryDeleteIndexEntry cfg (trySMOs cfg f) f (consNode false c1 c1.size) rest =
              .ret none := by
            unfold tryDeleteIndexEntry
            split
            · rfl
            · rw [hlow1]
          have hroot : tryRemoveRoot (consNode false c1 c1.size) p rest = (.ret false : Prog K V Bool) := by
            unfold tryRemoveRoot
            exact if_pos (Or.inr (Or.inr rfl))
          simp only [if_true, show tryDeleteIndexEntry cfg (trySMOs cfg f) f
            (consNode false (Chain.push d c diff) (Chain.push d c diff).size) rest = .ret none from hdel,
            Prog.bind, show tryRemoveRoot (consNode false (Chain.push d c diff) (Chain.push d c diff).size)
              p rest = (.ret false : Prog K V Bool) from hroot, Bool.false_eq_true, if_false]
          exact .store (.ret _ _)
        · have ht := (tryConsolidate_spec hc.toCfgOK hwf' false).2.2.1 rfl (by rw [hsize]; omega) hsz
          refine ⟨{ sh1 with mt := upd sh1.mt p (some (.base (consNode false c1 c1.size))) }, ?_⟩
          refine .cas (upd_same ..) ?_
          simp only [if_true, ht]
          exact .cas (upd_same ..) (.ret _ _)
  obtain ⟨sh', hm⟩ := main
  refine ⟨sh', ?_⟩
  cases op with
  | read k => cases hop
  | _ => exact (h1 (f + 2) (by omega)).ends.bind hm

end BwTree
