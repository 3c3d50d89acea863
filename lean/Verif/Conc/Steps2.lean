import Verif.Conc.Steps

/-!
# Further atomic steps: index-delete words and the root (helper lemmas)
-/

namespace BwTree

set_option linter.unusedSectionVars false

variable {K V : Type} [LinearOrder K] {cfg : Cfg K} {s : St K V} {C : Ctx} {F G : Nat}
  {low : Option K} {p q np lp rp : PID}

theorem Guar.of_same {s' : St K V} (h1 : s'.own = s.own) (h2 : s'.mt = s.mt)
    (h3 : s'.pend = s.pend) (h4 : s'.info = s.info) (h5 : s'.est = s.est)
    (mono : Mono s s') (lin : Lin C s s') : Guar C s s' := by
  apply guar_mk (fun _ => False) (fun _ e => e.elim) (fun _ _ e => e.elim) (fun _ _ e => e.elim) _ mono _ lin
  · intro q _; rw [h1, h2, h3, h4, h5]; simp
  · intro u q _ _ e; rw [h5]; exact e

/-- A fresh index-delete word. -/
theorem Inv.newCell (h : Inv cfg s) (F : Nat) (k : K) :
    let s' := { s with ncell := s.ncell + 1, cells := upd s.cells s.ncell 0,
                       cellInfo := upd s.cellInfo s.ncell (some (F, k)) }
    Inv cfg s' ∧ Guar C s s' := by
  have hext : ∀ w x, s.cellInfo w = some x → upd s.cellInfo s.ncell (some (F, k)) w = some x := by
    intro w x e
    rw [upd_ne]
    · exact e
    · rintro rfl
      rw [h.p.cfresh _ (Nat.le_refl _)] at e; cases e
  refine ⟨⟨h.l.cellExt hext, ?_⟩, ?_⟩
  · refine ⟨h.p.npos, h.p.fresh, h.p.slot, h.p.frozen, h.p.owned, h.p.pend, h.p.del, h.p.root,
      ?_, ?_, h.p.unpub⟩
    · intro w F0 k0 hw
      simp only at hw ⊢
      by_cases e : w = s.ncell
      · subst e; left; simp
      · rw [upd_ne _ _ e] at hw ⊢; exact h.p.cell w F0 k0 hw
    · intro w hw
      simp only at hw ⊢
      rw [upd_ne _ _ (by omega)]
      exact h.p.cfresh w (by omega)
  · exact Guar.of_same rfl rfl rfl rfl rfl
      ⟨fun _ _ e => e, Nat.le_refl _, fun _ _ => rfl, hext, fun _ e => e⟩ (Or.inl ⟨rfl, rfl⟩)

/-- An index-delete word is set. -/
theorem Inv.storeCell (h : Inv cfg s) {w : Nat} {k : K} (hw : s.cellInfo w = some (F, k))
    (hi : s.info p = some (F, low)) (hl : LowOK low k false) :
    let s' := { s with cells := upd s.cells w p }
    Inv cfg s' ∧ Guar C s s' := by
  refine ⟨⟨h.l, ?_⟩, ?_⟩
  · refine ⟨h.p.npos, h.p.fresh, h.p.slot, h.p.frozen, h.p.owned, h.p.pend, h.p.del, h.p.root,
      ?_, h.p.cfresh, h.p.unpub⟩
    intro w' F0 k0 hw'
    simp only at hw' ⊢
    by_cases e : w' = w
    · subst e
      rw [hw] at hw'; cases hw'
      rw [upd_same]
      exact Or.inr ⟨low, hi, hl⟩
    · rw [upd_ne _ _ e]; exact h.p.cell w' F0 k0 hw'
  · exact Guar.of_same rfl rfl rfl rfl rfl
      ⟨fun _ _ e => e, Nat.le_refl _, fun _ _ => rfl, fun _ _ e => e, fun _ e => e⟩
      (Or.inl ⟨rfl, rfl⟩)

/-- The root pointer is set to a leftmost page. -/
theorem Inv.setRoot (h : Inv cfg s) (hi : s.info p = some (F, none)) :
    let s' := { s with root := p }
    Inv cfg s' ∧ Guar C s s' :=
  ⟨⟨h.l, ⟨h.p.npos, h.p.fresh, h.p.slot, h.p.frozen, h.p.owned, h.p.pend, h.p.del, ⟨F, hi⟩,
    h.p.cell, h.p.cfresh, h.p.unpub⟩⟩, Guar.of_same rfl rfl rfl rfl rfl
      ⟨fun _ _ e => e, Nat.le_refl _, fun _ _ => rfl, fun _ _ e => e, fun _ e => e⟩
      (Or.inl ⟨rfl, rfl⟩)⟩

/-- The state after a root was removed. -/
def St.killRoot (s : St K V) (p q : PID) : St K V :=
  { s with root := q, own := upd s.own p none, pend := upd s.pend p none }

theorem Inv.killRoot (h : Inv cfg s) {b : Bool} (hi : s.info p = some (F, none)) (hF : F ≠ 0)
    (hm : s.mt p = some (.removed b)) (hop : s.own p = some C.t) (hX : ¬ C.X p)
    (hq : s.info q = some (G, none)) (hpos : 0 < cfg.maxDelta) :
    Inv cfg (s.killRoot p q) ∧ Guar C s (s.killRoot p q) := by
  refine ⟨⟨?_, ?_⟩, ?_⟩
  · have hl := h.l.kill (L := s.lv) hi hF
    have e : (s.killRoot p q).lv = { s.lv with cont := upd s.lv.cont p none } := by
      have : (s.killRoot p q).cont = upd s.cont p none := by
        funext x
        by_cases e : x = p
        · subst e
          simp only [upd_same, St.cont, St.killRoot, hi, hm, Option.map]
        · simp only [St.cont, St.killRoot, upd_ne _ _ e]
      unfold St.lv; rw [this]; rfl
    rw [e]; exact hl
  · refine ⟨h.p.npos, ?_, h.p.slot, ?_, ?_, ?_, h.p.del, ⟨G, hq⟩, h.p.cell, h.p.cfresh, h.p.unpub⟩
    · intro x hx
      have hf := h.p.fresh x hx
      have hn1 : x ≠ p := by rintro rfl; rw [hf.2.1] at hi; cases hi
      simp only [St.killRoot, upd_ne _ _ hn1]; exact hf
    · intro x c0 hx hc hn
      have hn1 : x ≠ p := by
        rintro rfl
        simp only [St.killRoot] at hc
        rw [hm] at hc; cases hc
        rw [needWait_removed hpos] at hn; cases hn
      simp only [St.killRoot, upd_ne _ _ hn1]; exact h.p.frozen x c0 hx hc hn
    · intro x t hx hi0
      have hn1 : x ≠ p := by rintro rfl; simp [St.killRoot] at hx
      simp only [St.killRoot, upd_ne _ _ hn1] at hx ⊢; exact h.p.owned x t hx hi0
    · intro x n hx
      have hn1 : x ≠ p := by rintro rfl; simp [St.killRoot] at hx
      simp only [St.killRoot, upd_ne _ _ hn1] at hx ⊢; exact h.p.pend x n hx
  · apply guar_mk (fun x => x = p)
    · rintro x rfl; exact ⟨Or.inr hop, hX⟩
    · rintro x u rfl hu
      simp [St.killRoot] at hu
    · rintro x m rfl hu
      simp [St.killRoot] at hu
    · intro x hn
      simp only [St.killRoot, upd_ne _ _ hn]; simp
    · exact ⟨fun _ _ e => e, Nat.le_refl _, fun _ _ => rfl, fun _ _ e => e, fun _ e => e⟩
    · exact fun _ _ _ _ e => e
    · exact Or.inl ⟨rfl, rfl⟩

/-- The state after a new root page was stored (not yet installed). -/
def St.pubRoot (s : St K V) (F : Nat) (np rp : PID) (c : Chain K V) : St K V :=
  { s with mt := upd s.mt np (some c),
           info := upd s.info np (some (s.nfam, none)),
           nfam := s.nfam + 1,
           fcf := upd s.fcf s.nfam F,
           est := upd s.est rp (.posted s.nfam),
           own := upd s.own np none }

theorem Inv.pubRoot (hc : CfgOK2 cfg) (h : Inv cfg s) {sep : K} (hnp : s.info np = none)
    (hon : s.own np = some C.t) (hX : ¬ C.X np) (hl : s.info lp = some (F, none))
    (hr : s.info rp = some (F, some sep)) (he : s.est rp = .unposted C.t) :
    let s' := s.pubRoot F np rp (.base (newRoot cfg sep lp rp))
    Inv cfg s' ∧ Guar C s s' := by
  intro s'
  have hF := h.l.fam lp F none hl
  have hext : ∀ x y, s.info x = some y → upd s.info np (some (s.nfam, none)) x = some y := by
    intro x y e
    rw [upd_ne _ _ (by rintro rfl; rw [hnp] at e; cases e)]; exact e
  have hlt : 0 < s.nfam := Nat.lt_of_le_of_lt (Nat.zero_le _) hF
  have hnf : s.nfam ≠ 0 := by omega
  have hfc : upd s.lv.fcf s.lv.nfam F s.nfam = F := upd_same _ _ _
  obtain ⟨hw, hfb⟩ := newRoot_page (V := V) (cfg := cfg)
    (L := { s.lv with info := upd s.lv.info np (some (s.lv.nfam, none)),
                      fcf := upd s.lv.fcf s.lv.nfam F })
    (lp := lp) (rp := rp) (sep := sep) hc hnf
    ((hext _ _ hl).trans (congrArg (fun x => some (x, none)) hfc.symm))
    ((hext _ _ hr).trans (congrArg (fun x => some (x, some sep)) hfc.symm))
  have hmono : Mono s s' := by
    refine ⟨hext, Nat.le_succ _, ?_, fun _ _ e => e, ?_⟩
    · intro x hx
      show upd s.fcf s.nfam F x = _
      rw [upd_ne _ _ (by omega)]
    · intro x hx
      show upd s.est rp _ x = _
      rw [upd_ne _ _ (by rintro rfl; rw [he] at hx; cases hx)]; exact hx
  have hcont : s'.cont = upd s.cont np (some (.base (newRoot cfg sep lp rp))) := by
    funext x
    by_cases e : x = np
    · subst e
      simp only [upd_same, St.cont, s', St.pubRoot]
    · simp only [St.cont, s', St.pubRoot, upd_ne _ _ e]
  refine ⟨⟨?_, ?_⟩, ?_⟩
  · have hl := h.l.newRoot (L := s.lv) (t := C.t) hnp hF he (h.l.live rp F sep hr (by
      show s.est rp ≠ _; rw [he]; simp)) hw (by
        intro sp x hx; rw [hfb] at hx; simp at hx; exact hx.2) hlt rfl
    have e : s'.lv = { s.lv with info := upd s.lv.info np (some (s.lv.nfam, none)),
                                 nfam := s.lv.nfam + 1,
                                 fcf := upd s.lv.fcf s.lv.nfam F,
                                 est := upd s.lv.est rp (.posted s.lv.nfam),
                                 cont := upd s.lv.cont np
                                   (some (.base (newRoot cfg sep lp rp))) } := by
      unfold St.lv; rw [hcont]; rfl
    rw [e]; exact hl
  · refine ⟨h.p.npos, ?_, ?_, ?_, ?_, ?_, ?_, ?_, ?_, h.p.cfresh, ?_⟩
    · intro x hx
      have hf := h.p.fresh x hx
      have hn1 : x ≠ np := by rintro rfl; rw [hf.2.2.1] at hon; cases hon
      simp only [s', St.pubRoot, upd_ne _ _ hn1]; exact hf
    · intro x F0 l0 hx
      by_cases e : x = np
      · subst e
        refine ⟨_, by simp [s', St.pubRoot]; rfl, ?_⟩
        intro b hb; cases hb
      · simp only [s', St.pubRoot, upd_ne _ _ e] at hx ⊢; exact h.p.slot x F0 l0 hx
    · intro x c0 hx hc hn
      by_cases e : x = np
      · subst e
        simp only [s', St.pubRoot, upd_same, Option.some.injEq] at hc
        subst hc; rw [needWait_base] at hn; cases hn
      · simp only [s', St.pubRoot, upd_ne _ _ e] at hx hc ⊢; exact h.p.frozen x c0 hx hc hn
    · intro x t hx hi0
      have hn1 : x ≠ np := by rintro rfl; simp [s', St.pubRoot] at hx
      simp only [s', St.pubRoot, upd_ne _ _ hn1] at hx hi0 ⊢; exact h.p.owned x t hx hi0
    · intro x n hx
      have hp := h.p.pend x n hx
      have hn1 : x ≠ np := by rintro rfl; exact hp.2.1 hnp
      simp only [s', St.pubRoot, upd_ne _ _ hn1]; exact hp
    · intro x hx
      have hx' : s.est x = .deleted := by
        simp only [s', St.pubRoot] at hx
        by_cases e : x = rp
        · subst e; rw [upd_same] at hx; cases hx
        · rw [upd_ne _ _ e] at hx; exact hx
      have hp := h.p.del x hx'
      have hn1 : x ≠ np := by rintro rfl; exact hp.1 hnp
      simp only [s', St.pubRoot, upd_ne _ _ hn1]; exact hp
    · obtain ⟨G, hG⟩ := h.p.root
      exact ⟨G, hext _ _ hG⟩
    · intro w G k hw
      rcases h.p.cell w G k hw with e | ⟨l, e1, e2⟩
      · exact Or.inl e
      · exact Or.inr ⟨l, hext _ _ e1, e2⟩
    · intro x c0 hx hc
      have hn1 : x ≠ np := by rintro rfl; simp [s', St.pubRoot] at hx
      simp only [s', St.pubRoot, upd_ne _ _ hn1] at hx hc; exact h.p.unpub x c0 hx hc
  · apply guar_mk (fun x => x = np)
    · rintro x rfl; exact ⟨Or.inr hon, hX⟩
    · rintro x u rfl hu
      simp [s', St.pubRoot] at hu
    · exact fun _ _ _ hu => Or.inl hu
    · intro x hn
      simp only [s', St.pubRoot, upd_ne _ _ hn]; simp
      intro hx
      by_cases e : x = rp
      · subst e; rw [upd_same] at hx; cases hx
      · rw [upd_ne _ _ e] at hx; exact hx
    · exact hmono
    · intro u x hu _ hx
      show upd s.est rp _ x = _
      rw [upd_ne]
      · exact hx
      · rintro rfl; rw [he] at hx; cases hx; exact absurd rfl hu
    · exact Or.inl ⟨rfl, rfl⟩

end BwTree
