import Verif.MapTable.Model

/-!
# Mapping table: invariant of all interleavings
-/

namespace BwTree.MapTable

/-- The ID with the given table, row and column. -/
def enc (t r c : Nat) : Nat := 2 ^ 63 + t * 4294967296 + r * 65536 + c

theorem tabOf_eq (id : Nat) : tabOf id = id / 4294967296 % 65536 := by
  unfold tabOf
  have := Nat.and_two_pow_sub_one_eq_mod (id >>> 32) 16
  simp only [Nat.shiftRight_eq_div_pow] at *
  simpa using this

theorem rowOf_eq (id : Nat) : rowOf id = id / 65536 % 65536 := by
  unfold rowOf
  have := Nat.and_two_pow_sub_one_eq_mod (id >>> 16) 16
  simp only [Nat.shiftRight_eq_div_pow] at *
  simpa using this

theorem colOf_eq (id : Nat) : colOf id = id % 65536 := by
  unfold colOf
  have := Nat.and_two_pow_sub_one_eq_mod id 16
  simpa using this

theorem tabOf_enc {t r c : Nat} (ht : t < 65536) (hr : r < 65536) (hc : c < 65536) :
    tabOf (enc t r c) = t := by rw [tabOf_eq]; unfold enc; omega

theorem rowOf_enc {t r c : Nat} (hr : r < 65536) (hc : c < 65536) :
    rowOf (enc t r c) = r := by rw [rowOf_eq]; unfold enc; omega

theorem colOf_enc {t r c : Nat} (hc : c < 65536) : colOf (enc t r c) = c := by
  rw [colOf_eq]; unfold enc; omega

theorem enc_inj {t r c t' r' c' : Nat} (hr : r < 65536) (hc : c < 65536)
    (hr' : r' < 65536) (hc' : c' < 65536) (h : enc t r c = enc t' r' c') :
    t = t' ∧ r = r' ∧ c = c' := by unfold enc at h; omega

/-- Position of an ID in the order of reservation. -/
def rank (t r c : Nat) : Nat := (t * 512 + r) * 512 + c

/-- An ID that may have been handed out when `n` IDs have been reserved. -/
def Issued (n id : Nat) : Prop :=
  ∃ t r c, id = enc t r c ∧ t < tabCap ∧ r < 512 ∧ c < 512 ∧ rank t r c < n

/-- What a program counter may be when the counter stands at `(T, R, C)`. -/
def PcOK (s : St) (T R C : Nat) : PC → Prop
  | .idle => True
  | .aborted => False
  | .loaded _ => True
  | .extRow cur new => C = 512 ∧ R + 1 < 512 ∧ cur = enc T R 511 ∧ new = enc T (R + 1) 512
  | .extRowSt cur new => C = 512 ∧ R + 1 < 512 ∧ cur = enc T R 511 ∧ new = enc T (R + 1) 512 ∧
      s.rows T (R + 1) = true ∧ s.pages = T * 513 + R + 4
  | .extTab cur new => C = 512 ∧ R + 1 = 512 ∧ cur = enc T R 511 ∧ new = enc T 512 512
  | .extTabSt cur new => C = 512 ∧ R + 1 = 512 ∧ cur = enc T R 511 ∧ new = enc (T + 1) 512 512 ∧
      T + 1 < tabCap ∧ s.dir (T + 1) = true ∧ s.rows (T + 1) 0 = true ∧
      s.pages = T * 513 + R + 5

/-- In the middle of preparing a new row or table. -/
def PC.isExt : PC → Bool
  | .idle | .loaded _ | .aborted => false
  | _ => true

/-- A new row or table has been allocated but `cnt_` does not show it yet. -/
def PC.isSt : PC → Bool
  | .extRowSt _ _ | .extTabSt _ _ => true
  | _ => false

theorem isExt_of_isSt {p : PC} (h : p.isExt = false) : p.isSt = false := by
  cases p <;> first | rfl | simp [PC.isExt] at h

structure Inv (s : St) : Prop where
  main : ∃ T R C, s.cnt = enc T R C ∧ T < tabCap ∧ R < 512 ∧ C ≤ 512 ∧
    (∀ t r, (t < T ∧ r < 512) ∨ (t = T ∧ r ≤ R) → s.dir t = true ∧ s.rows t r = true) ∧
    (∀ t, PcOK s T R C (s.pc t)) ∧
    (∀ id ∈ s.out, Issued (rank T R (if C = 512 then 511 else C)) id) ∧
    s.out.length = rank T R (if C = 512 then 511 else C) ∧
    (C = 512 → ∃ t, (s.pc t).isExt = true) ∧
    (∀ t t', (s.pc t).isExt = true → (s.pc t').isExt = true → t = t') ∧
    ((∀ t, (s.pc t).isSt = false) → s.pages = T * 513 + R + 3)
  nodup : s.out.Nodup

theorem issued_mono {n m id : Nat} (h : Issued n id) (hm : n ≤ m) : Issued m id := by
  obtain ⟨t, r, c, h1, h2, h3, h4, h5⟩ := h
  exact ⟨t, r, c, h1, h2, h3, h4, by omega⟩

theorem not_issued {T R C : Nat} (hR : R < 512) (hC : C < 512) : ¬ Issued (rank T R C) (enc T R C) := by
  rintro ⟨t, r, c, h1, _, h3, h4, h5⟩
  obtain ⟨e1, e2, e3⟩ := enc_inj (by omega) (by omega) (by omega) (by omega) h1
  subst e1 e2 e3
  omega

theorem isExt_pcOK {s : St} {T R C : Nat} {p : PC} (h : PcOK s T R C p) (he : p.isExt = true) :
    C = 512 := by
  cases p <;> simp [PC.isExt] at he <;> exact h.1

theorem init_inv : Inv init where
  main := by
    refine ⟨0, 0, 0, by decide, by decide, by decide, by decide, ?_, ?_, ?_, ?_, ?_, ?_, fun _ => rfl⟩
    · rintro t r (h | h)
      · omega
      · simp [init, h.1]; omega
    · intro t; trivial
    · intro id hid; simp [init] at hid
    · rfl
    · intro h; cases h
    · intro t t' h; simp [init, PC.isExt] at h
  nodup := by simp [init]

theorem setPc_self (s : St) (t : Nat) (p : PC) : (s.setPc t p).pc t = p := by simp [St.setPc]

theorem setPc_ne (s : St) {t u : Nat} (h : u ≠ t) (p : PC) : (s.setPc t p).pc u = s.pc u := by
  simp [St.setPc, h]

/-- Moving a thread between `idle` and `loaded` keeps the invariant. -/
theorem inv_setPc {s : St} (h : Inv s) (t : Nat) (p : PC) (hp : p.isExt = false)
    (hpa : p ≠ .aborted) (ho : (s.pc t).isExt = false) : Inv (s.setPc t p) := by
  obtain ⟨T, R, C, h1, h2, h3, h4, h5, h6, h7, h8, h9, h10, h11⟩ := h.main
  refine ⟨⟨T, R, C, h1, h2, h3, h4, h5, ?_, h7, h8, ?_, ?_, ?_⟩, h.nodup⟩
  · intro u
    by_cases hu : u = t
    · subst hu; rw [setPc_self]
      cases p <;> trivial
    · rw [setPc_ne s hu]
      have := h6 u
      cases e : s.pc u <;> rw [e] at this <;> exact this
  · intro hC
    obtain ⟨u, hu⟩ := h9 hC
    refine ⟨u, ?_⟩
    by_cases e : u = t
    · subst e; rw [ho] at hu; cases hu
    · rw [setPc_ne s e]; exact hu
  · intro u u' hu hu'
    by_cases e : u = t
    · subst e; rw [setPc_self, hp] at hu; cases hu
    · by_cases e' : u' = t
      · subst e'; rw [setPc_self, hp] at hu'; cases hu'
      · rw [setPc_ne s e] at hu
        rw [setPc_ne s e'] at hu'
        exact h10 u u' hu hu'
  · intro hst
    apply h11
    intro u
    by_cases e : u = t
    · subst e; exact isExt_of_isSt ho
    · have := hst u
      rwa [setPc_ne s e] at this

theorem ext_only (s : St) (t : Nat) (p : PC) (h : ∀ u, u ≠ t → (s.pc u).isExt = false) :
    ∀ u u', ((s.setPc t p).pc u).isExt = true → ((s.setPc t p).pc u').isExt = true → u = u' := by
  have aux : ∀ v, ((s.setPc t p).pc v).isExt = true → v = t := by
    intro v hv
    by_contra hne
    rw [setPc_ne _ hne, h v hne] at hv; cases hv
  intro u u' hu hu'
  rw [aux u hu, aux u' hu']

theorem step_inv {s : St} (h : Inv s) (t : Nat) (fail : Bool) (ho : (step s t fail).oob = false) :
    Inv (step s t fail) := by
  obtain ⟨T, R, C, h1, h2, h3, h4, h5, h6, h7, h8, h9, h10, h11⟩ := h.main
  have hT : T < 504 := h2
  have hpc := h6 t
  cases e : s.pc t with
  | idle =>
    have : tabOf s.cnt < arrCap := by
      rw [h1, tabOf_enc (by omega) (by omega) (by omega)]; unfold arrCap; omega
    simp only [step, e, this, if_true]
    exact inv_setPc h t _ rfl (by simp) (by rw [e]; rfl)
  | aborted => rw [e] at hpc; exact hpc.elim
  | loaded cur =>
    have hidle : Inv (s.setPc t .idle) := inv_setPc h t _ rfl (by simp) (by rw [e]; rfl)
    by_cases hc : colOf cur < arrCap
    · by_cases hcas : s.cnt = cur ∧ fail = false
      · -- the CAS succeeds
        have hcur : cur = enc T R C := by rw [← hcas.1, h1]
        have hC : C < 512 := by
          rw [hcur, colOf_enc (by omega)] at hc; exact hc
        have hnoext : ∀ u, (s.pc u).isExt = false := by
          intro u
          cases hu : (s.pc u).isExt with
          | false => rfl
          | true => have := isExt_pcOK (h6 u) hu; omega
        have hnew : cur + 1 = enc T R (C + 1) := by rw [hcur]; unfold enc; omega
        have hcol : colOf (cur + 1) = C + 1 := by rw [hnew, colOf_enc (by omega)]
        have hrk : (if C = 512 then 511 else C) = C := by simp; omega
        rw [hrk] at h7 h8
        have hnot : cur ∉ s.out := by
          intro hm
          have := h7 _ hm
          rw [hcur] at this
          exact not_issued h3 hC this
        have hiss : Issued (rank T R C + 1) cur :=
          ⟨T, R, C, hcur, h2, h3, hC, by omega⟩
        by_cases hfull : colOf (cur + 1) < arrCap
        · -- returned immediately
          have hC1 : C + 1 < 512 := by rw [hcol] at hfull; exact hfull
          have hst : step s t fail = ({ s with cnt := cur + 1 } : St).ret t cur := by
            simp only [step, e, hc, hcas, if_true, hfull, and_self]
          rw [hst]
          have hrk1 : (if C + 1 = 512 then 511 else C + 1) = C + 1 := by
            simp; omega
          have hr1 : rank T R (C + 1) = rank T R C + 1 := by unfold rank; omega
          refine ⟨⟨T, R, C + 1, hnew, h2, h3, by omega, h5, ?_, ?_, ?_, ?_, ?_,
            fun _ => h11 (fun u => isExt_of_isSt (hnoext u))⟩, ?_⟩
          · intro u
            by_cases hu : u = t
            · subst hu; simp [St.ret, St.setPc, PcOK]
            · have hp := h6 u
              have hx := hnoext u
              simp only [St.ret, St.setPc, hu, if_false]
              cases e' : s.pc u <;> rw [e'] at hp hx <;> simp [PC.isExt] at hx <;> trivial
          · rw [hrk1, hr1]
            intro id hid
            simp only [St.ret, St.setPc, List.mem_cons] at hid
            rcases hid with hid | hid
            · subst hid; exact hiss
            · exact issued_mono (h7 id hid) (by omega)
          · rw [hrk1, hr1]; simp [St.ret, St.setPc, h8]
          · intro hh; omega
          · intro u u' hu
            exfalso
            by_cases e' : u = t
            · subst e'; simp [St.ret, St.setPc, PC.isExt] at hu
            · simp [St.ret, St.setPc, e'] at hu; rw [hnoext u] at hu; cases hu
          · simp only [St.ret, St.setPc, List.nodup_cons]
            exact ⟨hnot, h.nodup⟩
        · have hC1 : C = 511 := by rw [hcol] at hfull; unfold arrCap at hfull; omega
          subst hC1
          have hnew2 : cur + 1 + rowUnit = enc T (R + 1) 512 := by
            rw [hnew]; unfold enc rowUnit; omega
          have hrow : rowOf (cur + 1 + rowUnit) = R + 1 := by
            rw [hnew2, rowOf_enc (by omega) (by omega)]
          have key : ∀ p : PC, p.isExt = true →
              PcOK (({ s with cnt := cur + 1 } : St).setPc t p) T R 512 p →
              Inv (({ s with cnt := cur + 1 } : St).setPc t p) := by
            intro p hp hpo
            refine ⟨⟨T, R, 512, hnew, h2, h3, by omega, h5, ?_, ?_, ?_, ?_, ?_,
              fun _ => h11 (fun u => isExt_of_isSt (hnoext u))⟩, h.nodup⟩
            · intro u
              by_cases hu : u = t
              · subst hu; rw [setPc_self]; exact hpo
              · have hq := h6 u
                have hx := hnoext u
                rw [setPc_ne _ hu]
                cases e' : s.pc u <;> rw [e'] at hq hx <;> simp [PC.isExt] at hx <;> trivial
            · simpa [St.setPc] using h7
            · simpa [St.setPc] using h8
            · intro _; exact ⟨t, by rw [setPc_self]; exact hp⟩
            · intro u u' hu hu'
              have aux : ∀ v, ((({ s with cnt := cur + 1 } : St).setPc t p).pc v).isExt = true →
                  v = t := by
                intro v hv
                by_contra hne
                rw [setPc_ne _ hne] at hv
                have := hnoext v
                simp only at hv
                rw [this] at hv; cases hv
              rw [aux u hu, aux u' hu']
          by_cases hr : rowOf (cur + 1 + rowUnit) < arrCap
          · have hst : step s t fail =
                ({ s with cnt := cur + 1 } : St).setPc t (.extRow cur (cur + 1 + rowUnit)) := by
              simp only [step, e, hc, hcas, if_true, hfull, if_false, hr, and_self]
            rw [hst]
            apply key _ rfl
            refine ⟨rfl, ?_, hcur, hnew2⟩
            rw [hrow] at hr; exact hr
          · have hst : step s t fail =
                ({ s with cnt := cur + 1 } : St).setPc t (.extTab cur (cur + 1 + rowUnit)) := by
              simp only [step, e, hc, hcas, if_true, hfull, if_false, hr, and_self]
            rw [hst]
            have hR : R + 1 = 512 := by rw [hrow] at hr; unfold arrCap at hr; omega
            apply key _ rfl
            exact ⟨rfl, hR, hcur, by rw [hnew2, hR]⟩
      · have hst : step s t fail = s.setPc t .idle := by
          simp only [step, e, hc, hcas, if_true, if_false]
        rw [hst]; exact hidle
    · have hst : step s t fail = s.setPc t .idle := by simp only [step, e, hc, if_false]
      rw [hst]; exact hidle
  | extRow cur new =>
    rw [e] at hpc
    obtain ⟨p1, p2, p3, p4⟩ := hpc
    have htab : tabOf new = T := by rw [p4, tabOf_enc (by omega) (by omega) (by omega)]
    have hrow : rowOf new = R + 1 := by rw [p4, rowOf_enc (by omega) (by omega)]
    have honly : ∀ u, u ≠ t → (s.pc u).isExt = false := by
      intro u hu
      cases hx : (s.pc u).isExt with
      | false => rfl
      | true => exact absurd (h10 u t hx (by rw [e]; rfl)) hu
    simp only [step, e, htab, hrow]
    have hpages : s.pages = T * 513 + R + 3 := by
      apply h11
      intro u
      by_cases hu : u = t
      · subst hu; rw [e]; rfl
      · exact isExt_of_isSt (honly u hu)
    refine ⟨⟨T, R, C, h1, h2, h3, h4, ?_, ?_, h7, h8, ?_, ?_, ?_⟩, h.nodup⟩
    · intro a b hab
      obtain ⟨q1, q2⟩ := h5 a b hab
      refine ⟨q1, ?_⟩
      simp only [St.setPc]
      split
      · rfl
      · exact q2
    · intro u
      by_cases hu : u = t
      · subst hu; rw [setPc_self]; exact ⟨p1, p2, p3, p4, by simp [St.setPc], by simp [St.setPc, hpages]⟩
      · have hq := h6 u
        have hx := honly u hu
        rw [setPc_ne _ hu]
        cases e' : s.pc u <;> rw [e'] at hq hx <;> simp [PC.isExt] at hx <;> trivial
    · intro _; exact ⟨t, by rw [setPc_self]; rfl⟩
    · exact ext_only _ t _ honly
    · intro hst
      have := hst t
      rw [setPc_self] at this; cases this
  | extRowSt cur new =>
    rw [e] at hpc
    obtain ⟨p1, p2, p3, p4, p5, p6⟩ := hpc
    have hcl : new / rowUnit * rowUnit = enc T (R + 1) 0 := by
      rw [p4]; unfold enc rowUnit; omega
    have honly : ∀ u, u ≠ t → (s.pc u).isExt = false := by
      intro u hu
      cases hx : (s.pc u).isExt with
      | false => rfl
      | true => exact absurd (h10 u t hx (by rw [e]; rfl)) hu
    have hrk : (if C = 512 then 511 else C) = 511 := by simp [p1]
    rw [hrk] at h7 h8
    have hr1 : rank T (R + 1) 0 = rank T R 511 + 1 := by unfold rank; omega
    have hst : step s t fail = ({ s with cnt := enc T (R + 1) 0 } : St).ret t cur := by
      simp only [step, e, hcl]
    rw [hst]
    refine ⟨⟨T, R + 1, 0, rfl, h2, p2, by omega, ?_, ?_, ?_, ?_, ?_, ?_, fun _ => ?_⟩, ?_⟩
    · intro a b hab
      by_cases hb : a = T ∧ b = R + 1
      · obtain ⟨rfl, rfl⟩ := hb
        exact ⟨(h5 a R (Or.inr ⟨rfl, by omega⟩)).1, p5⟩
      · exact h5 a b (by omega)
    · intro u
      by_cases hu : u = t
      · subst hu; simp [St.ret, St.setPc, PcOK]
      · have hq := h6 u
        have hx := honly u hu
        simp only [St.ret, St.setPc, hu, if_false]
        cases e' : s.pc u <;> rw [e'] at hq hx <;> simp [PC.isExt] at hx <;> trivial
    · intro id hid
      simp only [show (if (0 : Nat) = 512 then 511 else 0) = 0 from rfl, hr1]
      simp only [St.ret, St.setPc, List.mem_cons] at hid
      rcases hid with hid | hid
      · subst hid; exact ⟨T, R, 511, p3, h2, h3, by omega, by omega⟩
      · exact issued_mono (h7 id hid) (by omega)
    · simp only [show (if (0 : Nat) = 512 then 511 else 0) = 0 from rfl, hr1]
      simp [St.ret, St.setPc, h8]
    · intro hh; omega
    · intro u u' hu
      exfalso
      by_cases e' : u = t
      · subst e'; simp [St.ret, St.setPc, PC.isExt] at hu
      · simp [St.ret, St.setPc, e'] at hu; rw [honly u e'] at hu; cases hu
    · simp only [St.ret, St.setPc, p6]; omega
    · simp only [St.ret, St.setPc, List.nodup_cons]
      refine ⟨?_, h.nodup⟩
      intro hm
      have := h7 _ hm
      rw [p3] at this
      exact not_issued h3 (by omega) this
  | extTab cur new =>
    rw [e] at hpc
    obtain ⟨p1, p2, p3, p4⟩ := hpc
    have hnew : new + tabUnit = enc (T + 1) 512 512 := by rw [p4]; unfold enc tabUnit; omega
    have htab : tabOf (new + tabUnit) = T + 1 := by
      rw [hnew, tabOf_enc (by omega) (by omega) (by omega)]
    have hT1 : T + 1 < tabCap := by
      simp only [step, e, htab, St.setPc] at ho
      simp at ho; exact ho.2
    have honly : ∀ u, u ≠ t → (s.pc u).isExt = false := by
      intro u hu
      cases hx : (s.pc u).isExt with
      | false => rfl
      | true => exact absurd (h10 u t hx (by rw [e]; rfl)) hu
    simp only [step, e, htab]
    have hpages : s.pages = T * 513 + R + 3 := by
      apply h11
      intro u
      by_cases hu : u = t
      · subst hu; rw [e]; rfl
      · exact isExt_of_isSt (honly u hu)
    refine ⟨⟨T, R, C, h1, h2, h3, h4, ?_, ?_, h7, h8, ?_, ?_, ?_⟩, h.nodup⟩
    · intro a b hab
      obtain ⟨q1, q2⟩ := h5 a b hab
      have ha : a ≠ T + 1 := by omega
      simp only [St.setPc, ha, if_false]
      exact ⟨q1, q2⟩
    · intro u
      by_cases hu : u = t
      · subst hu; rw [setPc_self]
        exact ⟨p1, p2, p3, hnew, hT1, by simp [St.setPc], by simp [St.setPc],
          by simp [St.setPc, hpages]⟩
      · have hq := h6 u
        have hx := honly u hu
        rw [setPc_ne _ hu]
        cases e' : s.pc u <;> rw [e'] at hq hx <;> simp [PC.isExt] at hx <;> trivial
    · intro _; exact ⟨t, by rw [setPc_self]; rfl⟩
    · exact ext_only _ t _ honly
    · intro hst
      have := hst t
      rw [setPc_self] at this; cases this
  | extTabSt cur new =>
    rw [e] at hpc
    obtain ⟨p1, p2, p3, p4, p5, p6, p7, p8⟩ := hpc
    have hcl : new / tabUnit * tabUnit = enc (T + 1) 0 0 := by
      rw [p4]; unfold enc tabUnit; omega
    have honly : ∀ u, u ≠ t → (s.pc u).isExt = false := by
      intro u hu
      cases hx : (s.pc u).isExt with
      | false => rfl
      | true => exact absurd (h10 u t hx (by rw [e]; rfl)) hu
    have hrk : (if C = 512 then 511 else C) = 511 := by simp [p1]
    rw [hrk] at h7 h8
    have hr1 : rank (T + 1) 0 0 = rank T R 511 + 1 := by unfold rank; omega
    have hst : step s t fail = ({ s with cnt := enc (T + 1) 0 0 } : St).ret t cur := by
      simp only [step, e, hcl]
    rw [hst]
    refine ⟨⟨T + 1, 0, 0, rfl, p5, by omega, by omega, ?_, ?_, ?_, ?_, ?_, ?_, fun _ => ?_⟩, ?_⟩
    · intro a b hab
      by_cases hb : a = T + 1
      · subst hb
        have : b = 0 := by omega
        subst this
        exact ⟨p6, p7⟩
      · exact h5 a b (by omega)
    · intro u
      by_cases hu : u = t
      · subst hu; simp [St.ret, St.setPc, PcOK]
      · have hq := h6 u
        have hx := honly u hu
        simp only [St.ret, St.setPc, hu, if_false]
        cases e' : s.pc u <;> rw [e'] at hq hx <;> simp [PC.isExt] at hx <;> trivial
    · intro id hid
      simp only [show (if (0 : Nat) = 512 then 511 else 0) = 0 from rfl, hr1]
      simp only [St.ret, St.setPc, List.mem_cons] at hid
      rcases hid with hid | hid
      · subst hid; exact ⟨T, R, 511, p3, h2, h3, by omega, by omega⟩
      · exact issued_mono (h7 id hid) (by omega)
    · simp only [show (if (0 : Nat) = 512 then 511 else 0) = 0 from rfl, hr1]
      simp [St.ret, St.setPc, h8]
    · intro hh; omega
    · intro u u' hu
      exfalso
      by_cases e' : u = t
      · subst e'; simp [St.ret, St.setPc, PC.isExt] at hu
      · simp [St.ret, St.setPc, e'] at hu; rw [honly u e'] at hu; cases hu
    · simp only [St.ret, St.setPc, p8]; omega
    · simp only [St.ret, St.setPc, List.nodup_cons]
      refine ⟨?_, h.nodup⟩
      intro hm
      have := h7 _ hm
      rw [p3] at this
      exact not_issued h3 (by omega) this

theorem step_oob_mono (s : St) (t : Nat) (fail : Bool) (h : (step s t fail).oob = false) :
    s.oob = false := by
  cases ho : s.oob with
  | false => rfl
  | true =>
    exfalso
    have : (step s t fail).oob = true := by
      unfold step
      split
      · split <;> simpa [St.setPc] using ho
      · exact ho
      · split
        · split
          · simp only
            split
            · simpa [St.ret, St.setPc] using ho
            · split <;> simpa [St.setPc] using ho
          · simpa [St.setPc] using ho
        · simpa [St.setPc] using ho
      · simp [St.setPc, ho]
      · simpa [St.ret, St.setPc] using ho
      · simp [St.setPc, ho]
      · simpa [St.ret, St.setPc] using ho
    rw [this] at h; cases h

theorem reachable_inv {s : St} (h : Reachable s) : s.oob = false → Inv s := by
  induction h with
  | init => intro _; exact init_inv
  | step h t fail ih => intro ho; exact step_inv (ih (step_oob_mono _ t fail ho)) t fail ho

end BwTree.MapTable
