import Verif.Mem.Inv

/-!
# The memory invariant is preserved (proof side)
-/

namespace BwTree.Mem

open BwTree.Gc (Obj Act Loose)

set_option linter.unusedSectionVars false

variable {K V : Type} [LinearOrder K] {cfg : Cfg K}
variable {P P' : PSt K V} {mt mt' : PID → Option (Chain K V)}

theorem idle_upd {th : Nat → TSt K V} {t : Nat} {c : Spec.Call K V} {p p' : Prog K V (Out K V)}
    (ht : th t = .run c p) : ∀ u, upd th t (.run c p') u = .idle ↔ th u = .idle := by
  intro u
  by_cases e : u = t
  · subst e
    rw [upd_same, ht]
    constructor <;> intro h <;> cases h
  · rw [upd_ne _ _ e]

theorem loose_congr {g g' : Gc.St} {o : Obj} (e : g'.loc o = g.loc o) : Loose g' o ↔ Loose g o := by
  simp only [Loose, e]

theorem MInv.guard_ne (h : MInv P mt) {t : Nat} {c : Spec.Call K V} {p : Prog K V (Out K V)}
    (ht : P.th t = .run c p) : P.gc.guard t ≠ none :=
  h.run t (by rw [ht]; intro e; cases e)

theorem MInv.not_idle {t : Nat} {c : Spec.Call K V} {p : Prog K V (Out K V)}
    (ht : P.th t = .run c p) {α : Prop} : P.th t = .idle → α := fun e => by rw [ht] at e; cases e

/-- Steps that leave the mapping table and the objects alone. -/
theorem MInv.local (h : MInv P mt) {t : Nat} {c : Spec.Call K V} {p p' : Prog K V (Out K V)}
    (ht : P.th t = .run c p) (hth : P'.th = upd P.th t (.run c p'))
    (hq : QStep P.gc P'.gc) (hmem : P'.mem = P.mem) (hfr : ∀ u, u ≠ t → P'.fr u = P.fr u)
    (hsl : P'.gc.slot = P.gc.slot) (hre : P'.gc.rem = P.gc.rem) (hlo : P'.gc.loc = P.gc.loc)
    (hca : P'.cellAt = P.cellAt)
    (hhd : ∀ p c x, (p, c, x) ∈ (P'.fr t).hd → (p, c, x) ∈ (P.fr t).hd ∨ HdOk P' t c x)
    (hrs : (P'.fr t).rems = (P.fr t).rems)
    (hnew' : ∀ p, p ∈ (P'.fr t).new → (p ∈ (P.fr t).new ∨ (P.npid : Nat) ≤ p) ∧
      (p : Nat) < P'.npid ∧ P'.gc.slot p = none)
    (hnewNd : (P'.fr t).new.Nodup) (hnp : (P.npid : Nat) ≤ P'.npid)
    (hcs : ∀ w, w ∈ (P'.fr t).cs → (w ∈ (P.fr t).cs ∨ P.ncell ≤ w) ∧ w < P'.ncell ∧
      P'.cellAt w = none)
    (hcsNd : (P'.fr t).cs.Nodup) (hnc : P.ncell ≤ P'.ncell) : MInv P' mt := by
  refine h.step t hq ?_ ?_ hfr (MInv.not_idle ht) ?_ ?_ ?_ hhd ?_ ?_ ?_ ?_ hnew' hnewNd hnp hcs hcsNd
    hnc ?_ ?_
  · rw [hmem]; exact MemKeep.rfl
  · rw [hth]; exact idle_upd ht
  · intro p x hx; rw [hsl] at hx; exact Or.inl ⟨hx, rfl⟩
  · intro p hp; rw [hsl] at hp; exact ⟨hp, rfl⟩
  · intro p hp; rw [hsl]; exact Or.inl hp
  · rw [hrs]; exact h.remNd t
  · intro p m hx; rw [hrs] at hx; rw [hre]; exact Or.inl ⟨hx, rfl⟩
  · intro p r _; rw [hre]
  · intro p r hr hp
    rw [hre] at hp
    rw [hrs, ← hr]
    exact h.remIn p r hp
  · intro w; rw [hca]; exact Or.inl rfl
  · intro o ho
    exact Or.inl fun hl => ho ((loose_congr (by rw [hlo])).2 hl)

theorem MInv.new_self (h : MInv P mt) (t : Nat) : ∀ p, p ∈ (P.fr t).new →
    (p ∈ (P.fr t).new ∨ (P.npid : Nat) ≤ p) ∧ (p : Nat) < P.npid ∧ P.gc.slot p = none :=
  fun p hp => ⟨Or.inl hp, (h.new t p hp).2, (h.new t p hp).1⟩

theorem MInv.cs_self (h : MInv P mt) (t : Nat) : ∀ w, w ∈ (P.fr t).cs →
    (w ∈ (P.fr t).cs ∨ P.ncell ≤ w) ∧ w < P.ncell ∧ P.cellAt w = none :=
  fun w hw => ⟨Or.inl hw, (h.cs t w hw).2, (h.cs t w hw).1⟩

/-- No local variable changes. -/
theorem MInv.quiet (h : MInv P mt) {t : Nat} {c : Spec.Call K V} {p p' : Prog K V (Out K V)}
    (ht : P.th t = .run c p) (r : PID) (cells : Nat → PID) :
    MInv { P with root := r, cells := cells, th := upd P.th t (.run c p') } mt :=
  h.local ht rfl (Or.inl rfl) rfl (fun _ _ => rfl) rfl rfl rfl rfl (fun _ _ _ hx => Or.inl hx) rfl
    (h.new_self t) (h.newNd t) (Nat.le_refl _) (h.cs_self t) (h.csNd t) (Nat.le_refl _)

/-- Only `chk` changes. -/
theorem MInv.setChk (h : MInv P mt) {t : Nat} {c : Spec.Call K V} {p p' : Prog K V (Out K V)}
    (ht : P.th t = .run c p) (x : Option (PID × Chain K V × Obj)) :
    MInv { P with fr := upd P.fr t { P.fr t with chk := x }, th := upd P.th t (.run c p') } mt := by
  refine h.local ht rfl (Or.inl rfl) rfl (fun u hu => upd_ne _ _ hu) rfl rfl rfl rfl ?_ ?_ ?_ ?_
    (Nat.le_refl _) ?_ ?_ (Nat.le_refl _) <;> simp only [upd_same]
  · exact fun _ _ _ hx => Or.inl hx
  · exact h.new_self t
  · exact h.newNd t
  · exact h.cs_self t
  · exact h.csNd t

theorem MInv.newPid (h : MInv P mt) {t : Nat} {c : Spec.Call K V} {p p' : Prog K V (Out K V)}
    (ht : P.th t = .run c p) :
    MInv { P with npid := P.npid + 1, fr := upd P.fr t ((P.fr t).pid P.npid),
                  th := upd P.th t (.run c p') } mt := by
  refine h.local ht rfl (Or.inl rfl) rfl (fun u hu => upd_ne _ _ hu) rfl rfl rfl rfl ?_ ?_ ?_ ?_
    (Nat.le_succ _) ?_ ?_ (Nat.le_refl _) <;> simp only [upd_same]
  · exact fun _ _ _ hx => Or.inl hx
  · rfl
  · intro q hq
    rcases List.mem_cons.1 hq with e | hq
    · subst e
      exact ⟨Or.inr (Nat.le_refl _), Nat.lt_succ_self _, h.fresh _ (Nat.le_refl _)⟩
    · obtain ⟨a, b, c⟩ := h.new_self t q hq
      exact ⟨a, Nat.lt_succ_of_lt b, c⟩
  · refine List.nodup_cons.2 ⟨fun hq => ?_, h.newNd t⟩
    exact Nat.lt_irrefl _ (h.new t _ hq).2
  · exact h.cs_self t
  · exact h.csNd t

theorem MInv.newCell (h : MInv P mt) {t : Nat} {c : Spec.Call K V} {p p' : Prog K V (Out K V)}
    (ht : P.th t = .run c p) (cells : Nat → PID) :
    MInv { P with ncell := P.ncell + 1, cells := cells, fr := upd P.fr t ((P.fr t).cell P.ncell),
                  th := upd P.th t (.run c p') } mt := by
  refine h.local ht rfl (Or.inl rfl) rfl (fun u hu => upd_ne _ _ hu) rfl rfl rfl rfl ?_ ?_ ?_ ?_
    (Nat.le_refl _) ?_ ?_ (Nat.le_succ _) <;> simp only [upd_same]
  · exact fun _ _ _ hx => Or.inl hx
  · rfl
  · exact h.new_self t
  · exact h.newNd t
  · intro q hq
    rcases List.mem_cons.1 hq with e | hq
    · subst e
      exact ⟨Or.inr (Nat.le_refl _), Nat.lt_succ_self _, h.cellFresh _ (Nat.le_refl _)⟩
    · obtain ⟨a, b, c⟩ := h.cs_self t q hq
      exact ⟨a, Nat.lt_succ_of_lt b, c⟩
  · refine List.nodup_cons.2 ⟨fun hq => ?_, h.csNd t⟩
    exact Nat.lt_irrefl _ (h.cs t _ hq).2

/-- What a load finds. -/
theorem MInv.loaded (h : MInv P mt) {p : PID} {x : Obj} {ch : Chain K V} {l : List Obj}
    (hs : P.gc.slot p = some x) (hR : Repr P.mem x ch l) :
    mt p = some ch ∧ l = P.gc.below x ∧ SlotOk P ch x := by
  obtain ⟨c, e, hc⟩ := h.slot p x hs
  obtain ⟨rfl, rfl⟩ := hc.1.unique hR
  exact ⟨e, rfl, hc⟩

theorem eff_load {g : Gc.St} {t p : Nat} {x : Obj} (hs : g.slot p = some x) :
    Gc.eff g (.load t p) = { g with held := Gc.set g.held t ((x, g.below x) :: g.held t) } := by
  simp only [Gc.eff, hs]

theorem MInv.load (h : MInv P mt) {t : Nat} {c : Spec.Call K V} {p : PID}
    {q p' : Prog K V (Out K V)} {x : Obj} {ch : Chain K V} {l : List Obj} (ht : P.th t = .run c q)
    (hs : P.gc.slot p = some x) (hR : Repr P.mem x ch l) :
    MInv { P with gc := Gc.eff P.gc (.load t p), fr := upd P.fr t ((P.fr t).load p ch x),
                  th := upd P.th t (.run c p') } mt := by
  have hq : QStep P.gc (Gc.eff P.gc (.load t p)) :=
    QStep.act (a := .load t p) trivial (by show P.gc.slot p ≠ none; rw [hs]; simp)
  rw [eff_load hs] at hq ⊢
  refine h.local ht rfl hq rfl (fun u hu => upd_ne _ _ hu) rfl rfl rfl rfl ?_ ?_ ?_ ?_
    (Nat.le_refl _) ?_ ?_ (Nat.le_refl _) <;> simp only [upd_same]
  · intro p1 c1 x1 hx
    rcases List.mem_cons.1 hx with e | hx
    · right
      have e1 : c1 = ch := congrArg (fun z => z.2.1) e
      have e2 : x1 = x := congrArg (fun z => z.2.2) e
      subst e1 e2
      refine ⟨⟨P.gc.below x1, ?_⟩, (h.loaded hs hR).2.2.1⟩
      show _ ∈ Gc.set _ _ _ _
      rw [Gc.set_same]
      exact List.mem_cons_self ..
    · exact Or.inl hx
  · rfl
  · exact h.new_self t
  · exact h.newNd t
  · exact h.cs_self t
  · exact h.csNd t

/-- What a thread that expects `x` at `p` knows when it finds it. -/
theorem MInv.expect (h : MInv P mt) {t : Nat} {p : PID} {o : Chain K V} {x : Obj}
    (hx : (p, o, x) ∈ (P.fr t).hd) (hs : P.gc.slot p = some x) : mt p = some o ∧ SlotOk P o x := by
  have := h.loaded hs (h.hd t p o x hx).2
  exact ⟨this.1, this.2.2⟩

/-- The slots other than the one written. -/
theorem slot_cases {p : PID} {x : Obj} {n : Chain K V} (hsl : P'.gc.slot = Gc.set P.gc.slot p (some x))
    (hmt : mt' = upd mt p (some n)) (hn : SlotOk P' n x) :
    (∀ q y, P'.gc.slot q = some y → (P.gc.slot q = some y ∧ mt' q = mt q) ∨
      ∃ c, mt' q = some c ∧ SlotOk P' c y) ∧
    (∀ q, P'.gc.slot q = none → P.gc.slot q = none ∧ mt' q = mt q) := by
  subst hmt
  constructor
  · intro q y hy
    rw [hsl] at hy
    by_cases e : q = p
    · subst e
      rw [Gc.set_same] at hy
      obtain rfl := Option.some.inj hy
      exact Or.inr ⟨n, upd_same _ _ _, hn⟩
    · rw [Gc.set_other _ _ e] at hy
      exact Or.inl ⟨hy, upd_ne _ _ e⟩
  · intro q hq
    rw [hsl] at hq
    by_cases e : q = p
    · subst e
      rw [Gc.set_same] at hq
      cases hq
    · rw [Gc.set_other _ _ e] at hq
      exact ⟨hq, upd_ne _ _ e⟩

theorem slot_new {p : PID} {x : Obj} {new : List PID}
    (hsl : P'.gc.slot = Gc.set P.gc.slot p (some x))
    (hp : P.gc.slot p ≠ none ∨ p ∈ new) :
    ∀ q, P.gc.slot q = none → P'.gc.slot q = none ∨ q ∈ new := by
  intro q hq
  rw [hsl]
  by_cases e : q = p
  · subst e
    exact Or.inr (hp.resolve_left fun h => h hq)
  · rw [Gc.set_other _ _ e]
    exact Or.inl hq

/-- Removals do not change. -/
theorem MInv.rems_self (h : MInv P mt) {t : Nat} (hre : P'.gc.rem = P.gc.rem)
    (hrs : (P'.fr t).rems = (P.fr t).rems) :
    ((P'.fr t).rems.map Prod.fst).Nodup ∧
    (∀ p m, (p, m) ∈ (P'.fr t).rems → ((p, m) ∈ (P.fr t).rems ∧ P'.gc.rem p = P.gc.rem p) ∨
      ∃ mk y, P'.gc.rem p = some ⟨t, mk, y⟩ ∧ P'.mem y = .node m) ∧
    (∀ p r, r.t ≠ t → (P.gc.rem p = some r ↔ P'.gc.rem p = some r)) ∧
    (∀ p r, r.t = t → P'.gc.rem p = some r → ∃ m, (p, m) ∈ (P'.fr t).rems) := by
  refine ⟨?_, ?_, ?_, ?_⟩
  · rw [hrs]; exact h.remNd t
  · intro p m hx; rw [hrs] at hx; rw [hre]; exact Or.inl ⟨hx, rfl⟩
  · intro p r _; rw [hre]
  · intro p r hr hp
    rw [hre] at hp
    rw [hrs, ← hr]
    exact h.remIn p r hp

/-- The innermost removal ends. -/
theorem MInv.rems_pop (h : MInv P mt) {t : Nat} {q : PID} {m : Node K V} {rs} {mk y : Obj}
    (hq : P.gc.rem q = some ⟨t, mk, y⟩) (hr : (P.fr t).rems = (q, m) :: rs)
    (hre : P'.gc.rem = Gc.set P.gc.rem q none) (hrs : (P'.fr t).rems = rs) :
    ((P'.fr t).rems.map Prod.fst).Nodup ∧
    (∀ p m, (p, m) ∈ (P'.fr t).rems → ((p, m) ∈ (P.fr t).rems ∧ P'.gc.rem p = P.gc.rem p) ∨
      ∃ mk y, P'.gc.rem p = some ⟨t, mk, y⟩ ∧ P'.mem y = .node m) ∧
    (∀ p r, r.t ≠ t → (P.gc.rem p = some r ↔ P'.gc.rem p = some r)) ∧
    (∀ p r, r.t = t → P'.gc.rem p = some r → ∃ m, (p, m) ∈ (P'.fr t).rems) := by
  have hnd := h.remNd t
  rw [hr, List.map_cons, List.nodup_cons] at hnd
  refine ⟨?_, ?_, ?_, ?_⟩
  · rw [hrs]; exact hnd.2
  · intro p m' hx
    rw [hrs] at hx
    have : p ≠ q := by
      rintro rfl
      exact hnd.1 (List.mem_map.2 ⟨_, hx, rfl⟩)
    rw [hre, Gc.set_other _ _ this, hr]
    exact Or.inl ⟨List.mem_cons_of_mem _ hx, rfl⟩
  · intro p r hn
    rw [hre]
    by_cases e : p = q
    · subst e
      rw [Gc.set_same, hq]
      constructor
      · intro e
        have := Option.some.inj e
        subst this
        exact absurd rfl hn
      · intro e; cases e
    · rw [Gc.set_other _ _ e]
  · intro p r hn hp
    rw [hre] at hp
    by_cases e : p = q
    · subst e
      rw [Gc.set_same] at hp; cases hp
    · rw [Gc.set_other _ _ e] at hp
      obtain ⟨m', hm'⟩ := h.remIn p r hp
      rw [hn, hr] at hm'
      rw [hrs]
      rcases List.mem_cons.1 hm' with e' | hm'
      · exact absurd (congrArg Prod.fst e') e
      · exact ⟨m', hm'⟩

/-- The word of a published delta. -/
theorem obj_cases {x : Obj} (hloc : ∀ o, o ≠ x → ¬ Loose P'.gc o → ¬ Loose P.gc o)
    (hx : ∀ d n w, P'.mem x = .delta d n → d.pay = .cell w → P'.cellAt w = some x) :
    ∀ o, ¬ Loose P'.gc o → ¬ Loose P.gc o ∨
      ∀ d x w, P'.mem o = .delta d x → d.pay = .cell w → P'.cellAt w = some o := by
  intro o ho
  by_cases e : o = x
  · subst e
    exact Or.inr hx
  · exact Or.inl (hloc o e ho)

theorem not_mem_priv {g : Gc.St} (hr : Gc.Reachable g) {p t : Nat} {h x : Obj}
    (hs : g.slot p = some h) (hx : g.loc x = .priv t) : x ∉ h :: g.below h := by
  intro hm
  have := hr.inv.pub p h hs x hm
  rw [hx] at this
  cases this

/-- Facts about `push`, for deltas without and with a word. -/
theorem MInv.push (h : MInv P mt) {t : Nat} {c : Spec.Call K V} {p : PID} {o : Chain K V}
    {d : Delta K V} {q p' : Prog K V (Out K V)} {x y : Obj} {ca : Nat → Option Obj} {cs : List Nat}
    (ht : P.th t = .run c q)
    (hh : (p, o, x) ∈ (P.fr t).hd) (hs : P.gc.slot p = some x) (hr : o.isRemoved = false)
    (hy : P.gc.loc y = .priv t) (hd : ∀ m, d.pay ≠ .node m)
    (hcw : ∀ w, d.pay = .cell w → ca w = some y)
    (hca : ∀ w, ca w = P.cellAt w ∨ w ∈ (P.fr t).cs)
    (hcs : ∀ w, w ∈ cs → w ∈ (P.fr t).cs ∧ ca w = none) (hcsn : cs.Nodup) :
    MInv { P with gc := Gc.eff P.gc (.push t p y x), mem := Gc.set P.mem y (.delta d x),
                  cellAt := ca,
                  fr := upd P.fr t { (P.fr t).push p (.delta d o) y with cs := cs },
                  th := upd P.th t (.run c p') } (upd mt p (some (.delta d o))) := by
  obtain ⟨hm, hok⟩ := h.expect hh hs
  have hpre : Gc.Pre P.gc (.push t p y x) :=
    ⟨h.guard_ne ht, (h.hd t p o x hh).1, hs, hok.2.trans hr, hy⟩
  have hny := not_mem_priv h.gcr hs hy
  have hxy : ∀ z ∈ x :: P.gc.below x, Gc.set P.mem y (.delta d x) z = P.mem z := fun z hz =>
    Gc.set_other _ _ (by rintro rfl; exact hny hz)
  have hrep : Repr (Gc.set P.mem y (.delta d x)) y (.delta d o)
      ((Gc.eff P.gc (.push t p y x)).below y) := by
    show Repr _ _ _ (Gc.set _ _ _ _)
    rw [Gc.set_same]
    exact .delta (Gc.set_same _ _ _) hd (hok.1.frame hxy)
  have hsl := slot_cases (P := P) (mt := mt)
    (P' := { P with gc := Gc.eff P.gc (.push t p y x), mem := Gc.set P.mem y (.delta d x),
                    cellAt := ca,
                    fr := upd P.fr t { (P.fr t).push p (.delta d o) y with cs := cs },
                    th := upd P.th t (.run c p') }) rfl rfl
    (n := .delta d o) (x := y) ⟨hrep, Gc.set_same _ _ _⟩
  have hrm := h.rems_self (t := t)
    (P' := { P with gc := Gc.eff P.gc (.push t p y x), mem := Gc.set P.mem y (.delta d x),
                    cellAt := ca,
                    fr := upd P.fr t { (P.fr t).push p (.delta d o) y with cs := cs },
                    th := upd P.th t (.run c p') }) rfl (by simp only [upd_same]; rfl)
  refine h.step t (QStep.act (a := .push t p y x) trivial hpre)
    (MemKeep.set (Or.inr (Or.inl ⟨t, hy⟩))) (idle_upd ht) (fun u hu => upd_ne _ _ hu)
    (MInv.not_idle ht) hsl.1 hsl.2 (slot_new (p := p) (x := y) rfl (Or.inl (by rw [hs]; simp))) ?_
    hrm.1 hrm.2.1 hrm.2.2.1 hrm.2.2.2 ?_ ?_ (Nat.le_refl _) ?_ ?_ (Nat.le_refl _) hca
    (obj_cases (x := y) ?_ ?_) <;> simp only [upd_same]
  · intro p1 c1 x1 hx
    rcases List.mem_cons.1 hx with e | hx
    · right
      have e1 : c1 = .delta d o := congrArg (fun z => z.2.1) e
      have e2 : x1 = y := congrArg (fun z => z.2.2) e
      subst e1 e2
      refine ⟨⟨P.gc.chain x, ?_⟩, hrep⟩
      show _ ∈ Gc.set _ _ _ _
      rw [Gc.set_same]
      exact List.mem_cons_self ..
    · exact Or.inl hx
  · intro q hq
    obtain ⟨a, b, e⟩ := h.new_self t q hq
    refine ⟨a, b, ?_⟩
    show Gc.set _ _ _ _ = _
    rw [Gc.set_other _ _ (by rintro rfl; rw [hs] at e; cases e)]
    exact e
  · exact h.newNd t
  · intro w hw
    obtain ⟨a, b⟩ := hcs w hw
    exact ⟨Or.inl a, (h.cs t w a).2, b⟩
  · exact hcsn
  · intro z hz hl hl'
    exact hl ((loose_congr (Gc.set_other _ _ hz)).2 hl')
  · intro d' n w hd' hw
    rw [Gc.set_same] at hd'
    cases hd'
    exact hcw w hw

/-- A node replaces the chain of a page. -/
theorem MInv.replace (h : MInv P mt) {t : Nat} {c : Spec.Call K V} {p : PID} {o : Chain K V}
    {n : Node K V} {q p' : Prog K V (Out K V)} {x y : Obj}
    (ht : P.th t = .run c q)
    (hh : (p, o, x) ∈ (P.fr t).hd) (hs : P.gc.slot p = some x) (hr : o.isRemoved = false)
    (hy : P.gc.loc y = .priv t) :
    MInv { P with gc := Gc.eff P.gc (.replace t p y x), mem := Gc.set P.mem y (.node n),
                  fr := upd P.fr t (P.fr t).fail,
                  th := upd P.th t (.run c p') } (upd mt p (some (.base n))) := by
  obtain ⟨hm, hok⟩ := h.expect hh hs
  have hpre : Gc.Pre P.gc (.replace t p y x) :=
    ⟨h.guard_ne ht, (h.hd t p o x hh).1, hs, hok.2.trans hr, hy⟩
  have hsl := slot_cases (P := P) (mt := mt)
    (P' := { P with gc := Gc.eff P.gc (.replace t p y x), mem := Gc.set P.mem y (.node n),
                    fr := upd P.fr t (P.fr t).fail, th := upd P.th t (.run c p') }) rfl rfl
    (n := .base n) (x := y)
    ⟨by show Repr _ _ _ (Gc.set _ _ _ _); rw [Gc.set_same]; exact .node (Gc.set_same _ _ _),
      Gc.set_same _ _ _⟩
  have hrm := h.rems_self (t := t)
    (P' := { P with gc := Gc.eff P.gc (.replace t p y x), mem := Gc.set P.mem y (.node n),
                    fr := upd P.fr t (P.fr t).fail, th := upd P.th t (.run c p') }) rfl
    (by simp only [upd_same]; rfl)
  refine h.step t (QStep.act (a := .replace t p y x) trivial hpre)
    (MemKeep.set (Or.inr (Or.inl ⟨t, hy⟩))) (idle_upd ht) (fun u hu => upd_ne _ _ hu)
    (MInv.not_idle ht) hsl.1 hsl.2 (slot_new (p := p) (x := y) rfl (Or.inl (by rw [hs]; simp))) ?_
    hrm.1 hrm.2.1 hrm.2.2.1 hrm.2.2.2 ?_ ?_ (Nat.le_refl _) ?_ ?_ (Nat.le_refl _)
    (fun _ => Or.inl rfl) (obj_cases (x := y) ?_ ?_) <;> simp only [upd_same]
  · exact fun _ _ _ hx => Or.inl hx
  · intro q hq
    obtain ⟨a, b, e⟩ := h.new_self t q hq
    refine ⟨a, b, ?_⟩
    show Gc.set _ _ _ _ = _
    rw [Gc.set_other _ _ (by rintro rfl; rw [hs] at e; cases e)]
    exact e
  · exact h.newNd t
  · exact h.cs_self t
  · exact h.csNd t
  · intro z hz hl
    by_cases hc : z ∈ P.gc.chain x
    · exact h.chain_loose hs hc
    · refine fun hl' => hl ((loose_congr ?_).2 hl')
      show Gc.set _ _ _ _ = _
      rw [Gc.set_other _ _ hz, Gc.move_out hc]
  · intro d' n w hd' hw
    rw [Gc.set_same] at hd'
    cases hd'

/-- A node is stored under a new page ID. -/
theorem MInv.publish (h : MInv P mt) {t : Nat} {c : Spec.Call K V} {p : PID}
    {n : Node K V} {q p' : Prog K V (Out K V)} {y : Obj}
    (ht : P.th t = .run c q) (hp : p ∈ (P.fr t).new) (hy : P.gc.loc y = .priv t) :
    MInv { P with gc := Gc.eff P.gc (.publish t p y), mem := Gc.set P.mem y (.node n),
                  fr := upd P.fr t ((P.fr t).pub p (.base n) y),
                  th := upd P.th t (.run c p') } (upd mt p (some (.base n))) := by
  have hpre : Gc.Pre P.gc (.publish t p y) := ⟨(h.new t p hp).1, hy⟩
  have hrep : Repr (Gc.set P.mem y (.node n)) y (.base n)
      ((Gc.eff P.gc (.publish t p y)).below y) := by
    show Repr _ _ _ (Gc.set _ _ _ _)
    rw [Gc.set_same]
    exact .node (Gc.set_same _ _ _)
  have hsl := slot_cases (P := P) (mt := mt)
    (P' := { P with gc := Gc.eff P.gc (.publish t p y), mem := Gc.set P.mem y (.node n),
                    fr := upd P.fr t ((P.fr t).pub p (.base n) y),
                    th := upd P.th t (.run c p') }) rfl rfl
    (n := .base n) (x := y) ⟨hrep, Gc.set_same _ _ _⟩
  have hrm := h.rems_self (t := t)
    (P' := { P with gc := Gc.eff P.gc (.publish t p y), mem := Gc.set P.mem y (.node n),
                    fr := upd P.fr t ((P.fr t).pub p (.base n) y),
                    th := upd P.th t (.run c p') }) rfl
    (by simp only [upd_same]; rfl)
  refine h.step t (QStep.act (a := .publish t p y) trivial hpre)
    (MemKeep.set (Or.inr (Or.inl ⟨t, hy⟩))) (idle_upd ht) (fun u hu => upd_ne _ _ hu)
    (MInv.not_idle ht) hsl.1 hsl.2 (slot_new (p := p) (x := y) rfl (Or.inr hp)) ?_
    hrm.1 hrm.2.1 hrm.2.2.1 hrm.2.2.2 ?_ ?_ (Nat.le_refl _) ?_ ?_ (Nat.le_refl _)
    (fun _ => Or.inl rfl) (obj_cases (x := y) ?_ ?_) <;> simp only [upd_same]
  · intro p1 c1 x1 hx
    rcases List.mem_cons.1 hx with e | hx
    · right
      have e1 : c1 = .base n := congrArg (fun z => z.2.1) e
      have e2 : x1 = y := congrArg (fun z => z.2.2) e
      subst e1 e2
      refine ⟨⟨[], ?_⟩, hrep⟩
      show _ ∈ Gc.set _ _ _ _
      rw [Gc.set_same]
      exact List.mem_cons_self ..
    · exact Or.inl hx
  · intro q hq
    have hq' : q ∈ (P.fr t).new.erase p := hq
    rw [(h.newNd t).mem_erase_iff] at hq'
    obtain ⟨a, b, e⟩ := h.new_self t q hq'.2
    refine ⟨a, b, ?_⟩
    show Gc.set _ _ _ _ = _
    rw [Gc.set_other _ _ hq'.1]
    exact e
  · exact (h.newNd t).erase _
  · exact h.cs_self t
  · exact h.csNd t
  · intro z hz hl hl'
    exact hl ((loose_congr (Gc.set_other _ _ hz)).2 hl')
  · intro d' n w hd' hw
    rw [Gc.set_same] at hd'
    cases hd'

/-- A removal begins. -/
theorem MInv.mark (h : MInv P mt) {t : Nat} {c : Spec.Call K V} {p : PID} {o : Chain K V} {b : Bool}
    {m : Node K V} {q p' : Prog K V (Out K V)} {x y z : Obj}
    (ht : P.th t = .run c q)
    (hh : (p, o, x) ∈ (P.fr t).hd) (hs : P.gc.slot p = some x) (hr : o.isRemoved = false)
    (hy : P.gc.loc y = .priv t) (hz : P.gc.loc z = .priv t) (hyz : y ≠ z) :
    MInv { P with gc := Gc.eff P.gc (.mark t p y z x),
                  mem := Gc.set (Gc.set P.mem y (.mark b)) z (.node m),
                  fr := upd P.fr t ((P.fr t).mark p m),
                  th := upd P.th t (.run c p') } (upd mt p (some (.removed b))) := by
  obtain ⟨hm, hok⟩ := h.expect hh hs
  have hmk : P.gc.isMark x = false := hok.2.trans hr
  have hpre : Gc.Pre P.gc (.mark t p y z x) :=
    ⟨h.guard_ne ht, (h.hd t p o x hh).1, hs, hmk, hy, hz, hyz⟩
  have hrn : P.gc.rem p = none := h.gcr.inv.rem_none hs hmk
  have hmy : Gc.set (Gc.set P.mem y (.mark b)) z (.node m) y = .mark b := by
    rw [Gc.set_other _ _ hyz, Gc.set_same]
  have hnp : ∀ m', (p, m') ∉ (P.fr t).rems := by
    intro m' hm'
    obtain ⟨mk, w, e, _⟩ := h.rem t p m' hm'
    rw [hrn] at e
    cases e
  have hsl := slot_cases (P := P) (mt := mt)
    (P' := { P with gc := Gc.eff P.gc (.mark t p y z x),
                    mem := Gc.set (Gc.set P.mem y (.mark b)) z (.node m),
                    fr := upd P.fr t ((P.fr t).mark p m),
                    th := upd P.th t (.run c p') }) rfl rfl
    (n := .removed b) (x := y)
    ⟨by show Repr _ _ _ (Gc.set _ _ _ _); rw [Gc.set_same]; exact .mark hmy,
      Gc.set_same _ _ _⟩
  refine h.step t (QStep.act (a := .mark t p y z x) trivial hpre)
    ?_ (idle_upd ht) (fun u hu => upd_ne _ _ hu)
    (MInv.not_idle ht) hsl.1 hsl.2 (slot_new (p := p) (x := y) rfl (Or.inl (by rw [hs]; simp))) ?_
    ?_ ?_ ?_ ?_ ?_ ?_ (Nat.le_refl _) ?_ ?_ (Nat.le_refl _)
    (fun _ => Or.inl rfl) (obj_cases (x := y) ?_ ?_) <;> simp only [upd_same]
  · intro v
    by_cases e : v = z
    · subst e; exact Or.inr (Or.inr (Or.inl ⟨t, hz⟩))
    · by_cases e' : v = y
      · subst e'; exact Or.inr (Or.inr (Or.inl ⟨t, hy⟩))
      · left
        show Gc.set _ _ _ _ = _
        rw [Gc.set_other _ _ e, Gc.set_other _ _ e']
  · exact fun _ _ _ hx => Or.inl hx
  · show (((p, m) :: (P.fr t).rems).map Prod.fst).Nodup
    rw [List.map_cons, List.nodup_cons]
    refine ⟨fun hx => ?_, h.remNd t⟩
    obtain ⟨⟨p', m'⟩, h1, h2⟩ := List.mem_map.1 hx
    simp only at h2
    subst h2
    exact hnp m' h1
  · intro p1 m1 hx
    have hx' : (p1, m1) ∈ (p, m) :: (P.fr t).rems := hx
    show _ ∨ ∃ mk y, Gc.set _ _ _ _ = _ ∧ _
    by_cases e : p1 = p
    · subst e
      right
      rcases List.mem_cons.1 hx' with e | hx'
      · have e2 : m1 = m := congrArg Prod.snd e
        subst e2
        exact ⟨y, z, Gc.set_same _ _ _, Gc.set_same _ _ _⟩
      · exact absurd hx' (hnp m1)
    · left
      rcases List.mem_cons.1 hx' with e' | hx'
      · exact absurd (congrArg Prod.fst e') e
      · exact ⟨hx', Gc.set_other _ _ e⟩
  · intro p1 r hn
    show _ ↔ Gc.set _ _ _ _ = _
    by_cases e : p1 = p
    · subst e
      rw [Gc.set_same, hrn]
      constructor
      · intro e; cases e
      · intro e
        have := Option.some.inj e
        subst this
        exact absurd rfl hn
    · rw [Gc.set_other _ _ e]
  · intro p1 r hn hp
    have hp' : Gc.set P.gc.rem p (some ⟨t, y, z⟩) p1 = some r := hp
    by_cases e : p1 = p
    · subst e
      exact ⟨m, List.mem_cons_self ..⟩
    · rw [Gc.set_other _ _ e] at hp'
      obtain ⟨m', hm'⟩ := h.remIn p1 r hp'
      rw [hn] at hm'
      exact ⟨m', List.mem_cons_of_mem _ hm'⟩
  · intro q hq
    obtain ⟨a, b, e⟩ := h.new_self t q hq
    refine ⟨a, b, ?_⟩
    show Gc.set _ _ _ _ = _
    rw [Gc.set_other _ _ (by rintro rfl; rw [hs] at e; cases e)]
    exact e
  · exact h.newNd t
  · exact h.cs_self t
  · exact h.csNd t
  · intro v hv hl
    by_cases hvz : v = z
    · subst hvz
      refine absurd (Or.inr (Or.inr ⟨p, ?_⟩)) hl
      exact Gc.set_same _ _ _
    · by_cases hc : v ∈ P.gc.chain x
      · exact h.chain_loose hs hc
      · refine fun hl' => hl ((loose_congr ?_).2 hl')
        show Gc.set _ _ _ _ = _
        rw [Gc.set_other _ _ hvz, Gc.set_other _ _ hv, Gc.move_out hc]
  · intro d' n w hd' hw
    rw [hmy] at hd'
    cases hd'

theorem MInv.rem_head (h : MInv P mt) {t : Nat} {p : PID} {n : Node K V} {rs} {mk y : Obj}
    (hrs : (P.fr t).rems = (p, n) :: rs) (hrem : P.gc.rem p = some ⟨t, mk, y⟩) :
    P.mem y = .node n ∧ P.gc.loc y = .rem p ∧ P.gc.slot p = some mk ∧ P.gc.isMark mk = true := by
  obtain ⟨mk', y', e1, e2⟩ := h.rem t p n (by rw [hrs]; exact List.mem_cons_self ..)
  rw [hrem] at e1
  cases e1
  obtain ⟨a, b, c⟩ := h.gcr.inv.remSlot p _ hrem
  exact ⟨e2, c, a, b⟩

/-- The removed node comes back. -/
theorem MInv.restore (h : MInv P mt) {t : Nat} {c : Spec.Call K V} {p : PID}
    {n : Node K V} {q p' : Prog K V (Out K V)} {rs} {mk y : Obj}
    (ht : P.th t = .run c q)
    (hrs : (P.fr t).rems = (p, n) :: rs) (hrem : P.gc.rem p = some ⟨t, mk, y⟩) :
    MInv { P with gc := Gc.eff P.gc (.restore t p mk y), fr := upd P.fr t (P.fr t).pop,
                  th := upd P.th t (.run c p') } (upd mt p (some (.base n))) := by
  obtain ⟨hmem, hloc, hs, hmk⟩ := h.rem_head hrs hrem
  have hsl := slot_cases (P := P) (mt := mt)
    (P' := { P with gc := Gc.eff P.gc (.restore t p mk y), fr := upd P.fr t (P.fr t).pop,
                    th := upd P.th t (.run c p') }) rfl rfl
    (n := .base n) (x := y)
    ⟨by show Repr _ _ _ (Gc.set _ _ _ _); rw [Gc.set_same]; exact .node hmem,
      Gc.set_same _ _ _⟩
  have hrm := h.rems_pop (t := t) hrem hrs
    (P' := { P with gc := Gc.eff P.gc (.restore t p mk y), fr := upd P.fr t (P.fr t).pop,
                    th := upd P.th t (.run c p') }) rfl
    (by simp only [upd_same, Frm.pop, hrs, List.tail_cons])
  refine h.step t (QStep.act (a := .restore t p mk y) trivial hrem)
    MemKeep.rfl (idle_upd ht) (fun u hu => upd_ne _ _ hu)
    (MInv.not_idle ht) hsl.1 hsl.2 (slot_new (p := p) (x := y) rfl (Or.inl (by rw [hs]; simp))) ?_
    hrm.1 hrm.2.1 hrm.2.2.1 hrm.2.2.2 ?_ ?_ (Nat.le_refl _) ?_ ?_ (Nat.le_refl _)
    (fun _ => Or.inl rfl) (obj_cases (x := y) ?_ ?_) <;> simp only [upd_same]
  · exact fun _ _ _ hx => Or.inl hx
  · intro q hq
    obtain ⟨a, b, e⟩ := h.new_self t q hq
    refine ⟨a, b, ?_⟩
    show Gc.set _ _ _ _ = _
    rw [Gc.set_other _ _ (by rintro rfl; rw [hs] at e; cases e)]
    exact e
  · exact h.newNd t
  · exact h.cs_self t
  · exact h.csNd t
  · intro z hz hl
    by_cases hc : z = mk
    · subst hc
      exact h.chain_loose hs (by simp [Gc.St.chain])
    · refine fun hl' => hl ((loose_congr ?_).2 hl')
      show Gc.set _ _ _ _ = _
      rw [Gc.set_other _ _ hz, Gc.set_other _ _ hc]
  · intro d' n w hd' hw
    rw [hmem] at hd'
    cases hd'

/-- A root is gone. -/
theorem MInv.dropRoot (h : MInv P mt) {t : Nat} {c : Spec.Call K V} {p : PID}
    {n : Node K V} {q p' : Prog K V (Out K V)} {rs} {mk y : Obj} (r : PID)
    (ht : P.th t = .run c q)
    (hrs : (P.fr t).rems = (p, n) :: rs) (hrem : P.gc.rem p = some ⟨t, mk, y⟩) :
    MInv { P with root := r, gc := Gc.eff P.gc (.dropRoot t p mk y), fr := upd P.fr t (P.fr t).pop,
                  th := upd P.th t (.run c p') } mt := by
  obtain ⟨hmem, hloc, hs, hmk⟩ := h.rem_head hrs hrem
  have hrm := h.rems_pop (t := t) hrem hrs
    (P' := { P with root := r, gc := Gc.eff P.gc (.dropRoot t p mk y), fr := upd P.fr t (P.fr t).pop,
                    th := upd P.th t (.run c p') }) rfl
    (by simp only [upd_same, Frm.pop, hrs, List.tail_cons])
  refine h.step t (QStep.act (a := .dropRoot t p mk y) trivial hrem)
    MemKeep.rfl (idle_upd ht) (fun u hu => upd_ne _ _ hu)
    (MInv.not_idle ht) (fun p x hx => Or.inl ⟨hx, rfl⟩) (fun p hp => ⟨hp, rfl⟩)
    (fun p hp => Or.inl hp) ?_
    hrm.1 hrm.2.1 hrm.2.2.1 hrm.2.2.2 ?_ ?_ (Nat.le_refl _) ?_ ?_ (Nat.le_refl _)
    (fun _ => Or.inl rfl) (obj_cases (x := y) ?_ ?_) <;> simp only [upd_same]
  · exact fun _ _ _ hx => Or.inl hx
  · exact h.new_self t
  · exact h.newNd t
  · exact h.cs_self t
  · exact h.csNd t
  · intro z hz hl hl'
    exact hl ((loose_congr (Gc.set_other _ _ hz)).2 hl')
  · intro d' n w hd' hw
    rw [hmem] at hd'
    cases hd'

/-- The merge delta. -/
theorem MInv.merge (h : MInv P mt) {t : Nat} {c : Spec.Call K V} {p q : PID} {o : Chain K V}
    {d : Delta K V} {pr p' : Prog K V (Out K V)} {x z mk y : Obj} {m : Node K V} {rs}
    (ht : P.th t = .run c pr)
    (hh : (p, o, x) ∈ (P.fr t).hd) (hs : P.gc.slot p = some x) (hr : o.isRemoved = false)
    (hz : P.gc.loc z = .priv t) (hd : d.pay = .node m)
    (hrs : (P.fr t).rems = (q, m) :: rs) (hrem : P.gc.rem q = some ⟨t, mk, y⟩) :
    MInv { P with gc := Gc.eff P.gc (.merge t q mk y p z x),
                  mem := Gc.set P.mem z (.merge { d with pay := .none } x y),
                  fr := upd P.fr t (((P.fr t).push p (.delta d o) z).pop),
                  th := upd P.th t (.run c p') } (upd mt p (some (.delta d o))) := by
  obtain ⟨hm, hok⟩ := h.expect hh hs
  obtain ⟨hmem, hloc, hsq, hmk⟩ := h.rem_head hrs hrem
  have hpre : Gc.Pre P.gc (.merge t q mk y p z x) :=
    ⟨hrem, (h.hd t p o x hh).1, hs, hok.2.trans hr, hz⟩
  have hny := not_mem_priv h.gcr hs hz
  have hyz : y ≠ z := by rintro rfl; rw [hz] at hloc; cases hloc
  have hxy : ∀ w ∈ x :: P.gc.below x,
      Gc.set P.mem z (.merge { d with pay := .none } x y) w = P.mem w := fun w hw =>
    Gc.set_other _ _ (by rintro rfl; exact hny hw)
  have hde : ({ ({ d with pay := .none } : Delta K V) with pay := .node m } : Delta K V) = d := by
    cases d
    simp only at hd
    subst hd
    rfl
  have hmy : Gc.set P.mem z (.merge { d with pay := .none } x y) y = .node m := by
    rw [Gc.set_other _ _ hyz, hmem]
  have hrep : Repr (Gc.set P.mem z (.merge { d with pay := .none } x y)) z (.delta d o)
      ((Gc.eff P.gc (.merge t q mk y p z x)).below z) := by
    show Repr _ _ _ (Gc.set _ _ _ _)
    rw [Gc.set_same]
    have := Repr.merge (Gc.set_same P.mem z (.merge { d with pay := .none } x y)) hmy
      (hok.1.frame hxy)
    rw [hde] at this
    exact this
  have hsl := slot_cases (P := P) (mt := mt)
    (P' := { P with gc := Gc.eff P.gc (.merge t q mk y p z x),
                    mem := Gc.set P.mem z (.merge { d with pay := .none } x y),
                    fr := upd P.fr t (((P.fr t).push p (.delta d o) z).pop),
                    th := upd P.th t (.run c p') }) rfl rfl
    (n := .delta d o) (x := z) ⟨hrep, Gc.set_same _ _ _⟩
  have hrm := h.rems_pop (t := t) hrem hrs
    (P' := { P with gc := Gc.eff P.gc (.merge t q mk y p z x),
                    mem := Gc.set P.mem z (.merge { d with pay := .none } x y),
                    fr := upd P.fr t (((P.fr t).push p (.delta d o) z).pop),
                    th := upd P.th t (.run c p') }) rfl
    (by simp only [upd_same, Frm.pop, Frm.push, hrs, List.tail_cons])
  refine h.step t (QStep.act (a := .merge t q mk y p z x) trivial hpre)
    (MemKeep.set (Or.inr (Or.inl ⟨t, hz⟩))) (idle_upd ht) (fun u hu => upd_ne _ _ hu)
    (MInv.not_idle ht) hsl.1 hsl.2 (slot_new (p := p) (x := z) rfl (Or.inl (by rw [hs]; simp))) ?_
    hrm.1 hrm.2.1 hrm.2.2.1 hrm.2.2.2 ?_ ?_ (Nat.le_refl _) ?_ ?_ (Nat.le_refl _)
    (fun _ => Or.inl rfl) ?_ <;> simp only [upd_same]
  · intro p1 c1 x1 hx
    rcases List.mem_cons.1 hx with e | hx
    · right
      have e1 : c1 = .delta d o := congrArg (fun z => z.2.1) e
      have e2 : x1 = z := congrArg (fun z => z.2.2) e
      subst e1 e2
      refine ⟨⟨y :: P.gc.chain x, ?_⟩, hrep⟩
      show _ ∈ Gc.set _ _ _ _
      rw [Gc.set_same]
      exact List.mem_cons_self ..
    · exact Or.inl hx
  · intro q hq
    obtain ⟨a, b, e⟩ := h.new_self t q hq
    refine ⟨a, b, ?_⟩
    show Gc.set _ _ _ _ = _
    rw [Gc.set_other _ _ (by rintro rfl; rw [hs] at e; cases e)]
    exact e
  · exact h.newNd t
  · exact h.cs_self t
  · exact h.csNd t
  · intro v hl
    by_cases hvz : v = z
    · subst hvz
      right
      intro d' n w hd' hw
      rw [Gc.set_same] at hd'
      cases hd'
    · by_cases hvy : v = y
      · subst hvy
        right
        intro d' n w hd' hw
        rw [hmy] at hd'
        cases hd'
      · left
        refine fun hl' => hl ((loose_congr ?_).2 hl')
        show Gc.set _ _ _ _ = _
        rw [Gc.set_other _ _ hvy, Gc.set_other _ _ hvz]

/-! ## Allocation and collection -/

theorem MInv.alloc (h : MInv P mt) {t : Nat} {o : Obj} (r : Rec K V) (ho : P.gc.loc o = .free) :
    MInv { P with gc := Gc.eff P.gc (.alloc t o), mem := Gc.set P.mem o r } mt := by
  refine h.gcStep (QStep.act (a := .alloc t o) trivial ho) (MemKeep.set (Or.inl ho))
    (fun _ => Iff.rfl) rfl rfl rfl rfl rfl rfl ?_
  intro v hl hl'
  by_cases e : v = o
  · subst e
    exact hl (Or.inr (Or.inl ⟨t, Gc.set_same _ _ _⟩))
  · exact hl ((loose_congr (Gc.set_other _ _ e)).2 hl')

theorem MInv.write (h : MInv P mt) {t : Nat} {o : Obj} (r : Rec K V) (ho : P.gc.loc o = .priv t) :
    MInv { P with mem := Gc.set P.mem o r } mt :=
  h.gcStep (Or.inl rfl) (MemKeep.set (Or.inr (Or.inl ⟨t, ho⟩))) (fun _ => Iff.rfl) rfl rfl rfl rfl
    rfl rfl fun _ hl => hl

theorem MInv.release (h : MInv P mt) {t : Nat} {o : Obj} (ho : P.gc.loc o = .priv t) :
    MInv { P with gc := Gc.eff P.gc (.release t o) } mt := by
  refine h.gcStep (QStep.act (a := .release t o) trivial ho) MemKeep.rfl
    (fun _ => Iff.rfl) rfl rfl rfl rfl rfl rfl ?_
  intro v hl hl'
  by_cases e : v = o
  · subst e
    exact hl (Or.inl (Gc.set_same _ _ _))
  · exact hl ((loose_congr (Gc.set_other _ _ e)).2 hl')

theorem MInv.retire (h : MInv P mt) {t : Nat} {o : Obj} (ho : o ∈ P.gc.todo t) :
    MInv { P with gc := Gc.eff P.gc (.retire t o) } mt := by
  refine h.gcStep (QStep.act (a := .retire t o) trivial ho) MemKeep.rfl
    (fun _ => Iff.rfl) rfl rfl rfl rfl rfl rfl ?_
  intro v hl hl'
  by_cases e : v = o
  · subst e
    exact hl'.not_pend t ((h.gcr.inv.todo t v).1 ho)
  · exact hl ((loose_congr (Gc.set_other _ _ e)).2 hl')

theorem MInv.free (h : MInv P mt) {o : Obj} (r : Rec K V) (ho : Gc.Pre P.gc (.free o)) :
    MInv { P with gc := Gc.eff P.gc (.free o), mem := Gc.set P.mem o r } mt := by
  refine h.gcStep (QStep.act (a := .free o) trivial ho)
    (MemKeep.set (Or.inr (Or.inr (Gc.set_same _ _ _))))
    (fun _ => Iff.rfl) rfl rfl rfl rfl rfl rfl ?_
  intro v hl hl'
  by_cases e : v = o
  · subst e
    exact hl (Or.inl (Gc.set_same _ _ _))
  · exact hl ((loose_congr (Gc.set_other _ _ e)).2 hl')

/-! ## Calls and returns -/

/-- Beginning or end of the guard of thread `t`, which has no local variables then. -/
theorem MInv.border (h : MInv P mt) {t : Nat} {a : Act} {x : TSt K V} {it}
    (ha : a = .enter t ∧ x ≠ .idle ∨ a = .leave t ∧ x = .idle)
    (hp : Gc.Pre P.gc a) (hr : (P.fr t).rems = []) :
    MInv { P with gc := Gc.eff P.gc a, fr := upd P.fr t .empty, th := upd P.th t x, it := it } mt := by
  have e1 : (Gc.eff P.gc a).slot = P.gc.slot := by rcases ha with ⟨rfl, _⟩ | ⟨rfl, _⟩ <;> rfl
  have e2 : (Gc.eff P.gc a).rem = P.gc.rem := by rcases ha with ⟨rfl, _⟩ | ⟨rfl, _⟩ <;> rfl
  have e3 : (Gc.eff P.gc a).loc = P.gc.loc := by rcases ha with ⟨rfl, _⟩ | ⟨rfl, _⟩ <;> rfl
  have e4 : (Gc.eff P.gc a).below = P.gc.below := by rcases ha with ⟨rfl, _⟩ | ⟨rfl, _⟩ <;> rfl
  have e5 : (Gc.eff P.gc a).isMark = P.gc.isMark := by rcases ha with ⟨rfl, _⟩ | ⟨rfl, _⟩ <;> rfl
  have e6 : ∀ u, u ≠ t → (Gc.eff P.gc a).held u = P.gc.held u := by
    intro u hu
    rcases ha with ⟨rfl, _⟩ | ⟨rfl, _⟩ <;> exact Gc.set_other _ _ hu
  have e7 : ∀ u, u ≠ t → (Gc.eff P.gc a).guard u = P.gc.guard u := by
    intro u hu
    rcases ha with ⟨rfl, _⟩ | ⟨rfl, _⟩ <;> exact Gc.set_other _ _ hu
  have e8 : (x ≠ .idle → (Gc.eff P.gc a).guard t ≠ none) ∧
      (x = .idle → (Gc.eff P.gc a).guard t = none) := by
    rcases ha with ⟨rfl, hx⟩ | ⟨rfl, hx⟩
    · refine ⟨fun _ => ?_, fun e => absurd e hx⟩
      show Gc.set _ _ _ _ ≠ _
      rw [Gc.set_same]; simp
    · exact ⟨fun e => absurd hx e, fun _ => Gc.set_same _ _ _⟩
  have hfr : ∀ u, u ≠ t → upd P.fr t .empty u = P.fr u := fun u hu => upd_ne _ _ hu
  have hft : upd P.fr t .empty t = .empty := upd_same _ _ _
  refine ⟨.step h.gcr hp, ?_, ?_, ?_, ?_, ?_, ?_, ?_, ?_, ?_, ?_, ?_, ?_, h.cellFresh, ?_, ?_, ?_, ?_⟩
  · intro p y hy
    rw [show ({ P with gc := Gc.eff P.gc a, fr := upd P.fr t .empty, th := upd P.th t x, it := it } :
      PSt K V).gc = Gc.eff P.gc a from rfl, e1] at hy
    obtain ⟨c, h1, h2⟩ := h.slot p y hy
    refine ⟨c, h1, ?_, ?_⟩
    · show Repr _ _ _ ((Gc.eff P.gc a).below y)
      rw [e4]; exact h2.1
    · show (Gc.eff P.gc a).isMark y = _
      rw [e5]; exact h2.2
  · intro p hp
    have hp' : (Gc.eff P.gc a).slot p = none := hp
    rw [e1] at hp'
    exact h.empty p hp'
  · intro u p c y hy
    by_cases e : u = t
    · subst e
      have hy' : (p, c, y) ∈ (upd P.fr u .empty u).hd := hy
      rw [hft] at hy'; cases hy'
    · have hy' : (p, c, y) ∈ (P.fr u).hd := by rw [← hfr u e]; exact hy
      obtain ⟨⟨l, h1⟩, h2⟩ := h.hd u p c y hy'
      refine ⟨⟨l, ?_⟩, ?_⟩
      · show _ ∈ (Gc.eff P.gc a).held u
        rw [e6 u e]; exact h1
      · show Repr _ _ _ ((Gc.eff P.gc a).below y)
        rw [e4]; exact h2
  · intro u hu
    show (Gc.eff P.gc a).guard u ≠ none
    have hu' : upd P.th t x u ≠ .idle := hu
    by_cases e : u = t
    · subst e
      rw [upd_same] at hu'
      exact e8.1 hu'
    · rw [upd_ne _ _ e] at hu'
      rw [e7 u e]
      exact h.run u hu'
  · intro u hu
    have hu' : upd P.th t x u = .idle := hu
    show (Gc.eff P.gc a).guard u = none ∧ upd P.fr t .empty u = _
    by_cases e : u = t
    · subst e
      rw [upd_same] at hu'
      exact ⟨e8.2 hu', hft⟩
    · rw [upd_ne _ _ e] at hu'
      rw [e7 u e, hfr u e]
      exact h.idle u hu'
  · intro u
    show ((upd P.fr t .empty u).rems.map Prod.fst).Nodup
    by_cases e : u = t
    · subst e; rw [hft]; exact List.nodup_nil
    · rw [hfr u e]; exact h.remNd u
  · intro u p m hm
    have hm' : (p, m) ∈ (upd P.fr t .empty u).rems := hm
    show ∃ mk y, (Gc.eff P.gc a).rem p = _ ∧ _
    rw [e2]
    by_cases e : u = t
    · subst e; rw [hft] at hm'; cases hm'
    · rw [hfr u e] at hm'; exact h.rem u p m hm'
  · intro p r hp
    have hp' : (Gc.eff P.gc a).rem p = some r := hp
    rw [e2] at hp'
    obtain ⟨m, hm⟩ := h.remIn p r hp'
    refine ⟨m, ?_⟩
    show _ ∈ (upd P.fr t .empty r.t).rems
    by_cases e : r.t = t
    · rw [e, hr] at hm; cases hm
    · rw [hfr _ e]; exact hm
  · intro u p hp
    have hp' : p ∈ (upd P.fr t .empty u).new := hp
    show (Gc.eff P.gc a).slot p = none ∧ _
    rw [e1]
    by_cases e : u = t
    · subst e; rw [hft] at hp'; cases hp'
    · rw [hfr u e] at hp'; exact h.new u p hp'
  · intro u
    show (upd P.fr t .empty u).new.Nodup
    by_cases e : u = t
    · subst e; rw [hft]; exact List.nodup_nil
    · rw [hfr u e]; exact h.newNd u
  · intro u v p hu hv
    have hu' : p ∈ (upd P.fr t .empty u).new := hu
    have hv' : p ∈ (upd P.fr t .empty v).new := hv
    by_cases e : u = t
    · subst e; rw [hft] at hu'; cases hu'
    · by_cases e' : v = t
      · subst e'; rw [hft] at hv'; cases hv'
      · rw [hfr u e] at hu'; rw [hfr v e'] at hv'
        exact h.newDisj u v p hu' hv'
  · intro p hp
    show (Gc.eff P.gc a).slot p = none
    rw [e1]; exact h.fresh p hp
  · intro u w hw
    have hw' : w ∈ (upd P.fr t .empty u).cs := hw
    by_cases e : u = t
    · subst e; rw [hft] at hw'; cases hw'
    · rw [hfr u e] at hw'; exact h.cs u w hw'
  · intro u
    show (upd P.fr t .empty u).cs.Nodup
    by_cases e : u = t
    · subst e; rw [hft]; exact List.nodup_nil
    · rw [hfr u e]; exact h.csNd u
  · intro u v p hu hv
    have hu' : p ∈ (upd P.fr t .empty u).cs := hu
    have hv' : p ∈ (upd P.fr t .empty v).cs := hv
    by_cases e : u = t
    · subst e; rw [hft] at hu'; cases hu'
    · by_cases e' : v = t
      · subst e'; rw [hft] at hv'; cases hv'
      · rw [hfr u e] at hu'; rw [hfr v e'] at hv'
        exact h.csDisj u v p hu' hv'
  · intro o d y w ho hm hw
    exact h.cellA o d y w (fun hl => ho ((loose_congr (by rw [e3])).2 hl)) hm hw

end BwTree.Mem
