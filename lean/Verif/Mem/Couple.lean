import Verif.Mem.Steps
import Verif.Mem.Prov
import Verif.Conc.Init

/-!
# Addresses and chains (proof side)

Every step with addresses is a step with chains (`Verif/Conc/System.lean`), or no step at all.
-/

namespace BwTree.Mem

open BwTree.Gc (Obj Act Loose)

set_option linter.unusedSectionVars false

variable {K V : Type} [LinearOrder K] {cfg : Cfg K} {gn : Bool}
variable {P P' : PSt K V} {S : Sys K V} {s s' : St K V}

/-- A call has no removal in progress and no unused page ID when it returns. -/
def Over {α : Type} (_ : α) (g : Frm K V) : Prop := g.rems = [] ∧ g.new = []

/-- The state with addresses stands for the state with chains. -/
structure Cpl (cfg : Cfg K) (P : PSt K V) (S : Sys K V) (s : St K V) : Prop where
  mem : MInv P S.sh.mt
  sound : Sound cfg s S
  root : S.sh.root = P.root
  cells : S.sh.cells = P.cells
  npid : S.sh.npid = P.npid
  ncell : S.sh.ncell = P.ncell
  th : S.th = P.th
  it : S.it = P.it
  chk : ∀ t p o h, (P.fr t).chk = some (p, o, h) → (p, o, h) ∈ (P.fr t).hd ∧ o.isRemoved = false ∧
    s.info p ≠ none ∧ (s.own p = some t → P.gc.slot p = some h)
  disc : ∀ t c prog, P.th t = .run c prog → gp cfg prog Over (P.fr t)

/-- The next ghost state. -/
structure Nx (cfg : Cfg K) (t : Nat) (s s' : St K V) (sh' : Sh K V) : Prop where
  inv : Inv cfg s
  inv' : Inv cfg s'
  guar : Guar (tctx t .free) s s'
  mt : s'.mt = sh'.mt

theorem Nx.own {t : Nat} {sh' : Sh K V} (h : Nx cfg t s s' sh') {p : PID} (hp : sh'.mt p ≠ s.mt p)
    {u : Nat} (hu : u ≠ t) : s'.own p ≠ some u := by
  intro ho
  rcases h.guar.acq p u ho with h1 | ⟨h1, _⟩
  · have := ((h.guar.rely u hu).own p h1).2.1
    rw [h.mt] at this
    exact hp this
  · exact hu h1

/-- A thread does not become owner of a page that does not change. -/
theorem Nx.static {t : Nat} {sh' : Sh K V} (h : Nx cfg t s s' sh') {p : PID}
    (hp : sh'.mt p = s.mt p) (hi : s.info p ≠ none) (ho : s'.own p = some t) : s.own p = some t := by
  rcases h.guar.acq p t ho with h1 | ⟨_, h1⟩
  · exact h1
  · obtain ⟨c, hc, hw⟩ := h.inv'.p.owned p t ho (h.guar.mono.info_ne hi)
    rw [h.mt, hp] at hc
    rcases hw with hw | ⟨⟨b, e⟩, _⟩
    · have := h.inv.p.frozen p c hi hc hw
      cases ho2 : s.own p with
      | none => exact absurd ho2 this
      | some v =>
        by_cases hv : v = t
        · rw [hv]
        · have := ((h.guar.rely v hv).own p ho2).1
          rw [ho] at this
          exact absurd (Option.some.inj this).symm hv
    · rw [e] at hc
      exact absurd hc (h1 b)

theorem Cpl.smt (hC : Cpl cfg P S s) : s.mt = S.sh.mt := congrArg Sh.mt hC.sound.sh

theorem Cpl.sth (hC : Cpl cfg P S s) {t : Nat} {x : TSt K V} (h : P.th t = x) : S.th t = x := by
  rw [hC.th]; exact h

theorem Cpl.pre (hC : Cpl cfg P S s) {t : Nat} {c : Spec.Call K V} {p : Prog K V (Out K V)}
    (ht : P.th t = .run c p) : wp cfg (tctx t .free) p (CallPost t c) s := by
  have := hC.sound.th t
  rw [hC.sth ht] at this
  exact this

/-- The ghost state after an access. -/
theorem Cpl.nx (hC : Cpl cfg P S s) {t : Nat} {c : Spec.Call K V} {p p' : Prog K V (Out K V)}
    {sh' : Sh K V} (ht : P.th t = .run c p) (ha : AStep S.sh p sh' p') :
    ∃ s', Sound cfg s'
        { S with sh := sh', th := upd S.th t (.run c p'), mark := newMark t S.sh sh' S.mark } ∧
      Nx cfg t s s' sh' := by
  obtain ⟨s', h1, h2, _, _⟩ := hC.sound.access (t := t) trivial (hC.sth ht) ha
  exact ⟨s', h1, hC.sound.inv, h1.inv, h2, congrArg Sh.mt h1.sh⟩

/-- One access. -/
theorem Cpl.access (hC : Cpl cfg P S s) {t : Nat} {c : Spec.Call K V} {p p' : Prog K V (Out K V)}
    {sh' : Sh K V} (ht : P.th t = .run c p) (ha : AStep S.sh p sh' p')
    (h1 : sh'.root = P'.root) (h2 : sh'.cells = P'.cells) (h3 : sh'.npid = P'.npid)
    (h4 : sh'.ncell = P'.ncell) (hth : P'.th = upd P.th t (.run c p')) (hit : P'.it = P.it)
    (hfr : ∀ u, u ≠ t → P'.fr u = P.fr u) (hM : MInv P' sh'.mt) (hg : gp cfg p' Over (P'.fr t))
    (hA : ∀ s', Nx cfg t s s' sh' → ∀ q, P'.gc.slot q = P.gc.slot q ∨
      ∀ u, u ≠ t → s'.own q ≠ some u)
    (hB : ∀ s', Nx cfg t s s' sh' → ∀ q o x, (P'.fr t).chk = some (q, o, x) →
      (q, o, x) ∈ (P'.fr t).hd ∧ o.isRemoved = false ∧ s'.info q ≠ none ∧
      (s'.own q = some t → P'.gc.slot q = some x)) :
    ∃ S' s', SysStep cfg S none S' ∧ Cpl cfg P' S' s' := by
  obtain ⟨s', hs', hn⟩ := hC.nx ht ha
  refine ⟨_, s', .step S t c p p' sh' (hC.sth ht) ha, hM, hs', h1, h2, h3, h4, ?_, ?_, ?_, ?_⟩
  · show upd S.th t _ = _
    rw [hth, hC.th]
  · show S.it = _
    rw [hit, hC.it]
  · intro u q o x hx
    by_cases hu : u = t
    · subst hu
      exact hB s' hn q o x hx
    · rw [hfr u hu] at hx ⊢
      obtain ⟨a, b, e, f⟩ := hC.chk u q o x hx
      refine ⟨a, b, hn.guar.mono.info_ne e, fun ho => ?_⟩
      rcases hA s' hn q with h | h
      · rw [h]
        apply f
        rcases hn.guar.acq q u ho with h | ⟨h, _⟩
        · exact h
        · exact absurd h hu
      · exact absurd ho (h u hu)
  · intro u c' q hq
    rw [hth] at hq
    by_cases hu : u = t
    · subst hu
      rw [upd_same] at hq
      cases hq
      exact hg
    · rw [upd_ne _ _ hu] at hq
      rw [hfr u hu]
      exact hC.disc u c' q hq

/-- `chk` is kept, and its page is not touched. -/
theorem Cpl.keepChk (hC : Cpl cfg P S s) {t : Nat} {sh' : Sh K V}
    (hk : (P'.fr t).chk = (P.fr t).chk) (hhd : (P.fr t).hd ⊆ (P'.fr t).hd)
    (hs : ∀ q, s.info q ≠ none → sh'.mt q = s.mt q ∧ P'.gc.slot q = P.gc.slot q) :
    ∀ s', Nx cfg t s s' sh' → ∀ q o x, (P'.fr t).chk = some (q, o, x) →
      (q, o, x) ∈ (P'.fr t).hd ∧ o.isRemoved = false ∧ s'.info q ≠ none ∧
      (s'.own q = some t → P'.gc.slot q = some x) := by
  intro s' hn q o x hx
  rw [hk] at hx
  obtain ⟨a, b, e, f⟩ := hC.chk t q o x hx
  refine ⟨hhd a, b, hn.guar.mono.info_ne e, fun ho => ?_⟩
  rw [(hs q e).2]
  exact f (hn.static (hs q e).1 e ho)

theorem noChk {t : Nat} {sh' : Sh K V} (hk : (P'.fr t).chk = none) :
    ∀ s', Nx cfg t s s' sh' → ∀ q o x, (P'.fr t).chk = some (q, o, x) →
      (q, o, x) ∈ (P'.fr t).hd ∧ o.isRemoved = false ∧ s'.info q ≠ none ∧
      (s'.own q = some t → P'.gc.slot q = some x) := by
  intro s' _ q o x hx
  rw [hk] at hx
  cases hx

/-- One slot is changed. -/
theorem Cpl.slots (hC : Cpl cfg P S s) {t : Nat} {sh' : Sh K V} {p : PID} {x : Obj} {n : Chain K V}
    (hsl : P'.gc.slot = Gc.set P.gc.slot p (some x)) (hmt : sh'.mt = upd S.sh.mt p (some n))
    (hne : S.sh.mt p ≠ some n) :
    ∀ s', Nx cfg t s s' sh' → ∀ q, P'.gc.slot q = P.gc.slot q ∨ ∀ u, u ≠ t → s'.own q ≠ some u := by
  intro s' hn q
  by_cases e : q = p
  · subst e
    right
    intro u hu
    refine hn.own ?_ hu
    rw [hmt, upd_same, hC.smt]
    exact fun e => hne e.symm
  · left
    rw [hsl, Gc.set_other _ _ e]

/-- Accesses that leave the mapping table alone. -/
theorem Cpl.accessLocal (hC : Cpl cfg P S s) {t : Nat} {c : Spec.Call K V}
    {p p' : Prog K V (Out K V)} {sh' : Sh K V} (ht : P.th t = .run c p)
    (ha : AStep S.sh p sh' p') (h0 : sh'.mt = S.sh.mt)
    (h1 : sh'.root = P'.root) (h2 : sh'.cells = P'.cells) (h3 : sh'.npid = P'.npid)
    (h4 : sh'.ncell = P'.ncell) (hth : P'.th = upd P.th t (.run c p')) (hit : P'.it = P.it)
    (hfr : ∀ u, u ≠ t → P'.fr u = P.fr u) (hM : MInv P' S.sh.mt) (hg : gp cfg p' Over (P'.fr t))
    (hsl : P'.gc.slot = P.gc.slot)
    (hB : (P'.fr t).chk = none ∨ ((P'.fr t).chk = (P.fr t).chk ∧ (P.fr t).hd ⊆ (P'.fr t).hd)) :
    ∃ S' s', SysStep cfg S none S' ∧ Cpl cfg P' S' s' := by
  refine hC.access ht ha h1 h2 h3 h4 hth hit hfr (by rw [h0]; exact hM) hg
    (fun _ _ q => Or.inl (by rw [hsl])) ?_
  rcases hB with hB | ⟨hB, hB'⟩
  · exact noChk hB
  · exact hC.keepChk hB hB' fun q _ => ⟨by rw [h0, hC.smt], by rw [hsl]⟩

theorem Chain.delta_ne (d : Delta K V) (c : Chain K V) : Chain.delta d c ≠ c := by
  intro e
  have := congrArg sizeOf e
  simp at this

/-- A split finds the head it has rechecked. -/
theorem Cpl.split_slot (hC : Cpl cfg P S s) {t : Nat} {c : Spec.Call K V} {p : PID} {n : Node K V}
    {k : Prog K V (Out K V)} {o : Chain K V} {x : Obj} (ht : P.th t = .run c (.store p (.base n) k))
    (hk : (P.fr t).chk = some (p, o, x)) : s.own p = some t ∧ P.gc.slot p = some x := by
  obtain ⟨h1, h2, h3, h4⟩ := hC.chk t p o x hk
  suffices h : s.own p = some t from ⟨h, h4 h⟩
  obtain ⟨s', hs', hn⟩ := hC.nx ht (AStep.store S.sh p (.base n) k)
  rcases (hC.pre ht s Rely.rfl hC.sound.inv trivial).1 with h | ⟨_, _, _, h, _⟩ | ⟨head, l, r, q, h, hw, _⟩
  · obtain ⟨F, hF⟩ := Option.ne_none_iff_exists'.1 h3
    obtain ⟨cc, hcc, _⟩ := hC.sound.inv.p.slot p F.1 F.2 hF
    rw [h] at hcc
    cases hcc
  · exact h
  · have := hC.sound.inv.p.frozen p head h3 h hw
    cases ho : s.own p with
    | none => exact absurd ho this
    | some v =>
      by_cases hv : v = t
      · rw [hv]
      · exfalso
        obtain ⟨a, _⟩ := (hn.guar.rely v hv).own p ho
        obtain ⟨c', hc', hw'⟩ := hn.inv'.p.owned p v a (hn.guar.mono.info_ne h3)
        rw [hn.mt, show ({ S.sh with mt := upd S.sh.mt p (some (.base n)) } : Sh K V).mt =
          upd S.sh.mt p (some (.base n)) from rfl, upd_same] at hc'
        obtain rfl := Option.some.inj hc'
        rcases hw' with h | ⟨⟨b, h⟩, _⟩
        · rw [needWait_base] at h; cases h
        · cases h

/-- What a successful CAS finds. -/
theorem Cpl.cas (hC : Cpl cfg P S s) {t : Nat} {c : Spec.Call K V} {p : PID} {o n : Chain K V}
    {k : Bool → Prog K V (Out K V)} {x : Obj} (ht : P.th t = .run c (.cas p o n k))
    (hh : (p, o, x) ∈ (P.fr t).hd) (hs : P.gc.slot p = some x) :
    S.sh.mt p = some o ∧ o.isRemoved = false ∧ s.info p ≠ none := by
  have hm := (hC.mem.expect hh hs).1
  have := ((hC.pre ht s Rely.rfl hC.sound.inv trivial).2 (by rw [hC.smt]; exact hm)).1
  exact ⟨hm, this.1, this.2⟩

theorem Cpl.cell (hC : Cpl cfg P S s) {t : Nat} {w : Nat}
    (h : ∃ p c h, (p, c, h) ∈ (P.fr t).hd ∧ CellIn w c) : CellOk P w := by
  obtain ⟨p, c, x, hx, hw⟩ := h
  obtain ⟨⟨l, hl⟩, hR⟩ := hC.mem.hd t p c x hx
  obtain ⟨o, ho, d, y, hm, hd⟩ := hR.cell hw
  obtain ⟨g, hg⟩ := hC.mem.guard_hd hx
  exact ⟨o, d, y, hC.mem.cellA o d y w (held_safe hC.mem.gcr hg hl ho) hm hd, hm, hd⟩

/-- No access is without cover. -/
theorem Cpl.not_bad (hC : Cpl cfg P S s) {t : Nat} {c : Spec.Call K V} {p : Prog K V (Out K V)}
    (ht : P.th t = .run c p) : ¬ Bad cfg P t p := by
  have hg := hC.disc t c p ht
  have hw := hC.pre ht
  intro hb
  cases p with
  | load p k =>
    obtain ⟨ch, hch, _⟩ := hw s Rely.rfl hC.sound.inv trivial
    rw [hC.smt] at hch
    cases hs : P.gc.slot p with
    | none => rw [hC.mem.empty p hs] at hch; cases hch
    | some x =>
      obtain ⟨c', _, hR⟩ := hC.mem.slot p x hs
      exact hb x c' _ hs hR.1
  | store p ch k =>
    obtain ⟨n, rfl, hg⟩ := hg
    refine hb ⟨n, rfl, ?_⟩
    rcases hg with ⟨h, _⟩ | ⟨h1, h2, ⟨rs, h3⟩, _⟩ | ⟨h1, h2, _⟩
    · exact Or.inl h
    · obtain ⟨mk, y, h4, _⟩ := hC.mem.rem t p n (by rw [h3]; exact List.mem_cons_self ..)
      exact Or.inr (Or.inl ⟨h1, h2, ⟨rs, h3⟩, mk, y, h4⟩)
    · exact Or.inr (Or.inr ⟨h1, h2⟩)
  | cas p o n k =>
    obtain ⟨⟨x, hx⟩, _, _, hg⟩ := hg
    rcases hb with hb | ⟨hne, hb⟩
    · exact hb x hx
    · apply hb
      have hg := hg hne
      cases n with
      | base n => trivial
      | removed b =>
        obtain ⟨m, h, _⟩ := hg
        exact ⟨m, h⟩
      | delta d o' =>
        obtain ⟨e, hg⟩ := hg
        refine ⟨e, ?_⟩
        revert hg
        cases d.pay with
        | node m =>
          rintro ⟨⟨q, rs, h⟩, _⟩
          obtain ⟨mk, y, h4, _⟩ := hC.mem.rem t q m (by rw [h]; exact List.mem_cons_self ..)
          exact ⟨q, rs, mk, y, h, h4⟩
        | cell w => exact fun h => h.1
        | val v => exact fun _ => trivial
        | child v => exact fun _ => trivial
        | none => exact fun _ => trivial
  | casRoot o n k =>
    obtain ⟨_, ⟨m, rs, h⟩, _⟩ := hg
    obtain ⟨mk, y, h4, _⟩ := hC.mem.rem t o m (by rw [h]; exact List.mem_cons_self ..)
    exact hb.2 mk y h4
  | loadCell w k => exact hb (hC.cell hg.1)
  | storeCell w p k => exact hb (hC.cell hg.1)
  | ret a => exact hb
  | ub => exact hb
  | stuck => exact hb
  | flag k => exact hb
  | loadRoot k => exact hb
  | storeRoot r k => exact hb
  | newPid k => exact hb
  | newCell k => exact hb

/-- The collector and the allocator. -/
theorem Cpl.stutter (hC : Cpl cfg P S s) (hM : MInv P' S.sh.mt) (h1 : P'.root = P.root)
    (h2 : P'.cells = P.cells) (h3 : P'.npid = P.npid) (h4 : P'.ncell = P.ncell) (h5 : P'.th = P.th)
    (h6 : P'.it = P.it) (h7 : P'.fr = P.fr) (h8 : P'.gc.slot = P.gc.slot) : Cpl cfg P' S s := by
  refine ⟨hM, hC.sound, ?_, ?_, ?_, ?_, ?_, ?_, ?_, ?_⟩
  · rw [h1]; exact hC.root
  · rw [h2]; exact hC.cells
  · rw [h3]; exact hC.npid
  · rw [h4]; exact hC.ncell
  · rw [h5]; exact hC.th
  · rw [h6]; exact hC.it
  · rw [h7, h8]; exact hC.chk
  · rw [h7, h5]; exact hC.disc

/-- Every access is matched. -/
theorem Cpl.tau (hC : Cpl cfg P S s) (hs : PStep cfg gn P none P') :
    Cpl cfg P' S s ∨ ∃ S' s', SysStep cfg S none S' ∧ Cpl cfg P' S' s' := by
  cases hs with
  | loadRoot t c k ht =>
    right
    have hg := hC.disc t _ _ ht
    refine hC.accessLocal ht (AStep.loadRoot S.sh k) rfl hC.root hC.cells hC.npid hC.ncell
      (by rw [hC.root]) rfl (fun _ _ => rfl) (hC.mem.quiet ht _ _) (by rw [hC.root]; exact hg _) rfl
      (Or.inr ⟨rfl, fun _ h => h⟩)
  | storeRoot t c r k ht =>
    right
    have hg := hC.disc t _ _ ht
    exact hC.accessLocal ht (AStep.storeRoot S.sh r k) rfl rfl hC.cells hC.npid hC.ncell
      rfl rfl (fun _ _ => rfl) (hC.mem.quiet ht _ _) hg rfl (Or.inr ⟨rfl, fun _ h => h⟩)
  | casRootOk t c o n k mk y ht hr hrem =>
    right
    obtain ⟨_, ⟨m, rs, hrs⟩, hg⟩ := hC.disc t _ _ ht
    refine hC.accessLocal ht (AStep.casRootOk S.sh o n k (hC.root.trans hr)) rfl rfl hC.cells hC.npid
      hC.ncell rfl rfl (fun u hu => upd_ne _ _ hu) (hC.mem.dropRoot _ ht hrs hrem) ?_ rfl ?_ <;>
      simp only [upd_same]
    · exact hg
    · exact Or.inr ⟨rfl, fun _ h => h⟩
  | casRootFail t c o n k ht hr =>
    right
    obtain ⟨hg, _⟩ := hC.disc t _ _ ht
    exact hC.accessLocal ht (AStep.casRootFail S.sh o n k (by rw [hC.root]; exact hr)) rfl hC.root
      hC.cells hC.npid hC.ncell rfl rfl (fun _ _ => rfl) (hC.mem.quiet ht _ _) hg rfl
      (Or.inr ⟨rfl, fun _ h => h⟩)
  | load t c p k x ch l ht hsl hR =>
    right
    have hg := hC.disc t _ _ ht
    refine hC.accessLocal ht (AStep.load S.sh p k ch (hC.mem.loaded hsl hR).1) rfl hC.root
      hC.cells hC.npid hC.ncell rfl rfl (fun u hu => upd_ne _ _ hu) (hC.mem.load ht hsl hR) ?_
      (by rw [eff_load hsl]) ?_ <;> simp only [upd_same]
    · exact hg ch x
    · exact Or.inr ⟨rfl, fun _ h => List.mem_cons_of_mem _ h⟩
  | publish t c p n k x ht hp hx =>
    right
    obtain ⟨n', e, hg⟩ := hC.disc t _ _ ht
    cases e
    have hg : ∀ x, gp cfg k Over ((P.fr t).pub p (.base n) x) := by
      rcases hg with h | h | h
      · exact h.2
      · rw [h.1] at hp; cases hp
      · rw [h.1] at hp; cases hp
    have hsn := (hC.mem.new t p hp).1
    have hmn := hC.mem.empty p hsn
    refine hC.access ht (AStep.store S.sh p (.base n) k) hC.root hC.cells hC.npid hC.ncell rfl rfl
      (fun u hu => upd_ne _ _ hu) (hC.mem.publish ht hp hx) ?_
      (hC.slots (p := p) (x := x) (n := .base n) rfl rfl (by rw [hmn]; simp))
      (hC.keepChk ?_ ?_ ?_) <;> simp only [upd_same]
    · exact hg x
    · rfl
    · exact fun _ h => List.mem_cons_of_mem _ h
    · intro q hq
      have hne : q ≠ p := by
        rintro rfl
        obtain ⟨F, hF⟩ := Option.ne_none_iff_exists'.1 hq
        obtain ⟨cc, hcc, _⟩ := hC.sound.inv.p.slot q F.1 F.2 hF
        rw [hC.smt, hmn] at hcc
        cases hcc
      refine ⟨?_, Gc.set_other _ _ hne⟩
      rw [hC.smt]
      exact upd_ne _ _ hne
  | restore t c p n k rs mk y ht hnew hchk hrs hrem =>
    right
    obtain ⟨n', e, hg⟩ := hC.disc t _ _ ht
    cases e
    have hg : gp cfg k Over (P.fr t).pop := by
      rcases hg with h | h | ⟨_, ⟨o, x, h⟩, _⟩
      · rw [hnew] at h; cases h.1
      · exact h.2.2.2
      · rw [hchk] at h; cases h
    obtain ⟨hmem, hloc, hsl, hmk⟩ := hC.mem.rem_head hrs hrem
    refine hC.access ht (AStep.store S.sh p (.base n) k) hC.root hC.cells hC.npid hC.ncell rfl rfl
      (fun u hu => upd_ne _ _ hu) (hC.mem.restore ht hrs hrem) ?_
      (hC.slots (p := p) (x := y) (n := .base n) rfl rfl ?_) (noChk ?_)
    · simp only [upd_same]; exact hg
    · intro e
      obtain ⟨c', h1, h2⟩ := hC.mem.slot p mk hsl
      rw [e] at h1
      obtain rfl := Option.some.inj h1
      rw [h2.2] at hmk
      cases hmk
    · simp only [upd_same]; exact hchk
  | split t c p n k o x y ht hnew hchk hy =>
    right
    obtain ⟨n', e, hg⟩ := hC.disc t _ _ ht
    cases e
    have hg : gp cfg k Over (P.fr t).fail := by
      rcases hg with h | h | h
      · rw [hnew] at h; cases h.1
      · rw [hchk] at h; cases h.2.1
      · exact h.2.2
    obtain ⟨hown, hsl⟩ := hC.split_slot ht hchk
    obtain ⟨h1, h2, h3, h4⟩ := hC.chk t p o x hchk
    refine hC.access ht (AStep.store S.sh p (.base n) k) hC.root hC.cells hC.npid hC.ncell rfl rfl
      (fun u hu => upd_ne _ _ hu) (hC.mem.replace ht h1 hsl h2 hy) ?_
      (hC.slots (p := p) (x := y) (n := .base n) rfl rfl ?_) (noChk ?_)
    · simp only [upd_same]; exact hg
    · intro e
      obtain ⟨c', hc', hw⟩ := hC.sound.inv.p.owned p t hown h3
      rw [hC.smt, e] at hc'
      obtain rfl := Option.some.inj hc'
      rcases hw with h | ⟨⟨b, h⟩, _⟩
      · rw [needWait_base] at h; cases h
      · cases h
    · simp only [upd_same]; rfl
  | casFail t c p o n k ht =>
    right
    obtain ⟨_, hg, _⟩ := hC.disc t _ _ ht
    refine hC.accessLocal ht (AStep.casFail S.sh p o n k) rfl hC.root
      hC.cells hC.npid hC.ncell rfl rfl (fun u hu => upd_ne _ _ hu) (hC.mem.setChk ht none) ?_ rfl
      (Or.inl ?_) <;> simp only [upd_same]
    · exact hg
    · rfl
  | same t c p o k x ht hh hsl =>
    right
    obtain ⟨_, _, hg, _⟩ := hC.disc t _ _ ht
    obtain ⟨hm, hrm, hi⟩ := hC.cas ht hh hsl
    have hmt : upd S.sh.mt p (some o) = S.sh.mt := by
      funext q
      by_cases e : q = p
      · subst e; rw [upd_same, hm]
      · rw [upd_ne _ _ e]
    refine hC.access ht (AStep.casOk S.sh p o o k hm) hC.root hC.cells hC.npid hC.ncell rfl rfl
      (fun u hu => upd_ne _ _ hu) ?_ ?_ (fun _ _ q => Or.inl rfl) ?_
    · show MInv _ (upd S.sh.mt p (some o))
      rw [hmt]
      exact hC.mem.setChk ht _
    · simp only [upd_same]; exact hg rfl x hh
    · intro s' hn q o' x' hx
      simp only [upd_same] at hx ⊢
      have hx' : some (p, o, x) = some (q, o', x') := hx
      cases hx'
      exact ⟨hh, hrm, hn.guar.mono.info_ne hi, fun _ => hsl⟩
  | push t c p o d k x y ht hh hsl hy hd1 hd2 =>
    right
    obtain ⟨_, _, _, hg⟩ := hC.disc t _ _ ht
    have hg := (hg (Chain.delta_ne d o)).2
    obtain ⟨hm, hrm, hi⟩ := hC.cas ht hh hsl
    refine hC.access ht (AStep.casOk S.sh p o (.delta d o) k hm) hC.root hC.cells hC.npid hC.ncell rfl
      rfl (fun u hu => upd_ne _ _ hu)
      (hC.mem.push (ca := P.cellAt) (cs := (P.fr t).cs) ht hh hsl hrm hy hd1
        (fun w hw => absurd hw (hd2 w)) (fun _ => Or.inl rfl)
        (fun w hw => ⟨hw, (hC.mem.cs t w hw).1⟩) (hC.mem.csNd t)) ?_
      (hC.slots (p := p) (x := y) (n := .delta d o) rfl rfl ?_) (noChk ?_)
    · simp only [upd_same]
      revert hg
      cases hp : d.pay with
      | node m => exact absurd hp (hd1 m)
      | cell w => exact absurd hp (hd2 w)
      | val v => exact fun h => h y
      | child v => exact fun h => h y
      | none => exact fun h => h y
    · rw [hm]
      exact fun e => Chain.delta_ne d o (Option.some.inj e).symm
    · simp only [upd_same]; rfl
  | pushCell t c p o d k w x y ht hh hsl hy hdw hw =>
    right
    obtain ⟨_, _, _, hg⟩ := hC.disc t _ _ ht
    have hg := (hg (Chain.delta_ne d o)).2
    rw [hdw] at hg
    obtain ⟨hm, hrm, hi⟩ := hC.cas ht hh hsl
    refine hC.access ht (AStep.casOk S.sh p o (.delta d o) k hm) hC.root hC.cells hC.npid hC.ncell rfl
      rfl (fun u hu => upd_ne _ _ hu)
      (hC.mem.push (ca := upd P.cellAt w (some y)) (cs := (P.fr t).cs.erase w) ht hh hsl hrm hy
        (fun m => by rw [hdw]; simp) ?_ ?_ ?_ ((hC.mem.csNd t).erase w)) ?_
      (hC.slots (p := p) (x := y) (n := .delta d o) rfl rfl ?_) (noChk ?_)
    · intro w' hw'
      rw [hdw] at hw'
      cases hw'
      exact upd_same _ _ _
    · intro w'
      by_cases e : w' = w
      · subst e; exact Or.inr hw
      · exact Or.inl (upd_ne _ _ e)
    · intro w' hw'
      rw [(hC.mem.csNd t).mem_erase_iff] at hw'
      exact ⟨hw'.2, (upd_ne _ _ hw'.1).trans (hC.mem.cs t w' hw'.2).1⟩
    · simp only [upd_same]; exact hg.2 y
    · rw [hm]
      exact fun e => Chain.delta_ne d o (Option.some.inj e).symm
    · simp only [upd_same]; rfl
  | merge t c p o d k q m rs mk y x z ht hh hsl hz hd hrs hrem =>
    right
    obtain ⟨_, _, _, hg⟩ := hC.disc t _ _ ht
    have hg := (hg (Chain.delta_ne d o)).2
    rw [hd] at hg
    obtain ⟨hm, hrm, hi⟩ := hC.cas ht hh hsl
    refine hC.access ht (AStep.casOk S.sh p o (.delta d o) k hm) hC.root hC.cells hC.npid hC.ncell rfl
      rfl (fun u hu => upd_ne _ _ hu) (hC.mem.merge ht hh hsl hrm hz hd hrs hrem) ?_
      (hC.slots (p := p) (x := z) (n := .delta d o) rfl rfl ?_) (noChk ?_)
    · simp only [upd_same]; exact hg.2 z
    · rw [hm]
      exact fun e => Chain.delta_ne d o (Option.some.inj e).symm
    · simp only [upd_same]; rfl
  | replace t c p o n k x y ht hne hh hsl hy =>
    right
    obtain ⟨_, _, _, hg⟩ := hC.disc t _ _ ht
    have hg := hg hne
    obtain ⟨hm, hrm, hi⟩ := hC.cas ht hh hsl
    refine hC.access ht (AStep.casOk S.sh p o (.base n) k hm) hC.root hC.cells hC.npid hC.ncell rfl
      rfl (fun u hu => upd_ne _ _ hu) (hC.mem.replace ht hh hsl hrm hy) ?_
      (hC.slots (p := p) (x := y) (n := .base n) rfl rfl ?_) (noChk ?_)
    · simp only [upd_same]; exact hg
    · rw [hm]
      exact fun e => hne (Option.some.inj e).symm
    · simp only [upd_same]; rfl
  | mark t c p o b k m x y z ht hne hh hsl hy hz hyz htc =>
    right
    obtain ⟨_, _, _, hg⟩ := hC.disc t _ _ ht
    obtain ⟨m', hm', hg⟩ := hg hne
    rw [htc] at hm'
    cases hm'
    obtain ⟨hm, hrm, hi⟩ := hC.cas ht hh hsl
    refine hC.access ht (AStep.casOk S.sh p o (.removed b) k hm) hC.root hC.cells hC.npid hC.ncell rfl
      rfl (fun u hu => upd_ne _ _ hu) (hC.mem.mark ht hh hsl hrm hy hz hyz) ?_
      (hC.slots (p := p) (x := y) (n := .removed b) rfl rfl ?_) (noChk ?_)
    · simp only [upd_same]; exact hg
    · rw [hm]
      exact fun e => hne (Option.some.inj e).symm
    · simp only [upd_same]; rfl
  | newPid t c k ht =>
    right
    have hg := hC.disc t _ _ ht
    refine hC.accessLocal ht (AStep.newPid S.sh k) rfl hC.root
      hC.cells ?_ hC.ncell (by rw [hC.npid]) rfl (fun u hu => upd_ne _ _ hu) (hC.mem.newPid ht) ?_ rfl
      (Or.inr ?_) <;> simp only [upd_same]
    · show S.sh.npid + 1 = _
      rw [hC.npid]
    · rw [hC.npid]; exact hg _
    · exact ⟨rfl, fun _ h => h⟩
  | newCell t c k ht =>
    right
    have hg := hC.disc t _ _ ht
    refine hC.accessLocal ht (AStep.newCell S.sh k) rfl hC.root
      ?_ hC.npid ?_ (by rw [hC.ncell]) rfl (fun u hu => upd_ne _ _ hu) (hC.mem.newCell ht _) ?_ rfl
      (Or.inr ?_) <;> simp only [upd_same]
    · show upd S.sh.cells S.sh.ncell 0 = _
      rw [hC.ncell, hC.cells]
    · show S.sh.ncell + 1 = _
      rw [hC.ncell]
    · rw [hC.ncell]; exact hg _
    · exact ⟨rfl, fun _ h => h⟩
  | loadCell t c w k ht hw =>
    right
    have hg := hC.disc t _ _ ht
    refine hC.accessLocal ht (AStep.loadCell S.sh w k) rfl hC.root hC.cells hC.npid hC.ncell
      (by rw [hC.cells]) rfl (fun _ _ => rfl) (hC.mem.quiet ht _ _) (by rw [hC.cells]; exact hg.2 _) rfl
      (Or.inr ⟨rfl, fun _ h => h⟩)
  | storeCell t c w q k ht hw =>
    right
    have hg := hC.disc t _ _ ht
    refine hC.accessLocal ht (AStep.storeCell S.sh w q k) rfl hC.root ?_ hC.npid hC.ncell
      rfl rfl (fun _ _ => rfl) (hC.mem.quiet ht _ _) hg.2 rfl (Or.inr ⟨rfl, fun _ h => h⟩)
    show upd S.sh.cells w q = _
    rw [hC.cells]
  | bad t c p ht hb => exact absurd hb (hC.not_bad ht)
  | alloc t o r ho =>
    exact Or.inl (hC.stutter (hC.mem.alloc r ho) rfl rfl rfl rfl rfl rfl rfl rfl)
  | write t o r ho =>
    exact Or.inl (hC.stutter (hC.mem.write r ho) rfl rfl rfl rfl rfl rfl rfl rfl)
  | release t o ho =>
    exact Or.inl (hC.stutter (hC.mem.release ho) rfl rfl rfl rfl rfl rfl rfl rfl)
  | retire t o ho =>
    exact Or.inl (hC.stutter (hC.mem.retire ho) rfl rfl rfl rfl rfl rfl rfl rfl)
  | free o r ho =>
    exact Or.inl (hC.stutter (hC.mem.free r ho) rfl rfl rfl rfl rfl rfl rfl rfl)

/-- A call or return. -/
theorem Cpl.border (hc : CfgOK2 cfg) (hC : Cpl cfg P S s) {t : Nat} {x : TSt K V} {a : Act} {it}
    {e : Spec.Event K V} (hs : SysStep cfg S (some e)
      { S with th := upd S.th t x, it := it })
    (ha : a = .enter t ∧ x ≠ .idle ∨ a = .leave t ∧ x = .idle)
    (hp : Gc.Pre P.gc a) (hr : (P.fr t).rems = [])
    (hg : ∀ c prog, x = .run c prog → gp cfg prog Over .empty) :
    ∃ S' s', SysStep cfg S (some e) S' ∧ Cpl cfg
      { P with gc := Gc.eff P.gc a, fr := upd P.fr t .empty, th := upd P.th t x, it := it } S' s' := by
  obtain ⟨ops, h1, _, _⟩ := hC.sound.event hc hs
  have e1 : (Gc.eff P.gc a).slot = P.gc.slot := by rcases ha with ⟨rfl, _⟩ | ⟨rfl, _⟩ <;> rfl
  refine ⟨_, _, hs, hC.mem.border ha hp hr, h1, hC.root, hC.cells, hC.npid, hC.ncell, ?_, rfl, ?_, ?_⟩
  · show upd S.th t x = _
    rw [hC.th]
  · intro u p o y hx
    have hx' : (upd P.fr t .empty u).chk = some (p, o, y) := hx
    show _ ∈ (upd P.fr t .empty u).hd ∧ _ ∧ s.info p ≠ none ∧
      (s.own p = some u → (Gc.eff P.gc a).slot p = some y)
    rw [e1]
    by_cases hu : u = t
    · subst hu
      rw [upd_same] at hx'
      cases hx'
    · rw [upd_ne _ _ hu] at hx' ⊢
      exact hC.chk u p o y hx'
  · intro u c prog hu
    have hu' : upd P.th t x u = .run c prog := hu
    show gp cfg prog Over (upd P.fr t .empty u)
    by_cases e : u = t
    · subst e
      rw [upd_same] at hu' ⊢
      exact hg c prog hu'
    · rw [upd_ne _ _ e] at hu' ⊢
      exact hC.disc u c prog hu'

theorem calm_empty : Calm (Frm.empty : Frm K V) := ⟨rfl, rfl⟩

theorem scan_gp {p : Prog K V (List (K × V) × Option (K × PID))} {e : Spec.Bound K}
    (h : gpS cfg p (fun _ _ => True) Frm.empty) :
    gp cfg (p.bind fun x => .ret (visitOut e x)) Over (Frm.empty : Frm K V) :=
  gp_bind' h fun _ _ h => ⟨h.1.rems, h.1.new⟩

theorem Cpl.leave (hC : Cpl cfg P S s) {t : Nat} {c : Spec.Call K V} {r : Out K V}
    (ht : P.th t = .run c (.ret r)) (hd : P.gc.todo t = []) : Gc.Pre P.gc (.leave t) := by
  refine ⟨hC.mem.guard_ne ht, hd, fun p r hp e => ?_⟩
  obtain ⟨m, hm⟩ := hC.mem.remIn p r hp
  have hg : Over _ (P.fr t) := hC.disc t c _ ht
  rw [e, hg.1] at hm
  cases hm

/-- Calls and returns are matched. -/
theorem Cpl.event (hc : CfgOK2 cfg) (hC : Cpl cfg P S s) {e : Spec.Event K V}
    (hs : PStep cfg gn P (some e) P') : ∃ S' s', SysStep cfg S (some e) S' ∧ Cpl cfg P' S' s' := by
  cases hs with
  | op t f o ht =>
    obtain ⟨h1, h2⟩ := hC.mem.idle t ht
    have := hC.border hc (it := P.it) (a := .enter t) (by
      have := SysStep.op (cfg := cfg) S t f o (hC.sth ht)
      rw [← hC.it]
      exact this) (Or.inl ⟨rfl, by simp⟩) h1 (by rw [h2]; rfl) (by
      intro c prog e
      cases e
      exact gp_bind' (runOp_gp o calm_empty) fun _ _ h => ⟨h.rems, h.new⟩)
    exact this
  | scan t f b e ht =>
    obtain ⟨h1, h2⟩ := hC.mem.idle t ht
    have := hC.border hc (it := P.it) (a := .enter t) (by
      have := SysStep.scan (cfg := cfg) S t f b e (hC.sth ht)
      rw [← hC.it]
      exact this) (Or.inl ⟨rfl, by simp⟩) h1 (by rw [h2]; rfl) (by
      intro c prog e
      cases e
      exact scan_gp (scanFirst_gp _))
    exact this
  | next t f p k e _ ht hit =>
    obtain ⟨h1, h2⟩ := hC.mem.idle t ht
    have := hC.border hc (it := P.it) (a := .enter t) (by
      have := SysStep.next (cfg := cfg) S t f p k e (hC.sth ht) (by rw [hC.it]; exact hit)
      rw [← hC.it]
      exact this) (Or.inl ⟨rfl, by simp⟩) h1 (by rw [h2]; rfl) (by
      intro c prog e
      cases e
      exact scan_gp (scanNext_gp _))
    exact this
  | retOp t o r ht hd =>
    have hg : Over _ (P.fr t) := hC.disc t _ _ ht
    have := hC.border hc (it := P.it) (a := .leave t) (by
      have := SysStep.retOp (cfg := cfg) S t o r (hC.sth ht)
      rw [← hC.it]
      exact this) (Or.inr ⟨rfl, rfl⟩) (hC.leave ht hd) hg.1 (by
      intro c prog e
      cases e)
    exact this
  | retVisit t b e r ht hd =>
    have hg : Over _ (P.fr t) := hC.disc t _ _ ht
    have := hC.border hc (it := upd P.it t r.2) (a := .leave t) (by
      have := SysStep.retVisit (cfg := cfg) S t b e r (hC.sth ht)
      rw [← hC.it]
      exact this) (Or.inr ⟨rfl, rfl⟩) (hC.leave ht hd) hg.1 (by
      intro c prog e
      cases e)
    exact this

/-- Executions. -/
theorem Cpl.run (hc : CfgOK2 cfg) (hC : Cpl cfg P S s) {h : List (Spec.Event K V)}
    (hr : PRun cfg gn P h P') : ∃ S' s', Run cfg S h S' ∧ Cpl cfg P' S' s' := by
  induction hr with
  | nil => exact ⟨S, s, .nil, hC⟩
  | tau _ hs ih =>
    obtain ⟨S1, s1, h1, h2⟩ := ih
    rcases h2.tau hs with h3 | ⟨S2, s2, h3, h4⟩
    · exact ⟨S1, s1, h1, h3⟩
    · exact ⟨S2, s2, .tau h1 h3, h4⟩
  | event _ hs ih =>
    obtain ⟨S1, s1, h1, h2⟩ := ih
    obtain ⟨S2, s2, h3, h4⟩ := h2.event hc hs
    exact ⟨S2, s2, .event h1 h3, h4⟩

end BwTree.Mem
