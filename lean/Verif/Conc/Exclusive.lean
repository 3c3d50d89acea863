import Verif.Conc.Readers

/-!
# Writes that overlap with no other call (helper lemmas)
-/

namespace BwTree

set_option linter.unusedSectionVars false

variable {K V : Type} [LinearOrder K] {cfg : Cfg K}

/-- Active calls have been called and have not returned. -/
theorem Run.active {S₀ S : Sys K V} {h : List (Spec.Event K V)} (h0 : ∀ t, S₀.th t = .idle)
    (hr : Run cfg S₀ h S) : ∀ t c p, S.th t = .run c p →
    ∃ h1 h2, h = h1 ++ .inv t c :: h2 ∧ ∀ c' r, .ret t c' r ∉ h2 := by
  have keep : ∀ {h : List (Spec.Event K V)} {S S' : Sys K V} {e : Spec.Event K V} {u t : Nat} {c p},
      (∀ t c p, S.th t = .run c p → ∃ h1 h2, h = h1 ++ .inv t c :: h2 ∧ ∀ c' r, .ret t c' r ∉ h2) →
      t ≠ u → (∀ c r, e ≠ .ret t c r) → S.th t = .run c p →
      ∃ h1 h2, h ++ [e] = h1 ++ .inv t c :: h2 ∧ ∀ c' r, .ret t c' r ∉ h2 := by
    intro h S S' e u t c p ih hne he ht
    obtain ⟨h1, h2, e1, e2⟩ := ih t c p ht
    refine ⟨h1, h2 ++ [e], by simp [e1], fun c' r hm => ?_⟩
    rcases List.mem_append.mp hm with hm | hm
    · exact e2 c' r hm
    · exact he c' r (List.mem_singleton.mp hm).symm
  induction hr with
  | nil => intro t c p ht; rw [h0 t] at ht; cases ht
  | tau _ hs ih =>
    intro t c p ht
    cases hs with
    | step u c' x x' sh' hu _ =>
      by_cases e : t = u
      · subst e
        simp only [upd_same] at ht
        cases ht
        exact ih _ _ _ hu
      · simp only [upd_ne _ _ e] at ht
        exact ih _ _ _ ht
  | @event h S S' e _ hs ih =>
    intro t c p ht
    cases hs with
    | op u f o hu =>
      by_cases e : t = u
      · subst e
        simp only [upd_same] at ht
        cases ht
        exact ⟨h, [], by simp, by simp⟩
      · simp only [upd_ne _ _ e] at ht
        exact keep (S' := S) ih e (by intros; simp) ht
    | scan u f b e' hu =>
      by_cases e : t = u
      · subst e
        simp only [upd_same] at ht
        cases ht
        exact ⟨h, [], by simp, by simp⟩
      · simp only [upd_ne _ _ e] at ht
        exact keep (S' := S) ih e (by intros; simp) ht
    | next u f q k e' hu hit =>
      by_cases e : t = u
      · subst e
        simp only [upd_same] at ht
        cases ht
        exact ⟨h, [], by simp, by simp⟩
      · simp only [upd_ne _ _ e] at ht
        exact keep (S' := S) ih e (by intros; simp) ht
    | retOp u o r hu =>
      by_cases e : t = u
      · subst e
        simp only [upd_same] at ht
        cases ht
      · simp only [upd_ne _ _ e] at ht
        exact keep (S' := S) ih e (by intro c r h; cases h; exact e rfl) ht
    | retVisit u b e' r hu =>
      by_cases e : t = u
      · subst e
        simp only [upd_same] at ht
        cases ht
      · simp only [upd_ne _ _ e] at ht
        exact keep (S' := S) ih e (by intro c r h; cases h; exact e rfl) ht

/-- A point operation, with what it keeps. -/
theorem Rested.opKeeps {s : St K V} {it : Option (PID × K × Spec.Bound K)} (h : Rested cfg s it)
    (hR : Roomy cfg) (hc : CfgOK2 cfg) (o : Spec.Op K V) : ∃ s0 : St K V, s0.toSh = s.toSh ∧
    ∃ N, ∀ j f, N + j ≤ f → tp j (runOp cfg f o) (fun _ s' => Rested cfg s' it ∧
      ∀ x, ItOK s x → ItOK s' x) s0 := by
  obtain ⟨⟨fl, h1⟩, h2, h3⟩ := h
  refine ⟨{ s with ops := Spec.setOp s.ops 0 (.pending (.op o)) }, rfl,
    need cfg { s with ops := Spec.setOp s.ops 0 (.pending (.op o)) }, fun j f hf => ?_⟩
  refine tp_mono (runOp_tot (t := 0) hR hc (h1.setOps _) h2 (by simp [Spec.setOp]) hf) ?_
  rintro _ s' ⟨i1, i2, i3⟩
  exact ⟨⟨i1, i3, fun p k e he => i2.info _ _ (h3 p k e he)⟩,
    fun x hx p k e he => i2.info _ _ (hx p k e he)⟩

/-- What a thread in a call that only reads has done, when the shared memory has not changed
meanwhile. -/
inductive ReadPart (cfg : Cfg K) (s : St K V) : Spec.Call K V → Prog K V (Out K V) → Prop
  | op {f n j : Nat} {o : Spec.Op K V} {q : Prog K V (Spec.Res V)} : o.isWrite = false →
      Loose n j s.toSh (runOp cfg f o) s.toSh q → q.ReadsOnly →
      ReadPart cfg s (.op o) (q.bind fun r => .ret (.res r, none))
  | scan {f n j : Nat} {b e : Spec.Bound K} {q : Prog K V (List (K × V) × Option (K × PID))} :
      Loose n j s.toSh (scanFirst cfg f b e) s.toSh q → q.ReadsOnly →
      ReadPart cfg s (.visit b e) (q.bind fun x => .ret (visitOut e x))
  | next {f n j : Nat} {p : PID} {k : K} {e : Spec.Bound K}
      {q : Prog K V (List (K × V) × Option (K × PID))} : ItOK s (some (p, k, e)) →
      Loose n j s.toSh (scanNext cfg f p k e) s.toSh q → q.ReadsOnly →
      ReadPart cfg s (.visit (some (k, true)) e) (q.bind fun x => .ret (visitOut e x))

theorem ReadPart.read {s : St K V} {c : Spec.Call K V} {p : Prog K V (Out K V)}
    (h : ReadPart cfg s c p) : c.isWrite = false := by
  cases h with
  | op h => exact h
  | _ => rfl

theorem readsOnly_bind_inv {α : Type} {sh sh' sh0 : Sh K V} {P p : Prog K V α}
    {g : α → Prog K V (Out K V)} {q : Prog K V (Out K V)} {n j : Nat} (hg : ∀ a, ∃ b, g a = .ret b)
    (hl : Loose n j sh0 P sh p) (hp : p.ReadsOnly) (hs : Sure sh (p.bind g) sh' q) :
    sh' = sh ∧ ∃ n' j' p', q = p'.bind g ∧ Loose n' j' sh0 P sh p' ∧ p'.ReadsOnly := by
  have h1 : (p.bind g).ReadsOnly := hp.bind fun a => by
    obtain ⟨b, hb⟩ := hg a
    rw [hb]; trivial
  obtain ⟨e1, _⟩ := h1.step hs.step
  subst e1
  refine ⟨rfl, ?_⟩
  rcases hs.step.bindInv with ⟨x, rfl⟩ | ⟨p', e2, rfl⟩
  · obtain ⟨b, hb⟩ := hg x
    have := hs.step
    simp only [Prog.bind, hb] at this
    cases this
  · refine ⟨n + 1, j, p', rfl, hl.snoc ⟨e2, ?_⟩, (hp.step e2).2⟩
    rintro x o c k rfl _
    exact hp.elim

theorem ReadPart.step {s : St K V} {c : Spec.Call K V} {p p' : Prog K V (Out K V)} {sh' : Sh K V}
    (h : ReadPart cfg s c p) (hs : Sure s.toSh p sh' p') : sh' = s.toSh ∧ ReadPart cfg s c p' := by
  cases h with
  | op hw hl hq =>
    obtain ⟨e1, _, _, q', rfl, e2, e3⟩ := readsOnly_bind_inv (fun a => ⟨_, rfl⟩) hl hq hs
    exact ⟨e1, .op hw e2 e3⟩
  | scan hl hq =>
    obtain ⟨e1, _, _, q', rfl, e2, e3⟩ := readsOnly_bind_inv (fun a => ⟨_, rfl⟩) hl hq hs
    exact ⟨e1, .scan e2 e3⟩
  | next hi hl hq =>
    obtain ⟨e1, _, _, q', rfl, e2, e3⟩ := readsOnly_bind_inv (fun a => ⟨_, rfl⟩) hl hq hs
    exact ⟨e1, .next hi e2 e3⟩

/-- What a visit returns. -/
theorem ReadPart.it {s : St K V} (hc : CfgOK2 cfg) (hr : Rested cfg s none) {b e : Spec.Bound K}
    {r : Out K V} (h : ReadPart cfg s (.visit b e) (.ret r)) : ItOK s r.2 := by
  obtain ⟨⟨fl, h2⟩, h3, _⟩ := hr
  generalize hp : (Prog.ret r : Prog K V (Out K V)) = p at h
  cases h with
  | scan hl hq =>
    obtain ⟨a, rfl, e⟩ := ret_of_bind hp.symm
    cases e
    exact (rt_det (scanFirst_tot hc h2 h3 (Nat.le_max_right _ _))
      ((scanFirst_ext (Nat.le_max_left _ _)).looseRet hl)).2.it
  | next hi hl hq =>
    obtain ⟨a, rfl, e⟩ := ret_of_bind hp.symm
    cases e
    exact (rt_det (scanNext_tot hc h2 h3 (Nat.le_max_right _ _) (hi _ _ _ rfl))
      ((scanNext_ext (Nat.le_max_left _ _)).looseRet hl)).2.it

/-- What holds in executions in which writes exclude all other calls. -/
structure Excl (cfg : Cfg K) (S : Sys K V) : Prop where
  state : ∃ s : St K V, Rested cfg s none ∧ (∀ t, ItOK s (S.it t)) ∧
    ((S.sh = s.toSh ∧ ∀ t c p, S.th t = .run c p → ReadPart cfg s c p) ∨
      ∃ t o, Spec.Op.isWrite o = true ∧ Writing cfg s.toSh S t o ∧ ∀ u, u ≠ t → S.th u = .idle)

/-- When a call is made, an active write must have returned, and a write must find all threads idle. -/
theorem exclusive_call {sh0 : Sh K V} {h : List (Spec.Event K V)} {S : Sys K V}
    (hr : SureRun cfg (Sys.start sh0) h S) {t : Nat} {c : Spec.Call K V}
    (he : Spec.Exclusive (h ++ [.inv t c])) {u : Nat} {c' : Spec.Call K V} {p : Prog K V (Out K V)}
    (hu : S.th u = .run c' p) : c'.isWrite = false ∧ c.isWrite = false := by
  obtain ⟨h1, h2, e1, e2⟩ := hr.run.active (fun _ => rfl) u c' p hu
  by_contra hn
  have hn : c'.isWrite = true ∨ c.isWrite = true := by
    rcases Bool.eq_false_or_eq_true c'.isWrite with a | a
    · exact Or.inl a
    · rcases Bool.eq_false_or_eq_true c.isWrite with b | b
      · exact Or.inr b
      · exact absurd ⟨a, b⟩ hn
  obtain ⟨r, hm⟩ := he h1 h2 [] u t c' c (by simp [e1]) hn
  exact e2 _ _ hm

theorem upd_run {th : Nat → TSt K V} {t u : Nat} {x : TSt K V} {P : Spec.Call K V → Prog K V (Out K V) → Prop}
    (h : ∀ t c p, th t = .run c p → P c p) (hx : ∀ c p, x = .run c p → P c p) {c p}
    (hu : upd th t x u = .run c p) : P c p := by
  by_cases e : u = t
  · subst e
    rw [upd_same] at hu
    exact hx c p hu
  · rw [upd_ne _ _ e] at hu
    exact h u c p hu

theorem Excl.step (hR : Roomy cfg) (hc : CfgOK2 cfg) {sh0 : Sh K V} {h : List (Spec.Event K V)}
    {S S' : Sys K V} {l : Option (Spec.Event K V)} (hr : SureRun cfg (Sys.start sh0) h S)
    (hx : Excl cfg S) (hst : SureStep cfg S l S') (he : Spec.Exclusive (h ++ l.toList)) :
    Excl cfg S' := by
  obtain ⟨s, g1, g2, g3⟩ := hx
  have call : ∀ {t : Nat} {c : Spec.Call K V}, Spec.Exclusive (h ++ [.inv t c]) →
      (S.sh = s.toSh ∧ ∀ t c p, S.th t = .run c p → ReadPart cfg s c p) ∧
        (c.isWrite = true → ∀ u, S.th u = .idle) := by
    intro t c he
    refine ⟨?_, fun hw u => ?_⟩
    · rcases g3 with g3 | ⟨w, o, g3, ⟨f, n, j, p, e1, _⟩, _⟩
      · exact g3
      · have := (exclusive_call hr he e1).1
        rw [Spec.Call.isWrite, g3] at this
        cases this
    · cases hu : S.th u with
      | idle => rfl
      | run c' p =>
        have := (exclusive_call hr he hu).2
        rw [hw] at this; cases this
  cases hst with
  | access t c p p' sh' ht hp =>
    rcases g3 with ⟨g3, g4⟩ | ⟨w, o, g3, ⟨f, n, j, q, e1, e2⟩, g4⟩
    · rw [g3] at hp
      obtain ⟨e1, e2⟩ := (g4 t c p ht).step hp
      refine ⟨s, g1, g2, Or.inl ⟨e1, fun u c' p' hu => upd_run g4 ?_ hu⟩⟩
      intro c1 p1 h1; cases h1; exact e2
    · have hw : t = w := by
        by_contra hne
        rw [g4 t hne] at ht; cases ht
      subst hw
      rw [e1] at ht
      cases ht
      obtain ⟨n', j', q', rfl, e4⟩ := sure_loose (fun a => ⟨_, rfl⟩) e2 hp
      exact ⟨s, g1, g2, Or.inr ⟨t, o, g3, ⟨f, n', j', q', upd_same _ _ _, e4⟩,
        fun u hu => by simp only [upd_ne _ _ hu]; exact g4 u hu⟩⟩
  | event hst =>
    cases hst with
    | op t f o ht =>
      obtain ⟨⟨c1, c2⟩, c3⟩ := call he
      cases hw : o.isWrite with
      | false =>
        refine ⟨s, g1, g2, Or.inl ⟨c1, fun u c' p' hu => upd_run c2 ?_ hu⟩⟩
        intro c1 p1 h1; cases h1
        exact .op hw (.refl _ _) (read_reads f o hw)
      | true =>
        refine ⟨s, g1, g2, Or.inr ⟨t, o, hw, ⟨f, 0, 0, _, upd_same _ _ _, by rw [← c1]; exact .refl _ _⟩,
          fun u hu => ?_⟩⟩
        simp only [upd_ne _ _ hu]
        exact c3 hw u
    | scan t f b e ht =>
      obtain ⟨⟨c1, c2⟩, _⟩ := call he
      refine ⟨s, g1, g2, Or.inl ⟨c1, fun u c' p' hu => upd_run c2 ?_ hu⟩⟩
      intro c1 p1 h1; cases h1
      exact .scan (.refl _ _) (scanFirst_reads _ _ _)
    | next t f p k e ht hit =>
      obtain ⟨⟨c1, c2⟩, _⟩ := call he
      refine ⟨s, g1, g2, Or.inl ⟨c1, fun u c' p' hu => upd_run c2 ?_ hu⟩⟩
      intro c1 p1 h1; cases h1
      exact .next (hit ▸ g2 t) (.refl _ _) (scanNext_reads _ _ _ _)
    | retOp t o r ht =>
      rcases g3 with ⟨g3, g4⟩ | ⟨w, o', g3, ⟨f, n, j, q, e1, e2⟩, g4⟩
      · refine ⟨s, g1, g2, Or.inl ⟨g3, fun u c' p' hu => upd_run g4 ?_ hu⟩⟩
        intro c1 p1 h1; cases h1
      · have hw : t = w := by
          by_contra hne
          rw [g4 t hne] at ht; cases ht
        subst hw
        rw [e1] at ht
        injection ht with ht1 ht2
        cases ht1
        obtain ⟨a, rfl, e3⟩ := ret_of_bind ht2
        cases e3
        obtain ⟨s0, k1, N, k2⟩ := g1.opKeeps hR hc o
        rw [← k1] at e2
        obtain ⟨s', k3, k4, k5⟩ := tp_det (k2 j (max f (N + j)) (Nat.le_max_right _ _))
          ((runOp_ext (Nat.le_max_left f (N + j)) o).looseRet e2)
        refine ⟨s', k4, fun u => k5 _ (g2 u), Or.inl ⟨k3.symm, fun u c p hu => ?_⟩⟩
        by_cases e : u = t
        · subst e; simp only [upd_same] at hu; cases hu
        · simp only [upd_ne _ _ e] at hu
          rw [g4 u e] at hu; cases hu
    | retVisit t b e r ht =>
      rcases g3 with ⟨g3, g4⟩ | ⟨w, o', g3, ⟨f, n, j, q, e1, e2⟩, g4⟩
      · refine ⟨s, g1, fun u => ?_, Or.inl ⟨g3, fun u c' p' hu => upd_run g4 ?_ hu⟩⟩
        · by_cases e' : u = t
          · subst e'; simp only [upd_same]; exact (g4 _ _ _ ht).it hc g1
          · simp only [upd_ne _ _ e']; exact g2 u
        · intro c1 p1 h1; cases h1
      · exfalso
        by_cases hne : t = w
        · subst hne; rw [e1] at ht; cases ht
        · rw [g4 t hne] at ht; cases ht

theorem SureRun.excl (hR : Roomy cfg) (hc : CfgOK2 cfg) {m : K → Option V} {sh0 : Sh K V}
    (hi : Init cfg m sh0) {h : List (Spec.Event K V)} {S : Sys K V}
    (hr : SureRun cfg (Sys.start sh0) h S) (he : Spec.Exclusive h) : Excl cfg S := by
  induction hr with
  | nil =>
    obtain ⟨s, h1, h2, h3⟩ := hi.tot hc
    exact ⟨s, ⟨h2, h3, fun _ _ _ e => by cases e⟩, (fun _ _ _ _ e => by cases e),
      Or.inl ⟨h1.symm, fun _ _ _ e => by cases e⟩⟩
  | tau hr hs ih => exact (ih he).step hR hc hr hs (by simpa using he)
  | event hr hs ih => exact (ih he.left).step hR hc hr hs he

/-! ## Progress -/

/-- The program stands at no undefined behaviour and no event of `Flag`. -/
def Prog.Fine {α : Type} (p : Prog K V α) : Prop := p ≠ .ub ∧ ∀ k, p ≠ .flag k

theorem Prog.Fine.bind {α β : Type} {p : Prog K V α} (h : p.Fine) {g : α → Prog K V β}
    (hg : ∀ a, ∃ b, g a = .ret b) : (p.bind g).Fine := by
  cases p with
  | ub => exact absurd rfl h.1
  | flag k => exact absurd rfl (h.2 k)
  | ret a => obtain ⟨b, hb⟩ := hg a; simp only [Prog.bind, hb]; exact ⟨nofun, nofun⟩
  | _ => exact ⟨nofun, nofun⟩

/-- A program that goes on with a larger bound on its loops is fine. -/
theorem fine_of {α : Type} {p P q : Prog K V α} {n j : Nat} {sh sh' : Sh K V} (hx : Ext p P)
    (hl : Loose n j sh p sh' q)
    (hP : ∀ q', Loose n j sh P sh' q' → (∃ r, q' = .ret r) ∨ ∃ sh'' q'', Firm sh' q' sh'' q'') :
    q.Fine := by
  obtain ⟨q', h1, h2⟩ := hx.loose hl
  refine ⟨?_, fun k => ?_⟩
  · rintro rfl
    cases h2
    obtain ⟨r, e⟩ | ⟨_, _, e⟩ := hP _ h1
    · cases e
    · cases e.step
  · rintro rfl
    cases h2
    obtain ⟨r, e⟩ | ⟨_, _, e⟩ := hP _ h1
    · cases e
    · cases e.step

theorem rt_goes {α : Type} {s : St K V} {p : Prog K V α} {P : α → Prop} (h : rt s.toSh p P) {n j : Nat}
    {sh' : Sh K V} {q : Prog K V α} (hl : Loose n j s.toSh p sh' q) :
    (∃ r, q = .ret r) ∨ ∃ sh'' q'', Firm sh' q sh'' q'' := by
  obtain ⟨m, a, h1, _⟩ := rt_run h
  obtain ⟨_, _, h2⟩ := rt_loose h hl
  obtain ⟨_, h3⟩ := h1.prefix h2
  generalize m - n = d at h3
  generalize s.toSh = s1 at h3
  cases h3 with
  | refl => exact Or.inl ⟨_, rfl⟩
  | step f _ => exact Or.inr ⟨_, _, f⟩

theorem Rested.op_fine {s : St K V} {it : Option (PID × K × Spec.Bound K)} (h : Rested cfg s it)
    (hR : Roomy cfg) (hc : CfgOK2 cfg) {o : Spec.Op K V} {f n j : Nat} {sh' : Sh K V}
    {q : Prog K V (Spec.Res V)} (hl : Loose n j s.toSh (runOp cfg f o) sh' q) : q.Fine := by
  obtain ⟨s0, h3, N, h4⟩ := h.op hR hc o
  obtain ⟨m, h5⟩ := tp_closes (h4 j (max f (N + j)) (Nat.le_max_right _ _))
  rw [h3] at h5
  refine fine_of (runOp_ext (Nat.le_max_left f (N + j)) o) hl fun q' hq => ?_
  obtain ⟨_, ⟨a, _, e, _, _⟩ | e⟩ := h5 _ (.refl _) _ _ _ _ (Nat.le_refl _) hq
  · exact Or.inl ⟨a, e⟩
  · exact Or.inr e

theorem ReadPart.fine (hR : Roomy cfg) (hc : CfgOK2 cfg) {s : St K V} (hr : Rested cfg s none)
    {c : Spec.Call K V} {p : Prog K V (Out K V)} (h : ReadPart cfg s c p) : p.Fine := by
  have hr' := hr
  obtain ⟨⟨fl, h2⟩, h3, _⟩ := hr'
  cases h with
  | op hw hl hq => exact (hr.op_fine hR hc hl).bind fun a => ⟨_, rfl⟩
  | scan hl hq =>
    exact (fine_of (scanFirst_ext (Nat.le_max_left _ _)) hl fun q' h =>
      rt_goes (scanFirst_tot hc h2 h3 (Nat.le_max_right _ _)) h).bind fun a => ⟨_, rfl⟩
  | next hi hl hq =>
    exact (fine_of (scanNext_ext (Nat.le_max_left _ _)) hl fun q' h =>
      rt_goes (scanNext_tot hc h2 h3 (Nat.le_max_right _ _) (hi _ _ _ rfl)) h).bind fun a => ⟨_, rfl⟩

theorem Excl.fine (hR : Roomy cfg) (hc : CfgOK2 cfg) {S : Sys K V} (hx : Excl cfg S) {t : Nat}
    {c : Spec.Call K V} {p : Prog K V (Out K V)} (ht : S.th t = .run c p) : p.Fine := by
  obtain ⟨s, g1, _, ⟨_, g3⟩ | ⟨w, o, _, ⟨f, n, j, q, e1, e2⟩, g4⟩⟩ := hx
  · exact (g3 t c p ht).fine hR hc g1
  · by_cases hne : t = w
    · subst hne
      rw [e1] at ht; cases ht
      exact (g1.op_fine hR hc e2).bind fun a => ⟨_, rfl⟩
    · rw [g4 t hne] at ht; cases ht

end BwTree
