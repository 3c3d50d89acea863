import Verif.Conc.SeqOps
import Verif.Conc.Init

/-!
# Executions of one thread (helper lemmas)
-/

namespace BwTree

set_option linter.unusedSectionVars false

variable {K V : Type} [LinearOrder K] {cfg : Cfg K} {s s' : St K V} {t : Nat}

/-! ## Initial states -/

theorem emptySt_si0 (hc : CfgOK2 cfg) : SI0 cfg (emptySt (K := K) (V := V) cfg) := by
  refine ⟨fun _ => none, emptySt_inv hc, ⟨?_, ?_, ?_, ?_, ?_⟩, ?_, ?_⟩
  · intro p c F low h1 h2 hF
    obtain ⟨_, e⟩ := emptySt_info (cfg := cfg) (V := V) h2
    cases e; exact absurd rfl hF
  · intro q c F k h1 h2 _
    obtain ⟨_, e⟩ := emptySt_info (cfg := cfg) (V := V) h2
    cases e
  · intro p c y q h1 h2
    obtain ⟨_, rfl⟩ := emptySt_cont h1
    simp [Chain.pre, emptyLeaf, Node.pre, Node.leftInner] at h2
  · intro p c F low h1 h2
    obtain ⟨_, e⟩ := emptySt_info (cfg := cfg) (V := V) h2
    cases e
    exact ⟨0, rfl, .refl _⟩
  · exact ⟨.base (emptyLeaf cfg), rfl⟩
  · intro q n h; cases h
  · intro w q h; cases h

theorem down_pred {T F : Nat} (h : F ≤ T) : Down (fun x => x - 1) T F := by
  induction T with
  | zero =>
    have : F = 0 := by omega
    subst this; exact .refl _
  | succ T ih =>
    by_cases e : F = T + 1
    · subst e; exact .refl _
    · exact .step (by omega) (ih (by omega))

/-- Every group but the first one of its layer has an entry in the layer above. -/
theorem InLv.parent {es : List (K × Pay V)} {lv : List (List (Grp K V))} (hok : LvOK cfg es lv)
    {g0 : Grp K V} (hroot : lv.head? = some [g0]) {F : Nat} {A : List (Grp K V)} {g : Grp K V}
    {B : List (Grp K V)} {D : List (List (Grp K V))} (h : InLv lv F A g B D) (hA : A ≠ []) :
    ∃ A' g' B', InLv lv (F + 1) A' g' B' ((A ++ g :: B) :: D) ∧
      (g.hd.1, Pay.child g.pid) ∈
        (node0 cfg true A'.isEmpty g' B'.head?).body := by
  obtain ⟨⟨U, e⟩, hl⟩ := h
  rcases List.eq_nil_or_concat U with e1 | ⟨U', gs, e1⟩
  · subst e1
    rw [e] at hroot
    cases A with
    | nil => exact absurd rfl hA
    | cons a A => simp at hroot
  · have e : lv = U' ++ gs :: ((A ++ g :: B) :: D) := by rw [e, e1]; simp
    have hok' := hok
    rw [e] at hok'
    have h2 := hok'.suffix.2.1
    obtain ⟨a, A, rfl⟩ : ∃ a A', A = a :: A' := by
      cases A with
      | nil => exact absurd rfl hA
      | cons a A => exact ⟨a, A, rfl⟩
    cases gs with
    | nil => simp [entsOf] at h2
    | cons b gs =>
      have h3 : b.tl ++ gs.flatMap Grp.recs = entsOf (A ++ g :: B) := by
        have := congrArg List.tail h2
        simpa [entsOf, Grp.recs] using this
      have hm : (g.hd.1, Pay.child g.pid) ∈ b.tl ++ gs.flatMap Grp.recs := by
        rw [h3]
        exact List.mem_map.mpr ⟨g, by simp, rfl⟩
      rcases List.mem_append.mp hm with hm | hm
      · refine ⟨[], b, gs, ⟨⟨U', e⟩, by simp [hl]⟩, ?_⟩
        simpa [Node.body, Node.leftInner, node0, nodeOf, Grp.recs] using hm
      · obtain ⟨g', hg', hx⟩ := List.mem_flatMap.mp hm
        obtain ⟨A1, B1, rfl⟩ := List.append_of_mem hg'
        refine ⟨b :: A1, g', B1, ⟨⟨U', by rw [e]; simp⟩, by simp [hl]⟩, ?_⟩
        simpa [Node.body, Node.leftInner, node0, nodeOf] using hx

theorem bulkSt_si0 {ids : Nat → Nat → PID} {es : List (K × V)} {T : Tbl K V} {root npid : PID}
    {lv : List (List (Grp K V))} (fix : (∀ k, cfg.klen k = 0) ∨ ∃ n, T root = some n ∧ n.inner = false)
    (hb : Built cfg ids (es.map fun x => (x.1, Pay.val x.2)) T root lv)
    (hs : es.Pairwise fun x y => x.1 < y.1) (h0 : ∀ t i, ids t i ≠ 0)
    (hnp : ∀ p n, T p = some n → p < npid) :
    SI0 cfg (bulkSt T root npid lv (Spec.ofList es)) := by
  obtain ⟨g0, hg0, hroot⟩ := hb.root
  have hrin : ∃ D, InLv lv D.length [] g0 [] D ∧ lv.length = D.length + 1 := by
    cases lv with
    | nil => cases hg0
    | cons x D => cases hg0; exact ⟨D, ⟨⟨[], rfl⟩, rfl⟩, rfl⟩
  obtain ⟨D0, hrin, hlen⟩ := hrin
  refine ⟨fun _ => none, bulkSt_inv fix hb hs h0 hnp, ⟨?_, ?_, ?_, ?_, ?_⟩, ?_, ?_⟩
  · intro p c F low h1 h2 hF
    obtain ⟨A, g, B, D, _, _, _, rfl⟩ := bulkSt_cont hb h1 h2
    trivial
  · intro q c F k h1 h2 _
    obtain ⟨A, g, B, D, a1, rfl, a3, rfl⟩ := bulkSt_cont hb h1 h2
    simp only at a1 a3
    have hA : A ≠ [] := by rintro rfl; cases a3
    have hk : k = g.hd.1 := by
      cases A with
      | nil => exact absurd rfl hA
      | cons a A => exact Option.some.inj a3
    obtain ⟨A', g', B', b1, b2⟩ := a1.parent hb.ok hg0 hA
    have hF : D.length = F := a1.len
    refine ⟨g'.pid, _, F + 1, _, b1.cont hb, b1.info hb.nodup, Nat.succ_ne_zero _, rfl, ?_⟩
    rw [hk]
    exact b2
  · intro p c y q h1 h2
    obtain ⟨F, low, hi⟩ := (bulkSt_inv fix hb hs h0 hnp).l.known p c h1
    obtain ⟨A, g, B, D, a1, rfl, a3, rfl⟩ := bulkSt_cont hb h1 hi
    change (y, Pay.child q) ∈ (node0 cfg (!D.isEmpty) A.isEmpty g B.head?).pre at h2
    cases D with
    | nil => simp [Node.pre, Node.leftInner, node0, nodeOf] at h2
    | cons d ds =>
      have hA : A = [] ∧ (y, Pay.child q) = g.hd := by
        cases A with
        | nil => simpa [Node.pre, Node.leftInner, node0, nodeOf, Grp.recs] using h2
        | cons a A => simp [Node.pre, Node.leftInner, node0, nodeOf] at h2
      obtain ⟨g1, B1, c1, c2⟩ := (a1.child hb.ok).1 _ hA.1 hA.2
      cases c2
      exact ⟨_, c1.cont hb⟩
  · intro p c F low h1 h2
    obtain ⟨A, g, B, D, ⟨⟨U, e⟩, hl⟩, rfl, _⟩ := lvInfo_some h2
    refine ⟨D0.length, ?_, down_pred ?_⟩
    · rw [hroot]; exact hrin.info hb.nodup
    · have := congrArg List.length e
      simp only [List.length_append, List.length_cons] at this
      omega
  · rw [hroot]; exact ⟨_, hrin.cont (npid := npid) hb⟩
  · intro q n h; cases h
  · intro w q h; cases h

/-- Initial states. -/
theorem Init.si0 (hc : CfgOK2 cfg) {m : K → Option V} {sh : Sh K V} (h : Init cfg m sh) :
    ∃ s : St K V, s.toSh = sh ∧ SI0 cfg s := by
  cases h with
  | empty => exact ⟨emptySt cfg, rfl, emptySt_si0 hc⟩
  | @bulk ids threads es T root npid fix inj fresh ne sorted run bound =>
    have h0 : ∀ t i, ids t i ≠ 0 := fun t i e =>
      Nat.not_lt_zero 1 (Nat.lt_of_lt_of_eq (fresh t i) e)
    obtain ⟨T', root', lv, h1, h2⟩ := bulkload_spec inj h0 threads es ne
      (Or.inr (by rw [run]; exact Option.some_ne_none _))
    obtain ⟨rfl, rfl⟩ := Prod.mk.inj (Option.some.inj (h1.symm.trans run))
    exact ⟨_, rfl, bulkSt_si0 fix h2 sorted h0 bound⟩

/-! ## Steps -/

/-- One access of a thread that runs alone. -/
theorem astep_solo {α : Type} {p p' : Prog K V α} {Q : α → St K V → Prop} {sh' : Sh K V}
    (h : sp p Q s) (hs : AStep s.toSh p sh' p') (hub : p' ≠ .ub) : ∃ s', s'.toSh = sh' ∧ sp p' Q s' := by
  generalize hsh : s.toSh = sh at hs
  cases hs with
  | loadRoot k => subst hsh; exact ⟨s, rfl, h⟩
  | storeRoot p k => subst hsh; exact h
  | casRootOk o n k hr => subst hsh; exact h.2 hr
  | casRootFail o n k hr => subst hsh; exact ⟨s, rfl, h.1 hr⟩
  | load p k c hm => subst hsh; exact ⟨s, rfl, h c hm⟩
  | loadNull p k hm => exact absurd rfl hub
  | store p c k => subst hsh; exact h
  | casOk p o n k hm => subst hsh; exact h.2 hm
  | casFail p o n k => subst hsh; exact ⟨s, rfl, h.1⟩
  | newPid k => subst hsh; exact h
  | newCell k => subst hsh; exact h
  | loadCell w k => subst hsh; exact ⟨s, rfl, h⟩
  | storeCell w p k => subst hsh; exact h

/-- What a call of a thread that runs alone ensures; `it` is the iterator the thread holds. -/
def SRet (cfg : Cfg K) (it : Option (PID × K × Spec.Bound K)) (r : Out K V) (s : St K V) : Prop :=
  SI0 cfg s ∧ ItOK s it ∧ ItOK s r.2

/-- What holds in an execution of thread `t` alone. -/
structure SeqR (cfg : Cfg K) (t : Nat) (s : St K V) (S : Sys K V) : Prop where
  sh : s.toSh = S.sh
  others : ∀ u, u ≠ t → S.th u = .idle
  idle : S.th t = .idle → SI0 cfg s ∧ ItOK s (S.it t)
  run : ∀ c p, S.th t = .run c p → sp p (SRet cfg (S.it t)) s

theorem SeqR.call {S : Sys K V} (h : SeqR cfg t s S) {c : Spec.Call K V} {p : Prog K V (Out K V)}
    {s0 : St K V} (hs0 : s0.toSh = S.sh) (hp : sp p (SRet cfg (S.it t)) s0) :
    SeqR cfg t s0 { S with th := upd S.th t (.run c p) } := by
  refine ⟨hs0, ?_, ?_, ?_⟩
  · intro u hu
    simp only [upd_ne _ _ hu]
    exact h.others u hu
  · intro e; simp only [upd_same] at e; cases e
  · intro c' p' e
    simp only [upd_same] at e
    cases e
    exact hp

theorem SeqR.step (hc : CfgOK2 cfg) {S S' : Sys K V} {l : Option (Spec.Event K V)}
    (h : SeqR cfg t s S) (hs : SysStep cfg S l S') (hl : ∀ e, l = some e → e.thread = t)
    (hub : ∀ c, S'.th t ≠ .run c .ub) : ∃ s', SeqR cfg t s' S' := by
  have hthr : ∀ {u c p}, S.th u = .run c p → u = t := by
    intro u c p hu
    by_contra e
    rw [h.others u e] at hu; cases hu
  have hvis : ∀ {s1 : St K V} {e : Spec.Bound K} {p : Prog K V (List (K × V) × Option (K × PID))},
      SI0 cfg s1 → ItOK s1 (S.it t) → ro s1.toSh p (VisOK s1) →
      sp (p.bind fun x => .ret (visitOut e x)) (SRet cfg (S.it t)) s1 := by
    intro s1 e p h1 h2 h3
    apply sp_of_ro h3
    intro x hx
    refine ⟨h1, h2, ?_⟩
    intro p k e' he
    cases hx2 : x.2 with
    | none => rw [visitOut, hx2] at he; cases he
    | some y =>
      rw [visitOut, hx2] at he
      have he' : (y.2, y.1, e) = (p, k, e') := Option.some.inj he
      have h1 : y.2 = p := congrArg Prod.fst he'
      have h2 : y.1 = k := congrArg (fun z => z.2.1) he'
      rw [← h1, ← h2]
      exact hx _ _ hx2
  cases hs with
  | op u f o hi =>
    have hu : u = t := hl _ rfl
    subst hu
    obtain ⟨⟨fl, h1⟩, h2⟩ := h.idle hi
    refine ⟨{ s with ops := Spec.setOp s.ops u (.pending (.op o)) }, h.call h.sh ?_⟩
    apply sp_then (runOp_solo (t := u) hc f (h1.setOps _) (by simp [Spec.setOp]))
    rintro r s2 ⟨h3, h4⟩
    exact ⟨h3, fun p k e he => h4.info _ _ (h2 p k e he), fun p k e h => by cases h⟩
  | scan u f b e hi =>
    have hu : u = t := hl _ rfl
    subst hu
    obtain ⟨⟨fl, h1⟩, h2⟩ := h.idle hi
    exact ⟨s, h.call h.sh (hvis ⟨fl, h1⟩ h2 (scanFirst_solo hc h1 f))⟩
  | next u f p k e hi hit =>
    have hu : u = t := hl _ rfl
    subst hu
    obtain ⟨⟨fl, h1⟩, h2⟩ := h.idle hi
    exact ⟨s, h.call h.sh (hvis ⟨fl, h1⟩ h2 (scanNext_solo hc h1 f (h2 p k e hit)))⟩
  | step u c p p' sh' ht ha =>
    have hu := hthr ht
    subst hu
    rw [← h.sh] at ha
    obtain ⟨s', e1, e2⟩ := astep_solo (h.run c p ht) ha (by
      rintro rfl
      exact hub c (upd_same _ _ _))
    refine ⟨s', e1, ?_, ?_, ?_⟩
    · intro v hv
      simp only [upd_ne _ _ hv]
      exact h.others v hv
    · intro e; simp only [upd_same] at e; cases e
    · intro c' q e
      simp only [upd_same] at e
      cases e
      exact e2
  | retOp u o r ht =>
    have hu := hthr ht
    subst hu
    obtain ⟨h1, h2, _⟩ := h.run _ _ ht
    refine ⟨s, h.sh, ?_, fun _ => ⟨h1, h2⟩, ?_⟩
    · intro v hv
      simp only [upd_ne _ _ hv]
      exact h.others v hv
    · intro c' q e
      simp only [upd_same] at e
      cases e
  | retVisit u b e r ht =>
    have hu := hthr ht
    subst hu
    obtain ⟨h1, _, h2⟩ := h.run _ _ ht
    refine ⟨s, h.sh, ?_, fun _ => ⟨h1, ?_⟩, ?_⟩
    · intro v hv
      simp only [upd_ne _ _ hv]
      exact h.others v hv
    · simp only [upd_same]; exact h2
    · intro c' q e
      simp only [upd_same] at e
      cases e

end BwTree
