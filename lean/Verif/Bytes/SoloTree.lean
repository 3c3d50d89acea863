import Verif.Bytes.StrSpec
import Verif.Props.SeqTotal

/-!
# One thread on the bytes of a tree (proof side)
-/

namespace BwTree.Bytes

open Layout (Mem BBound Enc)

set_option linter.unusedSectionVars false

variable {K V : Type} [LinearOrder K] {cfg : Cfg K} {e : Enc K V} {L : Lay} {OK : Chain K V → Prop}
  {Img : Chain K V → L.C → Prop} {NI : Node K V → L.N → Prop} {DI : Delta K V → L.D → Prop}
  {legal : Spec.Call Str Str → Prop} {lt : Str → Str → Bool} {lim : Nat} {m : K → Option V}
  {M : Str → Option Str} {b0 : BSh L.C}

/-- Sessions from `sh0`, with the contents `m`, work. -/
structure Ready (cfg : Cfg K) (m : K → Option V) (sh0 : Sh K V) : Prop where
  meets : ∀ {l sh it}, Session cfg sh0 l sh it → Spec.Meets m l
  rested : ∀ {l sh it}, Session cfg sh0 l sh it → ∃ s : St K V, s.toSh = sh ∧ Rested cfg s it

theorem Ready.init (hR : Roomy cfg) (hc : CfgOK2 cfg) {sh0 : Sh K V} (hi : Init cfg m sh0) :
    Ready cfg m sh0 := ⟨fun h => h.meets hc hi, fun h => h.rested hR hc hi⟩

theorem Ready.op_ends (hR : Roomy cfg) (hc : CfgOK2 cfg) {sh0 sh : Sh K V} (hi : Ready cfg m sh0)
    {l : List (Spec.Call K V × Spec.Ret K V)} {it : Option (PID × K × Spec.Bound K)}
    (h : Session cfg sh0 l sh it) (o : Spec.Op K V) :
    ∃ n sh' N, ∀ f, N ≤ f → FirmRun n sh (BwTree.runOp cfg f o) sh'
        (.ret (Spec.apply (Spec.mapAfterAll m (l.map Prod.fst)) o).2) := by
  obtain ⟨s1, rfl, g2⟩ := hi.rested h
  obtain ⟨s0, g3, N, g4⟩ := g2.op hR hc o
  obtain ⟨n, s', r, g5, _⟩ := tp_run (g4 0 N (Nat.le_refl _))
  rw [g3] at g5
  have g6 : ∀ f, N ≤ f → FirmRun n s1.toSh (BwTree.runOp cfg f o) s'.toSh (.ret r) :=
    fun f hf => (runOp_ext hf o).firmRet g5
  have g7 := h.op (g6 N (Nat.le_refl _)).loose
  have g8 := (Spec.Meets.append.mp (hi.meets g7)).2.1
  have g9 : r = (Spec.apply (Spec.mapAfterAll m (l.map Prod.fst)) o).2 := by
    generalize he : (Spec.Call.op o : Spec.Call K V) = c at g8
    generalize hr : (Spec.Ret.res r : Spec.Ret K V) = r' at g8
    change Spec.Step _ c _ r' at g8
    cases g8 with
    | op o' => cases he; cases hr; rfl
    | visit => cases he
  subst g9
  exact ⟨n, s'.toSh, N, g6⟩

theorem Ready.scan_ends (hc : CfgOK2 cfg) {sh0 sh : Sh K V} (hi : Ready cfg m sh0)
    {l : List (Spec.Call K V × Spec.Ret K V)} {it : Option (PID × K × Spec.Bound K)}
    (h : Session cfg sh0 l sh it) (b e : Spec.Bound K) :
    ∃ n x N, ∀ f, N ≤ f → FirmRun n sh (BwTree.scanFirst cfg f b e) sh (.ret x) := by
  obtain ⟨s, rfl, ⟨fl, h2⟩, h3, h4⟩ := hi.rested h
  obtain ⟨n, x, h5, _⟩ := rt_run (scanFirst_tot hc h2 h3 (b := b) (e := e) (Nat.le_refl _))
  exact ⟨n, x, _, fun f hf => (scanFirst_ext hf).firmRet h5⟩

theorem Ready.next_ends (hc : CfgOK2 cfg) {sh0 sh : Sh K V} (hi : Ready cfg m sh0)
    {l : List (Spec.Call K V × Spec.Ret K V)} {p : PID} {k : K} {e : Spec.Bound K}
    (h : Session cfg sh0 l sh (some (p, k, e))) :
    ∃ n x N, ∀ f, N ≤ f → FirmRun n sh (BwTree.scanNext cfg f p k e) sh (.ret x) := by
  obtain ⟨s, rfl, ⟨fl, h2⟩, h3, h4⟩ := hi.rested h
  obtain ⟨n, x, h5, _⟩ := rt_run (scanNext_tot hc h2 h3 (e := e) (Nat.le_refl _) (h4 p k e rfl))
  exact ⟨n, x, _, fun f hf => (scanNext_ext hf).firmRet h5⟩

/-- The bytes `b0` of a tree with contents `M`. -/
structure Setup (cfg : Cfg K) (e : Enc K V) (L : Lay) (OK : Chain K V → Prop)
    (Img : Chain K V → L.C → Prop) (NI : Node K V → L.N → Prop) (DI : Delta K V → L.D → Prop)
    (legal : Spec.Call Str Str → Prop) (lt : Str → Str → Bool) (lim : Nat) (m : K → Option V)
    (M : Str → Option Str) (b0 : BSh L.C) : Prop where
  lay : LayOK cfg e L OK Img NI DI
  legal : ∀ c, legal c → ∃ c', c = call e c'
  keys : Function.Injective e.key
  lt : ∀ a b, lt (e.key a) (e.key b) = decide (a < b)
  room : Roomy cfg
  ok : CfgOK2 cfg
  map : MapI e m M
  start : ∃ sh0 hist0, Ready cfg m sh0 ∧ ShI Img hist0 sh0 b0 ∧ ModelOK cfg OK lim sh0

variable (S : Setup cfg e L OK Img NI DI legal lt lim m M b0)
include S

/-- A session on bytes with its session on records. -/
theorem Setup.sim {l : List (Spec.Call Str Str × Spec.Ret Str Str)} {b : BSh L.C}
    {it : Option (PID × Str × BBound)} (h : BSession L legal b0 l b it) (hlim : b.npid ≤ lim) :
    ∃ sh0 l' sh it' hist, Ready cfg m sh0 ∧ ModelOK cfg OK lim sh0 ∧ l = l'.map (callRet e) ∧
      it = it'.map (iter e) ∧ Session cfg sh0 l' sh it' ∧ ShI Img hist sh b := by
  obtain ⟨sh0, hist0, h1, h2, h3⟩ := S.start
  obtain ⟨l', sh, it', hist, g1, g2, g3, g4⟩ := session_sim S.lay S.legal h2 h3 h hlim
  exact ⟨sh0, l', sh, it', hist, h1, h3, g1, g2, g3, g4⟩

theorem Setup.meets {l : List (Spec.Call Str Str × Spec.Ret Str Str)} {b : BSh L.C}
    {it : Option (PID × Str × BBound)} (h : BSession L legal b0 l b it) (hlim : b.npid ≤ lim) :
    @Spec.Meets Str Str _ (strLT lt) M l := by
  obtain ⟨sh0, l', sh, it', hist, h1, _, rfl, _, h4, _⟩ := S.sim h hlim
  exact meets_enc S.lt S.keys S.map (h1.meets h4)

theorem Setup.op_ends {l : List (Spec.Call Str Str × Spec.Ret Str Str)} {b : BSh L.C}
    {it : Option (PID × Str × BBound)} (h : BSession L legal b0 l b it) (hlim : b.npid ≤ lim)
    {o : Spec.Op Str Str} (ho : legal (.op o)) :
    ∃ n N, ∀ f, N ≤ f → BEnds (fun b' => lim < b'.npid)
      (fun r _ => r = (Spec.apply (Spec.mapAfterAll M (l.map Prod.fst)) o).2) n b (runOp L f o) := by
  obtain ⟨sh0, l', sh, it', hist, h1, h2, rfl, _, h4, h5⟩ := S.sim h hlim
  obtain ⟨c, hc⟩ := S.legal _ ho
  obtain ⟨o', rfl, rfl⟩ := call_op hc
  obtain ⟨n, sh', N, g1⟩ := h1.op_ends S.room S.ok h4 o'
  refine ⟨n, N, fun f hf => ?_⟩
  refine (ends_sim (stop := fun b' => lim < b'.npid) (fun _ h _ => h) _ h5
    (fun G _ => runOp_psim S.lay f o') (runOp_solo f _ b) (h2.op h4 f o') (g1 f hf)).mono ?_
  rintro r b' ⟨rfl, _⟩
  exact (((S.map.afterAll S.keys l').apply S.keys o').2).symm

/-- A visit ends, changes nothing and has no exception. -/
theorem Setup.visit {α β : Type} {P : α → β → Prop} {sh : Sh K V} {b : BSh L.C} {n : Nat} {a : α}
    {p : Prog K V α} {q : BProg L.C β} {hist : Nat → Chain K V} (hlim : b.npid ≤ lim)
    (h5 : ShI Img hist sh b) (hp : ∀ G, Agree hist b.nid G → PSim G OK Img P p q)
    (hq : Solo q (Same b) b) (hs : Safe OK lim sh p) (hr : FirmRun n sh p sh (.ret a)) :
    BEnds (fun _ => False) (fun r b' => P a r ∧ b' = b) n b q :=
  (ends_sim (stop := fun _ => False) (fun b' h1 h2 => by
    have := h5.npid
    have h3 : lim < sh.npid := Nat.lt_of_lt_of_le h1 h2
    rw [← this] at h3
    exact absurd hlim (Nat.not_le_of_lt h3)) _ h5 hp hq hs hr).mono fun _ _ h => ⟨h.1, h.2.1⟩

/-- What a visit yields is right. -/
theorem Setup.page {l' : List (Spec.Call K V × Spec.Ret K V)} {sh0 sh : Sh K V}
    {it : Option (PID × K × Spec.Bound K)} {b x : Spec.Bound K} {y : List (K × V) × Option (K × PID)}
    (hi : Ready cfg m sh0)
    (h : Session cfg sh0 (l' ++ [(.visit b x, (BwTree.visitOut x y).1)]) sh it) :
    @Spec.PageOK Str Str (strLT lt) (Spec.mapAfterAll M ((l'.map (callRet e)).map Prod.fst)) (e.bound b)
      (e.bound x) (e.scan y).1 ((e.scan y).2.map Prod.fst) := by
  have h3 := (Spec.Meets.append.mp (hi.meets h)).2.1
  have h4 : Spec.PageOK (Spec.mapAfterAll m (l'.map Prod.fst)) b x y.1 (y.2.map Prod.fst) := by
    generalize hr : (BwTree.visitOut x y).1 = r at h3
    change Spec.Step _ (.visit b x) _ r at h3
    obtain ⟨y1, y2⟩ := y
    cases h3 with
    | visit _ _ recs next ok =>
      cases y2 <;> cases hr <;> exact ok
  have h5 := pageOK_enc S.lt S.keys (S.map.afterAll S.keys l') h4
  have h6 : (e.scan y).2.map Prod.fst = (y.2.map Prod.fst).map e.key := by
    obtain ⟨y1, y2⟩ := y
    cases y2 <;> rfl
  rw [h6]
  exact h5

theorem Setup.scan_ends {l : List (Spec.Call Str Str × Spec.Ret Str Str)} {b : BSh L.C}
    {it : Option (PID × Str × BBound)} (h : BSession L legal b0 l b it) (hlim : b.npid ≤ lim)
    {bb eb : BBound} (ho : legal (.visit bb eb)) :
    ∃ n N, ∀ f, N ≤ f → BEnds (fun _ => False)
      (fun x b' => b' = b ∧ @Spec.PageOK Str Str (strLT lt) (Spec.mapAfterAll M (l.map Prod.fst)) bb eb x.1
        (x.2.map Prod.fst)) n b (scanFirst L f bb eb) := by
  obtain ⟨sh0, l', sh, it', hist, h1, h2, rfl, _, h4, h5⟩ := S.sim h hlim
  obtain ⟨c, hc⟩ := S.legal _ ho
  obtain ⟨bb', eb', rfl, rfl, rfl⟩ := call_visit hc
  obtain ⟨n, y, N, g1⟩ := h1.scan_ends S.ok h4 bb' eb'
  refine ⟨n, N, fun f hf => ?_⟩
  refine (S.visit hlim h5 (fun G _ => scanFirst_psim S.lay f bb' eb') (scanFirst_solo f _ _ b)
    (h2.scan h4 f bb' eb') (g1 f hf)).mono ?_
  rintro x b' ⟨rfl, h6⟩
  exact ⟨h6, S.page h1 (h4.scan (g1 f hf).loose)⟩

theorem Setup.next_ends {l : List (Spec.Call Str Str × Spec.Ret Str Str)} {b : BSh L.C}
    {p : PID} {k : Str} {eb : BBound} (h : BSession L legal b0 l b (some (p, k, eb)))
    (hlim : b.npid ≤ lim) :
    ∃ n N, ∀ f, N ≤ f → BEnds (fun _ => False)
      (fun x b' => b' = b ∧ @Spec.PageOK Str Str (strLT lt) (Spec.mapAfterAll M (l.map Prod.fst))
        (some (k, true)) eb x.1 (x.2.map Prod.fst)) n b (scanNext L f p k eb) := by
  obtain ⟨sh0, l', sh, it', hist, h1, h2, rfl, hit, h4, h5⟩ := S.sim h hlim
  cases it' with
  | none => cases hit
  | some z =>
    obtain ⟨p', k', eb'⟩ := z
    cases hit
    obtain ⟨n, y, N, g1⟩ := h1.next_ends S.ok h4
    refine ⟨n, N, fun f hf => ?_⟩
    refine (S.visit hlim h5 (fun G _ => scanNext_psim S.lay f p' k' eb') (scanNext_solo f _ _ _ b)
      (h2.next h4 f) (g1 f hf)).mono ?_
    rintro x b' ⟨rfl, h6⟩
    exact ⟨h6, S.page h1 (h4.next (g1 f hf).loose)⟩

/-! ## Whole scans -/

/-- An iterator reaches the end. -/
theorem Setup.finish {sh0 : Sh K V} (hi : Ready cfg m sh0) (hm : ModelOK cfg OK lim sh0) {s : St K V}
    {b : BSh L.C} {hist : Nat → Chain K V} (hs : ShI Img hist s.toSh b) (hlim : b.npid ≤ lim)
    {x : Spec.Bound K} : ∀ (N : Nat) {l' : List (Spec.Call K V × Spec.Ret K V)} {p : PID} {k : K},
    (after s 0 (some k)).card < N →
    BSession L legal b0 (l'.map (callRet e)) b (some (p, e.key k, e.bound x)) →
    Session cfg sh0 l' s.toSh (some (p, k, x)) → Rested cfg s (some (p, k, x)) →
    ∃ vs, BSession L legal b0 ((l' ++ vs.map (visitCall x)).map (callRet e)) b none ∧
      Session cfg sh0 (l' ++ vs.map (visitCall x)) s.toSh none ∧
      Spec.Linked (some (k, true)) vs ∧ Spec.Finished vs := by
  intro N
  induction N with
  | zero => intro l' p k hn; exact absurd hn (Nat.not_lt_zero _)
  | succ N ih =>
    intro l' p k hn hb h ⟨⟨fl, h2⟩, h3, h4⟩
    obtain ⟨n, y, h5, h6⟩ := rt_run (scanNext_tot S.ok h2 h3 (e := x) (Nat.le_refl _) (h4 p k x rfl))
    have h7 := h.next h5.loose
    obtain ⟨b', q', g1, g2⟩ := (S.visit hlim hs (fun G _ => scanNext_psim S.lay _ p k x)
      (scanNext_solo _ _ _ _ b) (hm.next h _) h5).exists
    rcases g2 with g2 | ⟨a, rfl, rfl, rfl⟩
    · exact g2.elim
    have h8 := hb.next g1
    obtain ⟨recs, nx⟩ := y
    cases nx with
    | none =>
      refine ⟨[⟨some (k, true), recs, none⟩], ?_, h7, ⟨rfl, fun h => absurd rfl h⟩, ⟨_, rfl, rfl⟩⟩
      rw [List.map_append]; exact h8
    | some y =>
      obtain ⟨k', p'⟩ := y
      have hlt : k < k' := by
        have hm := (Spec.Meets.append.mp (hi.meets h7)).2.1
        cases hm with
        | visit _ _ _ _ ok =>
          rcases ok.next_from k' k true rfl rfl with e | ⟨e, _⟩
          · exact e
          · cases e
      have hcard := after_lt h2.inv (low := some k) (h6 k' p' rfl) (by intro x hx; cases hx; exact hlt)
      have hN : (after s 0 (some k')).card < N := by omega
      have h9 : BSession L legal b0 ((l' ++ [(Spec.Call.visit (some (k, true)) x,
          (BwTree.visitOut x (recs, some (k', p'))).1)]).map (callRet e)) b'
          (some (p', e.key k', e.bound x)) := by
        rw [List.map_append]; exact h8
      obtain ⟨vs, i1, i2, i3, i4⟩ := ih hN h9 h7 ⟨⟨fl, h2⟩, h3, h6.it⟩
      refine ⟨⟨some (k, true), recs, some k'⟩ :: vs, ?_, ?_, ⟨rfl, fun _ => ⟨k', rfl, i3⟩⟩, ?_⟩
      · rw [List.map_cons, List.append_cons]; exact i1
      · rw [List.map_cons, List.append_cons]; exact i2
      · obtain ⟨v, e1, e2⟩ := i4
        refine ⟨v, ?_, e2⟩
        cases vs with
        | nil => cases e1
        | cons a b => rw [List.getLast?_cons_cons]; exact e1

/-- A scan reaches the end. -/
theorem Setup.scan_all {sh0 sh : Sh K V} (hi : Ready cfg m sh0) (hm : ModelOK cfg OK lim sh0)
    {b : BSh L.C} {hist : Nat → Chain K V} (hs : ShI Img hist sh b) (hlim : b.npid ≤ lim)
    {l' : List (Spec.Call K V × Spec.Ret K V)} {it : Option (PID × K × Spec.Bound K)}
    {it' : Option (PID × Str × BBound)}
    (hb : BSession L legal b0 (l'.map (callRet e)) b it') (h : Session cfg sh0 l' sh it)
    (bb x : Spec.Bound K) (hl : legal (.visit (e.bound bb) (e.bound x))) :
    ∃ vs, BSession L legal b0 ((l' ++ vs.map (visitCall x)).map (callRet e)) b none ∧
      Session cfg sh0 (l' ++ vs.map (visitCall x)) sh none ∧ Spec.Linked bb vs ∧ Spec.Finished vs := by
  obtain ⟨s, rfl, ⟨fl, h2⟩, h3, h4⟩ := hi.rested h
  obtain ⟨n, y, h5, h6⟩ := rt_run (scanFirst_tot S.ok h2 h3 (b := bb) (e := x) (Nat.le_refl _))
  have h7 := h.scan h5.loose
  obtain ⟨b', q', g1, g2⟩ := (S.visit hlim hs (fun G _ => scanFirst_psim S.lay _ bb x)
    (scanFirst_solo _ _ _ b) (hm.scan h _ bb x) h5).exists
  rcases g2 with g2 | ⟨a, rfl, rfl, rfl⟩
  · exact g2.elim
  have h8 := hb.scan hl g1
  obtain ⟨recs, nx⟩ := y
  cases nx with
  | none =>
    refine ⟨[⟨bb, recs, none⟩], ?_, h7, ⟨rfl, fun h => absurd rfl h⟩, ⟨_, rfl, rfl⟩⟩
    rw [List.map_append]; exact h8
  | some y =>
    obtain ⟨k', p'⟩ := y
    have h9 : BSession L legal b0 ((l' ++ [(Spec.Call.visit bb x,
        (BwTree.visitOut x (recs, some (k', p'))).1)]).map (callRet e)) b'
        (some (p', e.key k', e.bound x)) := by
      rw [List.map_append]; exact h8
    obtain ⟨vs, i1, i2, i3, i4⟩ := S.finish hi hm hs hlim _ (Nat.lt_succ_self _) h9 h7
      ⟨⟨fl, h2⟩, h3, h6.it⟩
    refine ⟨⟨bb, recs, some k'⟩ :: vs, ?_, ?_, ⟨rfl, fun _ => ⟨k', rfl, i3⟩⟩, ?_⟩
    · rw [List.map_cons, List.append_cons]; exact i1
    · rw [List.map_cons, List.append_cons]; exact i2
    · obtain ⟨v, e1, e2⟩ := i4
      refine ⟨v, ?_, e2⟩
      cases vs with
      | nil => cases e1
      | cons a b => rw [List.getLast?_cons_cons]; exact e1

omit S

/-- The bytes of a visit. -/
def vis (e : Enc K V) (v : Spec.Visit K V) : Spec.Visit Str Str :=
  ⟨e.bound v.b, v.recs.map fun z => (e.key z.1, e.val z.2), v.next.map e.key⟩

theorem vis_linked {vs : List (Spec.Visit K V)} {b : Spec.Bound K} (h : Spec.Linked b vs) :
    Spec.Linked (e.bound b) (vs.map (vis e)) := by
  induction vs generalizing b with
  | nil => trivial
  | cons v vs ih =>
    refine ⟨congrArg e.bound h.1, fun hne => ?_⟩
    obtain ⟨k, h1, h2⟩ := h.2 (fun h => hne (by rw [h]; rfl))
    exact ⟨e.key k, by rw [vis, h1]; rfl, ih h2⟩

theorem vis_finished {vs : List (Spec.Visit K V)} (h : Spec.Finished vs) :
    Spec.Finished (vs.map (vis e)) := by
  obtain ⟨v, h1, h2⟩ := h
  exact ⟨vis e v, by rw [List.getLast?_map, h1]; rfl, by rw [vis, h2]; rfl⟩

theorem vis_recs (vs : List (Spec.Visit K V)) :
    Spec.allRecs (vs.map (vis e)) = (Spec.allRecs vs).map fun z => (e.key z.1, e.val z.2) := by
  simp only [Spec.allRecs, List.flatMap_map, List.map_flatMap, vis]

include S

/-- Whole scans on bytes. -/
theorem Setup.scan_total {l : List (Spec.Call Str Str × Spec.Ret Str Str)} {b : BSh L.C}
    {it : Option (PID × Str × BBound)} (h : BSession L legal b0 l b it) (hlim : b.npid ≤ lim)
    {bb eb : BBound} (hl : legal (.visit bb eb)) :
    ∃ vs : List (Spec.Visit Str Str), BSession L legal b0 (l ++ vs.map (visitCall eb)) b none ∧
      Spec.Linked bb vs ∧ Spec.Finished vs ∧
      ((Spec.allRecs vs).Pairwise fun x y => lt x.1 y.1 = true) ∧
      (∀ k v, (k, v) ∈ Spec.allRecs vs → Spec.mapAfterAll M (l.map Prod.fst) k = some v ∧
        @Spec.toB Str (strLT lt) eb k ∧ (@Spec.fromB Str (strLT lt) bb k ∨ bb = some (k, false))) ∧
      (∀ k v, Spec.mapAfterAll M (l.map Prod.fst) k = some v → @Spec.toB Str (strLT lt) eb k →
        @Spec.fromB Str (strLT lt) bb k → (k, v) ∈ Spec.allRecs vs) := by
  obtain ⟨sh0, l', sh, it', hist, h1, h2, rfl, _, h4, h5⟩ := S.sim h hlim
  obtain ⟨c, hc⟩ := S.legal _ hl
  obtain ⟨bb', eb', rfl, rfl, rfl⟩ := call_visit hc
  obtain ⟨vs, g1, g2, g3, g4⟩ := S.scan_all h1 h2 h5 hlim h h4 bb' eb' hl
  obtain ⟨i1, i2, i3⟩ := Props.scan_facts (h1.meets g2) g3 g4
  have hM := S.map.afterAll S.keys l'
  refine ⟨vs.map (vis e), ?_, vis_linked g3, vis_finished g4, ?_, ?_, ?_⟩
  · rw [List.map_append, List.map_map] at g1
    rw [List.map_map]; exact g1
  · rw [vis_recs, List.pairwise_map]
    exact i1.imp fun h => by rw [S.lt]; exact decide_eq_true h
  · intro k v hk
    rw [vis_recs] at hk
    obtain ⟨⟨k', v'⟩, hk', he⟩ := List.mem_map.mp hk
    cases he
    obtain ⟨j1, j2, j3⟩ := i2 k' v' hk'
    refine ⟨by rw [hM.get, j1]; rfl, (toB_enc S.lt S.keys _ _).mpr j2, ?_⟩
    rcases j3 with j3 | rfl
    · exact Or.inl ((fromB_enc S.lt S.keys _ _).mpr j3)
    · exact Or.inr rfl
  · intro k v hk ht hf
    by_cases hx : ∃ k', k = e.key k'
    · obtain ⟨k', rfl⟩ := hx
      rw [hM.get] at hk
      obtain ⟨v', g5, rfl⟩ := Option.map_eq_some_iff.mp hk
      rw [vis_recs]
      exact List.mem_map.mpr ⟨(k', v'), i3 k' v' g5 ((toB_enc S.lt S.keys _ _).mp ht)
        ((fromB_enc S.lt S.keys _ _).mp hf), rfl⟩
    · rw [hM.out k fun k' he => hx ⟨k', he⟩] at hk; cases hk

/-- Sequences of operations on bytes. -/
theorem Setup.total (ops : List (Spec.Op Str Str)) (hops : ∀ o ∈ ops, legal (.op o)) :
    ∃ (l : List (Spec.Op Str Str × Spec.Res Str)) (b : BSh L.C),
      BSession L legal b0 (l.map fun x => (.op x.1, .res x.2)) b none ∧
      l.map Prod.snd = Spec.answers M (l.map Prod.fst) ∧
      (l.map Prod.fst = ops ∨ ∃ o rest, ops = l.map Prod.fst ++ o :: rest ∧
        ∃ f b' q', BFirmRun b (runOp L f o) b' q' ∧ lim < b'.npid) := by
  suffices H : ∀ (ops : List (Spec.Op Str Str)) (pre : List (Spec.Call Str Str × Spec.Ret Str Str))
      (b : BSh L.C), (∀ o ∈ ops, legal (.op o)) → BSession L legal b0 pre b none →
      ∃ (l : List (Spec.Op Str Str × Spec.Res Str)) (b' : BSh L.C),
        BSession L legal b0 (pre ++ l.map fun x => (.op x.1, .res x.2)) b' none ∧
        l.map Prod.snd = Spec.answers (Spec.mapAfterAll M (pre.map Prod.fst)) (l.map Prod.fst) ∧
        (l.map Prod.fst = ops ∨ ∃ o rest, ops = l.map Prod.fst ++ o :: rest ∧
          ∃ f b'' q', BFirmRun b' (runOp L f o) b'' q' ∧ lim < b''.npid) by
    obtain ⟨l, b, h1, h2⟩ := H ops [] b0 hops .start
    exact ⟨l, b, h1, h2⟩
  intro ops
  induction ops with
  | nil => intro pre b _ h; exact ⟨[], b, by simpa using h, rfl, Or.inl rfl⟩
  | cons o ops ih =>
    intro pre b hops h
    by_cases hlim : b.npid ≤ lim
    · have ho := hops o (List.mem_cons_self ..)
      obtain ⟨n, N, h1⟩ := S.op_ends h hlim ho
      obtain ⟨b', q', h2, h3⟩ := (h1 N (Nat.le_refl _)).exists
      rcases h3 with h3 | ⟨r, rfl, rfl⟩
      · exact ⟨[], b, by simpa using h, rfl, Or.inr ⟨o, ops, rfl, N, b', q', h2, h3⟩⟩
      · obtain ⟨l, b'', g1, g2, g3⟩ := ih _ b' (fun o ho => hops o (List.mem_cons_of_mem _ ho)) (h.op ho h2)
        refine ⟨(o, (Spec.apply (Spec.mapAfterAll M (pre.map Prod.fst)) o).2) :: l, b'', ?_, ?_, ?_⟩
        · rw [List.map_cons, List.append_cons]; exact g1
        · rw [List.map_cons, g2, List.map_append, Spec.mapAfterAll_append]; rfl
        · rcases g3 with g3 | ⟨o', rest, g3, g4⟩
          · exact Or.inl (by rw [List.map_cons, g3])
          · exact Or.inr ⟨o', rest, by rw [g3]; rfl, g4⟩
    · exact ⟨[], b, by simpa using h, rfl, Or.inr ⟨o, ops, rfl, 0, b, _, .refl _ _,
        Nat.lt_of_not_le hlim⟩⟩

end BwTree.Bytes
