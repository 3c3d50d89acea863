import Verif.Conc.QuietIndex
import Verif.Conc.Session
import Verif.Conc.SeqRun

/-!
# A quiet tree in order is like the tree of a single thread (helper lemmas)
-/

namespace BwTree

set_option linter.unusedSectionVars false

variable {K V : Type} [LinearOrder K] {cfg : Cfg K} {s : St K V} {S : Sys K V} {low : Option K}

theorem pre_of_leftmost {c : Chain K V} (h : ChainWF cfg true low c) (hl : low = none) {q : PID}
    (hq : c.leftmostChild = some q) : ∃ y, (y, Pay.child q) ∈ c.pre := by
  induction c with
  | base n =>
    obtain ⟨r, rs, hr, _⟩ := h.2.2.first h.1
    obtain ⟨rk, rp⟩ := r
    have hlow : n.low = none := h.2.1.trans hl
    refine ⟨rk, ?_⟩
    show _ ∈ n.pre
    simp only [Chain.leftmostChild, hr] at hq
    simp only [Node.pre, Node.leftInner, h.1, hlow, hr]
    cases rp with
    | val v => cases hq
    | child p => cases hq; simp
  | removed b => exact h.elim
  | delta d nx ih => exact ih h.1 hq

theorem leftmost_of_pre {inner : Bool} {c : Chain K V} (h : ChainWF cfg inner low c) {y : K} {q : PID}
    (hq : (y, Pay.child q) ∈ c.pre) : inner = true ∧ low = none ∧ c.leftmostChild = some q := by
  induction c with
  | base n =>
    replace hq : _ ∈ n.pre := hq
    unfold Node.pre at hq
    split at hq
    · next hl =>
      simp only [Node.leftInner, Bool.and_eq_true, Option.isNone_iff_eq_none] at hl
      refine ⟨h.1.symm.trans hl.1, h.2.1.symm.trans hl.2, ?_⟩
      cases hr : n.recs with
      | nil => rw [hr] at hq; simp at hq
      | cons r rs =>
        rw [hr] at hq
        simp only [List.take_succ_cons, List.take_zero, List.mem_singleton] at hq
        subst hq
        simp [Chain.leftmostChild, hr]
    · simp at hq
  | removed b => exact h.elim
  | delta d nx ih => exact ih h.1 hq

/-- The left neighbours of deleted entries, in a state in which all words are set. -/
def wordsOf (s : St K V) (w : Nat) : Option PID := if w < s.ncell then some (s.cells w) else none

theorem Spec.Tight.exact {c : Chain K V} {P : Option K → PID → Prop} {G : Nat}
    (h : ChainWF cfg true low c) (he : EntsOK P (fun k w => s.cellInfo w = some (G, k)) c)
    (hI : Inv cfg s) (ht : Spec.Tight s.toSh c) : ExactC (wordsOf s) c := by
  induction c with
  | base n => trivial
  | removed b => trivial
  | delta d nx ih =>
    obtain ⟨t1, t2, t3⟩ := ht
    have hw := h.1
    obtain ⟨hs, _⟩ := hw.flatBody_spec
    have hmem : ∀ x ∈ nx.flatBody, Spec.look x.1 nx ≠ none := by
      intro x hx
      rw [look_eq hw, alook_of_mem hs (k := x.1) (v := x.2) hx]
      simp
    refine ⟨ih hw he.1 t1, fun hty => ?_, fun w hw' => ?_⟩
    · obtain ⟨n1, n2, n3, n4⟩ := t2 hty
      refine ⟨n1, fun x hx hlt => n2 _ hlt (hmem x hx), fun x hx hh => ?_, n4⟩
      rw [← look_eq hw]
      rcases n3 x hx with e | e
      · exact e
      · have := hh x e
        simp at this
    · have hci : s.cellInfo w = some (G, d.key) := he.2.2.1 w hw'
      have hlt : w < s.ncell := by
        by_contra hn
        rw [hI.p.cfresh w (by omega)] at hci
        cases hci
      refine ⟨s.cells w, by simp [wordsOf, hlt], ?_⟩
      rcases t3 w hw' with ⟨y, y1, y2, y3⟩ | ⟨y1, y2, y3⟩
      · refine Or.inl ⟨y, alook_mem (by rw [← look_eq hw]; exact y2), by simpa [LEc] using y1, ?_⟩
        intro x hx hle
        by_contra hn
        exact hmem x hx (y3 _ (not_le.mp hn) (by simpa [LEc] using hle))
      · refine Or.inr ⟨pre_of_leftmost hw (hw.low_eq.symm.trans y1) y2, fun x hx hle => ?_⟩
        exact hmem x hx (y3 _ (by simpa [LEc] using hle))

/-- A quiet tree in order meets the invariant of a thread that runs alone. -/
theorem Spec.InOrder.rested (hS : Sound cfg s S) (hM : Mind s S) (hq : ∀ t, S.th t = .idle)
    (hW : ∀ p c, s.mt p = some c → c.needWait cfg = false) (ho : Spec.InOrder s.toSh) :
    Rested cfg s none := by
  have hI := hS.inv
  have hpend : ∀ q n, s.pend q ≠ some n := by
    intro q n hp
    obtain ⟨u, hu⟩ := Option.ne_none_iff_exists'.mp (hI.p.pend q n hp).1
    obtain ⟨call, x, _, g1, _⟩ := hM q u n hu hp
    rw [hq u] at g1; cases g1
  have hlive : ∀ {p c F low}, s.cont p = some c → s.info p = some (F, low) →
      s.mt p = some c ∧ c.isRemoved = false ∧ PageWF cfg s.lv F low c := by
    intro p c F low hc hi
    have hw := hI.l.page p c F low hc hi
    refine ⟨?_, hw.not_removed, hw⟩
    unfold St.cont at hc
    rw [hi] at hc
    simp only at hc
    split at hc
    · simp only [Option.map_eq_some_iff] at hc
      obtain ⟨n, hp, _⟩ := hc
      exact absurd hp (hpend p n)
    · exact hc
  have hinner : ∀ {F low} {c : Chain K V}, PageWF cfg s.lv F low c → F ≠ 0 → ChainWF cfg true low c := by
    intro F low c hw hF
    have := hw.wf
    simpa [hF] using this
  have hpar : ∀ {p c F low}, s.cont p = some c → s.info p = some (F, low) → p ≠ s.root →
      ∃ P cP G lP, s.cont P = some cP ∧ s.info P = some (G, lP) ∧ G ≠ 0 ∧ s.fcf G = F ∧
        (∀ k, low = some k → (k, Pay.child p) ∈ cP.flatBody) := by
    intro p c F low hc hi hne
    obtain ⟨m1, m2, _⟩ := hlive hc hi
    rcases ho.parent p c m1 m2 with e | ⟨P, cP, l1, l2, l3⟩
    · exact absurd e hne
    · obtain ⟨G, lP, e1, e2, e3, e4, e5⟩ := hI.live_page l1
      have hG : G ≠ 0 := by
        rw [l2] at e5
        simpa using e5.symm
      have hw := hinner e3 hG
      rcases l3 with ⟨d1, d2⟩ | ⟨k, d1⟩
      · obtain ⟨q', d3, d4⟩ := hw.leftmostChild e3.ents
        rw [d2] at d3; cases d3
        have d4 : s.info p = some (s.fcf G, lP) := d4
        rw [hi] at d4
        cases d4
        exact ⟨P, cP, G, low, e2, e1, hG, rfl, fun k hk => by rw [← e4, d1] at hk; cases hk⟩
      · have hm : (k, Pay.child p) ∈ cP.flatBody := alook_mem (by rw [← look_eq hw]; exact d1)
        have d4 : s.info p = some (s.fcf G, some k) := (e3.ents.flat e3.wf).2 _ hm p rfl
        rw [hi] at d4
        cases d4
        exact ⟨P, cP, G, lP, e2, e1, hG, rfl, fun k' hk => by cases hk; exact hm⟩
  obtain ⟨T, hT⟩ := hI.p.root
  have hchain : ∀ n {p c F low}, s.nfam - F < n → s.cont p = some c → s.info p = some (F, low) →
      Down s.fcf T F := by
    intro n
    induction n with
    | zero => intro p c F low hn; exact absurd hn (Nat.not_lt_zero _)
    | succ n ih =>
      intro p c F low hn hc hi
      by_cases hp : p = s.root
      · subst hp
        rw [hT] at hi; cases hi
        exact .refl _
      · obtain ⟨P, cP, G, lP, e1, e2, e3, e4, _⟩ := hpar hc hi hp
        have hGlt : G < s.nfam := hI.l.fam P G lP e2
        have hlt : s.fcf G < G := hI.l.fcf G (Nat.pos_of_ne_zero e3) hGlt
        have := ih (by omega) e1 e2
        exact this.trans (.step e3 (by rw [e4]; exact .refl _))
  refine ⟨⟨wordsOf s, hI, ⟨?_, ?_, ?_, ?_, ?_⟩, fun q n hp => absurd hp (hpend q n), ?_⟩, ?_,
    fun p k e he => by cases he⟩
  · intro p c F low hc hi hF
    obtain ⟨m1, m2, m3⟩ := hlive hc hi
    refine Spec.Tight.exact (hinner m3 hF) m3.ents hI (ho.tight p c m1 m2 ?_)
    rw [m3.isLeaf]; simpa using hF
  · intro q c F k hc hi _
    have hne : q ≠ s.root := by
      rintro rfl
      rw [show s.lv.info s.root = s.info s.root from rfl, hT] at hi
      cases hi
    obtain ⟨P, cP, G, lP, e1, e2, e3, e4, e5⟩ := hpar hc hi hne
    exact ⟨P, cP, G, lP, e1, e2, e3, e4, e5 k rfl⟩
  · intro p c y q hc hy
    obtain ⟨F, low, hi⟩ := hI.l.known p c hc
    obtain ⟨m1, m2, m3⟩ := hlive hc hi
    obtain ⟨e0, e1, e2⟩ := leftmost_of_pre m3.wf hy
    have hF : F ≠ 0 := by simpa using e0
    obtain ⟨c', g1, g2⟩ := ho.left p c q m1 m2 (by rw [m3.isLeaf]; simpa using hF)
      (m3.wf.low_eq.trans e1) e2
    obtain ⟨q', d3, d4⟩ := (hinner m3 hF).leftmostChild m3.ents
    rw [e2] at d3; cases d3
    exact ⟨c', (hI.live d4 g1 g2).1⟩
  · intro p c F low hc hi
    exact ⟨T, hT, hchain _ (Nat.lt_succ_self _) hc hi⟩
  · obtain ⟨c, g1, g2⟩ := ho.root
    exact ⟨c, (hI.live hT g1 g2).1⟩
  · intro w q hw
    unfold wordsOf at hw
    split at hw
    · next h => cases hw; exact ⟨h, Or.inl rfl⟩
    · cases hw
  · intro q c _ hm hn
    rw [hW q c hm] at hn; cases hn

/-- Calls of one thread on a quiet tree. -/
theorem Session.runFrom {S₀ : Sys K V} {h0 : List (Spec.Event K V)} (hr : Run cfg S₀ h0 S)
    (hq : ∀ u, S.th u = .idle) {sh : Sh K V} {l : List (Spec.Call K V × Spec.Ret K V)}
    {it : Option (PID × K × Spec.Bound K)} (h : Session cfg S.sh l sh it) (t : Nat) :
    ∃ S', Run cfg S₀ (h0 ++ Spec.callHist t l) S' ∧ S'.sh = sh ∧ (∀ u, S'.th u = .idle) ∧
      ∀ x, it = some x → S'.it t = some x := by
  induction h with
  | start => exact ⟨_, by rw [Spec.callHist, List.append_nil]; exact hr, rfl, hq, fun x e => by cases e⟩
  | @op l sh sh' it n j f o r h hf ih =>
    obtain ⟨S, h1, h2, h3, h4⟩ := ih
    obtain ⟨S1, e1, e2, e3, e4, e5⟩ := (h1.event (.op S t f o (h3 t))).alone hf.alone (t := t) h2
      (upd_same _ _ _) (fun u hu => by simp only [upd_ne _ _ hu]; exact h3 u)
    refine ⟨{ S1 with th := upd S1.th t .idle }, ?_, e2, fun u => ?_, fun x hx => ?_⟩
    · have := e1.event (.retOp S1 t o (.res r, none) e3)
      simpa [Spec.callHist_append, Spec.callHist] using this
    · by_cases hu : u = t
      · subst hu; exact upd_same _ _ _
      · simp only [upd_ne _ _ hu]; exact e4 u hu
    · show S1.it t = some x
      rw [e5]; exact h4 x hx
  | @scan l sh sh' it n j f b e x h hf ih =>
    obtain ⟨S, h1, h2, h3, h4⟩ := ih
    obtain ⟨S1, e1, e2, e3, e4, e5⟩ := (h1.event (.scan S t f b e (h3 t))).alone hf.alone (t := t) h2
      (upd_same _ _ _) (fun u hu => by simp only [upd_ne _ _ hu]; exact h3 u)
    refine ⟨{ S1 with th := upd S1.th t .idle, it := upd S1.it t (visitOut e x).2 }, ?_, e2,
      fun u => ?_, fun y hy => (upd_same _ _ _).trans hy⟩
    · have := e1.event (.retVisit S1 t b e (visitOut e x) e3)
      simpa [Spec.callHist_append, Spec.callHist] using this
    · by_cases hu : u = t
      · subst hu; exact upd_same _ _ _
      · simp only [upd_ne _ _ hu]; exact e4 u hu
  | @next l sh sh' n j f p k e x h hf ih =>
    obtain ⟨S, h1, h2, h3, h4⟩ := ih
    obtain ⟨S1, e1, e2, e3, e4, e5⟩ := (h1.event (.next S t f p k e (h3 t) (h4 _ rfl))).alone hf.alone
      (t := t) h2 (upd_same _ _ _) (fun u hu => by simp only [upd_ne _ _ hu]; exact h3 u)
    refine ⟨{ S1 with th := upd S1.th t .idle, it := upd S1.it t (visitOut e x).2 }, ?_, e2,
      fun u => ?_, fun y hy => (upd_same _ _ _).trans hy⟩
    · have := e1.event (.retVisit S1 t _ e (visitOut e x) e3)
      simpa [Spec.callHist_append, Spec.callHist] using this
    · by_cases hu : u = t
      · subst hu; exact upd_same _ _ _
      · simp only [upd_ne _ _ hu]; exact e4 u hu

/-- What calls of one thread on a quiet tree return. -/
theorem Session.meetsFrom (hc : CfgOK2 cfg) (hS : Sound cfg s S) (hq : ∀ u, S.th u = .idle)
    {sh : Sh K V} {l : List (Spec.Call K V × Spec.Ret K V)} {it : Option (PID × K × Spec.Bound K)}
    (h : Session cfg S.sh l sh it) : Spec.Meets s.m l := by
  obtain ⟨S', h1, _⟩ := h.runFrom (S₀ := S) (h0 := []) .nil hq 0
  obtain ⟨s', _, h2, _⟩ := hS.run hc h1
  have hops : s.ops = fun _ => .idle := by
    funext t
    have := hS.th t
    rw [hq t] at this
    exact this
  have h3 := h2 ⟨s.m, fun _ => .idle⟩ [] (by rw [hops]; exact .nil _)
  exact h3.calls.1

/-- The invariant of a thread that runs alone is kept by its calls. -/
theorem Rested.session {s : St K V} (h0 : Rested cfg s none) (hR : Roomy cfg) (hc : CfgOK2 cfg)
    {l : List (Spec.Call K V × Spec.Ret K V)} {sh : Sh K V} {it : Option (PID × K × Spec.Bound K)}
    (h : Session cfg s.toSh l sh it) : ∃ s' : St K V, s'.toSh = sh ∧ Rested cfg s' it := by
  induction h with
  | start => exact ⟨s, rfl, h0⟩
  | @op l sh sh' it n j f o r h hf ih =>
    obtain ⟨s, rfl, h2⟩ := ih
    obtain ⟨s0, h3, N, h4⟩ := h2.op hR hc o
    rw [← h3] at hf
    exact tp_det (h4 j (max f (N + j)) (Nat.le_max_right _ _))
      ((runOp_ext (Nat.le_max_left f (N + j)) o).looseRet hf)
  | @scan l sh sh' it n j f b e x h hf ih =>
    obtain ⟨s, rfl, ⟨fl, h2⟩, h3, h4⟩ := ih
    obtain ⟨e1, e2⟩ := rt_det (scanFirst_tot hc h2 h3 (Nat.le_max_right f _))
      ((scanFirst_ext (Nat.le_max_left f _)).looseRet hf)
    exact ⟨s, e1, ⟨fl, h2⟩, h3, e2.it⟩
  | @next l sh sh' n j f p k e x h hf ih =>
    obtain ⟨s, rfl, ⟨fl, h2⟩, h3, h4⟩ := ih
    obtain ⟨e1, e2⟩ := rt_det (scanNext_tot hc h2 h3 (Nat.le_max_right f _) (h4 p k e rfl))
      ((scanNext_ext (Nat.le_max_left f _)).looseRet hf)
    exact ⟨s, e1, ⟨fl, h2⟩, h3, e2.it⟩

/-- Searches of a thread that runs alone go from index nodes to their children. -/
theorem Rested.upToDate {it : Option (PID × K × Spec.Bound K)} (h : Rested cfg s it) (key : K)
    (closed : Bool) : Spec.UpToDate s.toSh key closed := by
  obtain ⟨⟨fl, h⟩, _, _⟩ := h
  intro p c q hp hm hl hs
  obtain ⟨F, low, c', hi, hc, hlo⟩ := h.route hp
  have := (h.live0 hi hc).1
  change s.mt p = some c at hm
  rw [hm] at this; cases this
  have hw := h.inv.l.page _ _ _ _ hc hi
  have hF : F ≠ 0 := by rintro rfl; rw [hw.isLeaf] at hl; simp at hl
  have hwf := hw.wf
  simp only [hF, ne_eq, not_false_eq_true, decide_true] at hwf
  have hx := h.x.exact p c F low hc hi hF
  have hfl : ∀ {q}, Floor c.pre c.flatBody key closed q → Spec.ChildOf c q := by
    rintro q (⟨sep, e1, _⟩ | ⟨⟨y, e1⟩, _⟩)
    · refine Or.inr ⟨sep, ?_⟩
      obtain ⟨hs, _⟩ := hwf.flatBody_spec
      rw [look_eq hwf]
      exact alook_of_mem hs e1
    · obtain ⟨_, e2, e3⟩ := leftmost_of_pre hwf e1
      exact Or.inl ⟨hwf.low_eq.trans e2, e3⟩
  by_cases hh : HighOK c.high key closed
  · rcases childStep_exact hwf hx key closed hlo hh with ⟨q', e1, e2⟩ | ⟨w, q', e1, e2, e3⟩
    · rcases hs with hs | ⟨w, hs, _⟩
      · rw [hs] at e1; cases e1; exact hfl e2
      · rw [hs] at e1; cases e1
    · rcases hs with hs | ⟨w', hs, hq⟩
      · rw [hs] at e1; cases e1
      · rw [hs] at e1; cases e1
        rcases (h.cell _ _ e2).2 with e | ⟨_, e⟩
        · change s.cells w = q at hq
          rw [← hq, e]; exact hfl e3
        · exact e.elim
  · have e := childStep_beyond hwf hx key closed hh
    rcases hs with hs | ⟨w, hs, _⟩ <;> rw [hs] at e <;> cases e

/-- Its searches meet no removal mark. -/
theorem Rested.live {it : Option (PID × K × Spec.Bound K)} (h : Rested cfg s it) {key : K}
    {closed : Bool} {p : PID} (hp : Spec.Route s.toSh key closed p) :
    ∃ c, s.mt p = some c ∧ c.isRemoved = false := by
  obtain ⟨⟨fl, h⟩, _, _⟩ := h
  obtain ⟨F, low, c, hi, hc, _⟩ := h.route hp
  exact ⟨c, (h.live0 hi hc).1, (h.inv.l.page _ _ _ _ hc hi).not_removed⟩

end BwTree
