import Verif.Bulk.Join
import Verif.Conc.Pages

/-!
# A bulkloaded tree satisfies the invariant (proof side)
-/

namespace BwTree

set_option linter.unusedSectionVars false

variable {K V : Type} [LinearOrder K] {cfg : Cfg K}

/-- A node of a finished tree. -/
def node0 (cfg : Cfg K) (b first : Bool) (g : Grp K V) (nx : Option (Grp K V)) : Node K V :=
  { (nodeOf cfg b g nx).2 with low := if first then none else some g.hd.1 }

/-- Group `g` of layer `F` with its left and right neighbours. -/
structure InLv (lv : List (List (Grp K V))) (F : Nat) (A : List (Grp K V)) (g : Grp K V)
    (B : List (Grp K V)) (D : List (List (Grp K V))) : Prop where
  lv : ∃ U, lv = U ++ (A ++ g :: B) :: D
  len : D.length = F

theorem nodesE_mem {b : Bool} : ∀ {gs : List (Grp K V)} {x : PID × Node K V},
    x ∈ nodesE cfg b none gs ↔ ∃ A g B, gs = A ++ g :: B ∧ x = (g.pid, node0 cfg b false g B.head?)
  | [], x => by simp [nodesE]
  | g :: gs, x => by
    rw [nodesE, List.mem_cons, nodesE_mem, Option.or_none]
    constructor
    · rintro (rfl | ⟨A, h, B, rfl, rfl⟩)
      · exact ⟨[], g, gs, rfl, rfl⟩
      · exact ⟨g :: A, h, B, rfl, rfl⟩
    · rintro ⟨A, h, B, e, rfl⟩
      cases A with
      | nil => cases e; exact Or.inl rfl
      | cons a A => cases e; exact Or.inr ⟨A, h, B, rfl, rfl⟩

theorem nodes0_mem {b : Bool} {gs : List (Grp K V)} {x : PID × Node K V} :
    x ∈ nodes0 cfg b gs ↔
      ∃ A g B, gs = A ++ g :: B ∧ x = (g.pid, node0 cfg b A.isEmpty g B.head?) := by
  cases gs with
  | nil => simp [nodes0]
  | cons g gs =>
    rw [nodes0, List.mem_cons, nodesE_mem]
    constructor
    · rintro (rfl | ⟨A, h, B, rfl, rfl⟩)
      · exact ⟨[], g, gs, rfl, rfl⟩
      · exact ⟨g :: A, h, B, rfl, rfl⟩
    · rintro ⟨A, h, B, e, rfl⟩
      cases A with
      | nil => cases e; exact Or.inl rfl
      | cons a A => cases e; exact Or.inr ⟨A, h, B, rfl, rfl⟩

theorem lvNodes0_mem : ∀ {lv : List (List (Grp K V))} {x : PID × Node K V},
    x ∈ lvNodes0 cfg lv ↔ ∃ F A g B D, InLv lv F A g B D ∧
      x = (g.pid, node0 cfg (!D.isEmpty) A.isEmpty g B.head?)
  | [], x => by
    simp only [lvNodes0, List.not_mem_nil, false_iff]
    rintro ⟨F, A, g, B, D, ⟨⟨U, h⟩, _⟩, _⟩
    simp at h
  | gs :: lv, x => by
    rw [lvNodes0, List.mem_append, nodes0_mem, lvNodes0_mem]
    constructor
    · rintro (⟨A, g, B, rfl, rfl⟩ | ⟨F, A, g, B, D, ⟨⟨U, rfl⟩, h⟩, rfl⟩)
      · exact ⟨_, A, g, B, lv, ⟨⟨[], rfl⟩, rfl⟩, rfl⟩
      · exact ⟨_, A, g, B, D, ⟨⟨gs :: U, rfl⟩, h⟩, rfl⟩
    · rintro ⟨F, A, g, B, D, ⟨⟨U, h⟩, hl⟩, rfl⟩
      cases U with
      | nil => cases h; exact Or.inl ⟨A, g, B, rfl, rfl⟩
      | cons u U => cases h; exact Or.inr ⟨F, A, g, B, D, ⟨⟨U, rfl⟩, hl⟩, rfl⟩

/-! ## Facts about one layer -/

theorem LvOK.suffix {es : List (K × Pay V)} : ∀ {U : List (List (Grp K V))} {gs : List (Grp K V)}
    {D : List (List (Grp K V))}, LvOK cfg es (U ++ gs :: D) → LvOK cfg es (gs :: D)
  | [], _, _, h => h
  | [_], _, _, h => h.2.2
  | _ :: u :: U, _, _, h => LvOK.suffix (U := u :: U) h.2.2

theorem sorted_ents {gs : List (Grp K V)} (h : SortedK (gs.flatMap Grp.recs)) :
    SortedK (entsOf gs) := by
  induction gs with
  | nil => exact List.Pairwise.nil
  | cons g gs ih =>
    rw [List.flatMap_cons] at h
    have h := List.pairwise_append.mp h
    refine List.pairwise_cons.mpr ⟨?_, ih h.2.1⟩
    intro x hx
    obtain ⟨g', hg', rfl⟩ := List.mem_map.mp hx
    exact h.2.2 g.hd List.mem_cons_self g'.hd (List.mem_flatMap.mpr ⟨g', hg', List.mem_cons_self⟩)

theorem LvOK.sorted {es : List (K × Pay V)} (hes : SortedK es) : ∀ {gs : List (Grp K V)}
    {D : List (List (Grp K V))}, LvOK cfg es (gs :: D) → SortedK (gs.flatMap Grp.recs)
  | gs, [], h => by rw [h.2]; exact hes
  | gs, d :: ds, h => by
    rw [h.2.1]
    exact sorted_ents (LvOK.sorted hes h.2.2)

theorem LvOK.fits {es : List (K × Pay V)} {gs : List (Grp K V)} {D : List (List (Grp K V))}
    (h : LvOK cfg es (gs :: D)) : LayerOK cfg (!D.isEmpty) gs := by
  cases D with
  | nil => exact h.1
  | cons d ds => exact h.1

theorem LvOK.kind {es : List (K × Pay V)} (hk : ∀ x ∈ es, ∃ v, x.2 = Pay.val v)
    {gs : List (Grp K V)} {D : List (List (Grp K V))} (h : LvOK cfg es (gs :: D)) :
    ∀ x ∈ gs.flatMap Grp.recs, PayOK (!D.isEmpty) x.2 := by
  intro x hx
  cases D with
  | nil => rw [h.2] at hx; exact hk x hx
  | cons d ds =>
    rw [h.2.1] at hx
    obtain ⟨g, _, rfl⟩ := List.mem_map.mp hx
    exact ⟨g.pid, rfl⟩

/-- The keys of a layer around a group. -/
structure Around (A : List (Grp K V)) (g : Grp K V) (B : List (Grp K V)) : Prop where
  srt : SortedK g.recs
  left : ∀ x ∈ A.flatMap Grp.recs, x.1 < g.hd.1
  low : ∀ x ∈ g.recs, g.hd.1 ≤ x.1
  high : ∀ x ∈ g.recs, ∀ b, B.head? = some b → x.1 < b.hd.1
  right : ∀ x ∈ B.flatMap Grp.recs, ∀ b, B.head? = some b → b.hd.1 ≤ x.1
  after : ∀ x ∈ B.flatMap Grp.recs, g.hd.1 < x.1

theorem recs_low {g : Grp K V} (h : SortedK g.recs) : ∀ x ∈ g.recs, g.hd.1 ≤ x.1 := by
  intro x hx
  rcases List.mem_cons.mp hx with rfl | hx
  · exact le_refl _
  · exact le_of_lt ((List.pairwise_cons.mp h).1 x hx)

theorem around {A B : List (Grp K V)} {g : Grp K V}
    (h : SortedK ((A ++ g :: B).flatMap Grp.recs)) : Around A g B := by
  rw [List.flatMap_append, List.flatMap_cons] at h
  obtain ⟨h1, h2, h3⟩ := List.pairwise_append.mp h
  obtain ⟨h4, h5, h6⟩ := List.pairwise_append.mp h2
  have hgm : g.hd ∈ g.recs := List.mem_cons_self
  refine ⟨h4, fun x hx => h3 x hx g.hd (List.mem_append_left _ hgm), recs_low h4, ?_, ?_,
    fun x hx => h6 g.hd hgm x hx⟩
  · intro x hx b hb
    cases B with
    | nil => cases hb
    | cons b' B =>
      cases hb
      exact h6 x hx b.hd (List.mem_flatMap.mpr ⟨b, List.mem_cons_self, List.mem_cons_self⟩)
  · intro x hx b hb
    cases B with
    | nil => cases hb
    | cons b' B =>
      cases hb
      rw [List.flatMap_cons] at h5 hx
      obtain ⟨h7, _, h8⟩ := List.pairwise_append.mp h5
      rcases List.mem_append.mp hx with hx | hx
      · exact recs_low h7 x hx
      · exact le_of_lt (h8 b.hd List.mem_cons_self x hx)

theorem keyBytes_fix {α : Type} (fix : ∀ k, cfg.klen k = 0) (l : List (K × α)) :
    cfg.keyBytes l = 0 := by
  induction l with
  | nil => rfl
  | cons a l ih =>
    show cfg.klen a.1 + cfg.keyBytes l = 0
    rw [fix, ih]

theorem bnd_fix (fix : ∀ k, cfg.klen k = 0) (b : Bool) (low high : Option K) :
    cfg.bnd b low high = 0 := by
  unfold Cfg.bnd Cfg.olen
  cases low <;> cases high <;> simp [fix]

theorem recsLen_fix (fix : ∀ k, cfg.klen k = 0) (b : Bool) (l : List (K × Pay V)) :
    cfg.recsLen b l = cfg.recLen b * l.length := by
  induction l with
  | nil => rfl
  | cons a l ih =>
    rw [Cfg.recsLen_cons, ih, List.length_cons, Nat.mul_add, Cfg.entLen, fix]
    omega

theorem bulkSize_fix (fix : ∀ k, cfg.klen k = 0) (b : Bool) (low high : Option K)
    (l : List (K × Pay V)) : cfg.bulkSize b low l high = cfg.hdr + cfg.recLen b * l.length := by
  have h : ∀ k : Option K, cfg.olen k = 0 := by
    intro k
    cases k with
    | none => rfl
    | some k => exact fix k
  unfold Cfg.bulkSize
  rw [recsLen_fix fix, h, h]
  simp

theorem recsLen_eq (b : Bool) (l : List (K × Pay V)) :
    cfg.recsLen b l = cfg.recLen b * l.length + cfg.keyBytes l := by
  induction l with
  | nil => rfl
  | cons a l ih =>
    have : cfg.keyBytes (a :: l) = cfg.klen a.1 + cfg.keyBytes l := rfl
    rw [Cfg.recsLen_cons, ih, List.length_cons, Nat.mul_add, Cfg.entLen, this]
    omega

/-- `node_size_` of a node is what it should be. -/
def SizeOK (cfg : Cfg K) (n : Node K V) : Prop :=
  n.size = cfg.bytes n.inner n.low n.high n.recs.length n.body

theorem node0_size (fix : ∀ k, cfg.klen k = 0) {b first : Bool} {g : Grp K V} {nx : Option (Grp K V)} :
    SizeOK cfg (node0 cfg b first g nx) := by
  unfold SizeOK Cfg.bytes
  rw [keyBytes_fix fix, bnd_fix fix]
  simp [node0, nodeOf, bulkSize_fix fix]

theorem node0_size_one {g : Grp K V} : SizeOK cfg (node0 cfg false true g none) := by
  unfold SizeOK Cfg.bytes
  simp only [node0, nodeOf, Node.body, Node.leftInner, Cfg.bulkSize, recsLen_eq, Cfg.bnd, Cfg.olen]
  simp
  omega

theorem node0_wf {b : Bool} {A B : List (Grp K V)} {g : Grp K V}
    (hz : SizeOK cfg (node0 cfg b A.isEmpty g B.head?)) (h : Around A g B)
    (hk : ∀ x ∈ g.recs, PayOK b x.2) : NodeWF cfg (node0 cfg b A.isEmpty g B.head?) := by
  have hsub : ∀ x ∈ (node0 cfg b A.isEmpty g B.head?).body, x ∈ g.recs := by
    intro x hx
    unfold Node.body at hx
    split at hx
    · exact List.mem_of_mem_drop hx
    · exact hx
  refine ⟨?_, ?_, ?_, hk, ?_, ?_⟩
  · unfold Node.body
    split
    · exact h.srt.sublist (List.drop_sublist _ _)
    · exact h.srt
  · intro x hx
    refine ⟨?_, ?_⟩
    · intro l hl
      simp only [node0] at hl
      split at hl
      · cases hl
      · cases hl; exact h.low x (hsub x hx)
    · intro l hl
      obtain ⟨b', e1, e2⟩ := Option.map_eq_some_iff.mp hl
      subst e2
      exact h.high x (hsub x hx) b' e1
  · intro l u hl hu
    simp only [node0] at hl
    obtain ⟨b', e1, e2⟩ := Option.map_eq_some_iff.mp hu
    subst e2
    split at hl
    · cases hl
    · cases hl; exact h.high g.hd List.mem_cons_self b' e1
  · intro _
    refine ⟨g.hd, g.tl, rfl, ?_⟩
    intro l hl
    simp only [node0] at hl
    split at hl
    · cases hl
    · cases hl; rfl
  · exact hz

/-! ## The ghost state -/

open Classical in
/-- Family and lower bound of the pages of a finished tree. -/
noncomputable def lvInfo (lv : List (List (Grp K V))) (p : PID) : Option (Nat × Option K) :=
  if h : ∃ x : Nat × Option K, ∃ A g B D, InLv lv x.1 A g B D ∧ g.pid = p ∧
      x.2 = (if A.isEmpty then none else some g.hd.1)
  then some h.choose else none

theorem mid_uniq {α : Type} {f : α → PID} : ∀ {A A' B B' : List α} {g g' : α},
    ((A ++ g :: B).map f).Nodup → A ++ g :: B = A' ++ g' :: B' → f g = f g' →
    A = A' ∧ g = g' ∧ B = B'
  | [], [], _, _, _, _, _, h, _ => by cases h; exact ⟨rfl, rfl, rfl⟩
  | [], a :: A', B, B', g, g', hn, h, e => by
    cases h
    have hn := (List.nodup_cons.mp hn).1
    exact absurd (List.mem_map.mpr ⟨g', by simp, e.symm⟩) hn
  | a :: A, [], B, B', g, g', hn, h, e => by
    cases h
    have hn := (List.nodup_cons.mp hn).1
    exact absurd (List.mem_map.mpr ⟨g, by simp, e⟩) hn
  | a :: A, a' :: A', B, B', g, g', hn, h, e => by
    rw [List.cons_append, List.cons_append] at h
    obtain ⟨rfl, h9⟩ := List.cons.inj h
    obtain ⟨rfl, rfl, rfl⟩ := mid_uniq (List.nodup_cons.mp hn).2 h9 e
    exact ⟨rfl, rfl, rfl⟩

theorem InLv.uniq : ∀ {lv : List (List (Grp K V))} {F F' : Nat} {A A' : List (Grp K V)}
    {g g' : Grp K V} {B B' : List (Grp K V)} {D D' : List (List (Grp K V))}, (lvPids lv).Nodup →
    InLv lv F A g B D → InLv lv F' A' g' B' D' → g.pid = g'.pid →
    F = F' ∧ A = A' ∧ g = g' ∧ B = B' ∧ D = D' := by
  intro lv
  induction lv with
  | nil => rintro F F' A A' g g' B B' D D' _ ⟨⟨U, h⟩, _⟩ _ _; simp at h
  | cons gs lv ih =>
    rintro F F' A A' g g' B B' D D' hn ⟨⟨U, h⟩, hl⟩ ⟨⟨U', h'⟩, hl'⟩ e
    rw [lvPids_cons] at hn
    obtain ⟨n1, n2, n3⟩ := List.nodup_append.mp hn
    have hmem : ∀ {U A B D} {x : Grp K V}, lv = U ++ (A ++ x :: B) :: D → x.pid ∈ lvPids lv := by
      rintro U A B D x rfl; simp [lvPids]
    cases U with
    | nil =>
      cases h
      cases U' with
      | nil =>
        rw [List.nil_append] at h'
        obtain ⟨h1, rfl⟩ := List.cons.inj h'
        obtain ⟨rfl, rfl, rfl⟩ := mid_uniq n1 h1 e
        exact ⟨hl.symm.trans hl', rfl, rfl, rfl, rfl⟩
      | cons u U' =>
        obtain ⟨rfl, h9⟩ := List.cons.inj h'
        exact absurd e (n3 _ (by simp) _ (hmem h9))
    | cons u U =>
      have h8 := (List.cons.inj h).2
      cases U' with
      | nil =>
        obtain ⟨rfl, h9⟩ := List.cons.inj h'
        exact absurd e.symm (n3 _ (by simp) _ (hmem h8))
      | cons u U' =>
        exact ih n2 ⟨⟨U, h8⟩, hl⟩ ⟨⟨U', (List.cons.inj h').2⟩, hl'⟩ e

/-- Groups of the same family are in the same layer. -/
theorem InLv.same {lv : List (List (Grp K V))} {F : Nat} {A A' : List (Grp K V)}
    {g g' : Grp K V} {B B' : List (Grp K V)} {D D' : List (List (Grp K V))}
    (h : InLv lv F A g B D) (h' : InLv lv F A' g' B' D') : A ++ g :: B = A' ++ g' :: B' ∧ D = D' := by
  obtain ⟨⟨U, h1⟩, h2⟩ := h
  obtain ⟨⟨U', h3⟩, h4⟩ := h'
  have h5 := h1.symm.trans h3
  have hl : U.length = U'.length := by
    have := congrArg List.length h5
    simp only [List.length_append, List.length_cons] at this
    omega
  obtain ⟨_, h6⟩ := List.append_inj h5 hl
  exact List.cons.inj h6

theorem lvInfo_some {lv : List (List (Grp K V))} {p : PID} {F : Nat} {low : Option K}
    (h : lvInfo lv p = some (F, low)) : ∃ A g B D, InLv lv F A g B D ∧ p = g.pid ∧
      low = (if A.isEmpty then none else some g.hd.1) := by
  unfold lvInfo at h
  split at h
  · next hx =>
    obtain ⟨A, g, B, D, h1, h2, h3⟩ := hx.choose_spec
    rw [Option.some.inj h] at h1 h3
    exact ⟨A, g, B, D, h1, h2.symm, h3⟩
  · cases h

theorem InLv.info {lv : List (List (Grp K V))} (hn : (lvPids lv).Nodup) {F : Nat}
    {A : List (Grp K V)} {g : Grp K V} {B : List (Grp K V)} {D : List (List (Grp K V))}
    (h : InLv lv F A g B D) :
    lvInfo lv g.pid = some (F, if A.isEmpty then none else some g.hd.1) := by
  unfold lvInfo
  split
  · next hx =>
    obtain ⟨A', g', B', D', h1, h2, h3⟩ := hx.choose_spec
    obtain ⟨rfl, rfl, rfl, rfl, rfl⟩ := h.uniq hn h1 h2.symm
    congr 1
    exact Prod.ext rfl h3
  · next hx => exact absurd ⟨(F, _), A, g, B, D, h, rfl, rfl⟩ hx

/-- The children of a group. -/
theorem InLv.child {es : List (K × Pay V)} {lv : List (List (Grp K V))} (hok : LvOK cfg es lv)
    {F : Nat} {A : List (Grp K V)} {g : Grp K V} {B : List (Grp K V)} {d : List (Grp K V)}
    {ds : List (List (Grp K V))} (h : InLv lv F A g B (d :: ds)) :
    (∀ x, A = [] → x = g.hd → ∃ g1 B1, InLv lv ds.length [] g1 B1 ds ∧ x = (g1.hd.1, .child g1.pid)) ∧
    (∀ x, (A = [] → x ∈ g.tl) → x ∈ g.recs → ∃ A1 g1 B1, A1 ≠ [] ∧ InLv lv ds.length A1 g1 B1 ds ∧
      x = (g1.hd.1, .child g1.pid)) := by
  obtain ⟨⟨U, rfl⟩, hl⟩ := h
  have h2 := hok.suffix.2.1
  obtain ⟨g0, d', rfl⟩ : ∃ g0 d', d = g0 :: d' := by
    cases d with
    | nil => exact absurd rfl hok.suffix.2.2.ne
    | cons b B' => exact ⟨b, B', rfl⟩
  have hin : ∀ {A1 g1 B1}, g0 :: d' = A1 ++ g1 :: B1 →
      InLv (U ++ (A ++ g :: B) :: (g0 :: d') :: ds) ds.length A1 g1 B1 ds := by
    intro A1 g1 B1 e
    rw [e]
    exact ⟨⟨U ++ [A ++ g :: B], by simp⟩, rfl⟩
  refine ⟨?_, ?_⟩
  · rintro x rfl rfl
    refine ⟨g0, d', hin rfl, ?_⟩
    have := congrArg List.head? h2
    simpa [entsOf, Grp.recs] using this
  · intro x hx hm
    have hx' : x ∈ entsOf d' := by
      cases A with
      | nil =>
        have h3 : g.tl ++ B.flatMap Grp.recs = entsOf d' := by
          have := congrArg List.tail h2
          simpa [entsOf, Grp.recs] using this
        rw [← h3]
        exact List.mem_append_left _ (hx rfl)
      | cons a A =>
        have h3 : a.tl ++ (A ++ g :: B).flatMap Grp.recs = entsOf d' := by
          have := congrArg List.tail h2
          simpa [entsOf, Grp.recs] using this
        rw [← h3]
        exact List.mem_append_right _ (List.mem_flatMap.mpr ⟨g, by simp, hm⟩)
    obtain ⟨g1, hg1, rfl⟩ := List.mem_map.mp hx'
    obtain ⟨A1, B1, rfl⟩ := List.append_of_mem hg1
    exact ⟨g0 :: A1, g1, B1, by simp, hin rfl, rfl⟩

/-- A group that covers a key. -/
theorem cover_group (k : K) : ∀ {gs : List (Grp K V)}, gs ≠ [] → ∃ A g B, gs = A ++ g :: B ∧
    (A ≠ [] → g.hd.1 ≤ k) ∧ ∀ b, B.head? = some b → k < b.hd.1
  | [], h => absurd rfl h
  | [g], _ => ⟨[], g, [], rfl, fun h => absurd rfl h, fun b h => by cases h⟩
  | g :: g' :: r, _ => by
    by_cases hk : k < g'.hd.1
    · exact ⟨[], g, g' :: r, rfl, fun h => absurd rfl h, fun b h => by cases h; exact hk⟩
    · obtain ⟨A, x, B, h1, h2, h3⟩ := cover_group k (gs := g' :: r) (by simp)
      refine ⟨g :: A, x, B, by rw [h1]; rfl, fun _ => ?_, h3⟩
      cases A with
      | nil => cases h1; exact le_of_not_gt hk
      | cons a A => exact h2 (by simp)

/-- Ghost state of a bulkloaded tree. -/
noncomputable def bulkSt (T : Tbl K V) (root npid : PID) (lv : List (List (Grp K V)))
    (m : K → Option V) : St K V :=
  { toSh := bulkSh T root npid, info := lvInfo lv, nfam := lv.length, fcf := fun F => F - 1,
    est := fun p => match lvInfo lv p with
      | some (F, _) => .posted (F + 1)
      | none => .posted 0
    own := fun _ => none, pend := fun _ => none, cellInfo := fun _ => none, m := m,
    ops := fun _ => .idle }

section
variable {ids : Nat → Nat → PID} {es : List (K × V)} {T : Tbl K V} {root npid : PID}
  {lv : List (List (Grp K V))} {m : K → Option V}

theorem InLv.slot {es : List (K × Pay V)} (hb : Built cfg ids es T root lv) {F : Nat}
    {A : List (Grp K V)} {g : Grp K V} {B : List (Grp K V)} {D : List (List (Grp K V))}
    (h : InLv lv F A g B D) : T g.pid = some (node0 cfg (!D.isEmpty) A.isEmpty g B.head?) :=
  hb.holds.has (g.pid, _) (lvNodes0_mem.mpr ⟨F, A, g, B, D, h, rfl⟩)

theorem bulkSt_cont {es : List (K × Pay V)} (hb : Built cfg ids es T root lv) {p : PID}
    {c : Chain K V} {x : Nat × Option K}
    (hc : (bulkSt T root npid lv m).cont p = some c) (hi : lvInfo lv p = some x) :
    ∃ A g B D, InLv lv x.1 A g B D ∧ p = g.pid ∧ x.2 = (if A.isEmpty then none else some g.hd.1) ∧
      c = .base (node0 cfg (!D.isEmpty) A.isEmpty g B.head?) := by
  obtain ⟨F, low⟩ := x
  obtain ⟨A, g, B, D, h1, rfl, h3⟩ := lvInfo_some hi
  refine ⟨A, g, B, D, h1, rfl, h3, ?_⟩
  have hs := h1.slot hb
  unfold St.cont at hc
  simp only [bulkSt, bulkSh, hi, hs, Option.map_some] at hc
  exact (Option.some.inj hc).symm

theorem InLv.cont {es : List (K × Pay V)} (hb : Built cfg ids es T root lv) {F : Nat}
    {A : List (Grp K V)} {g : Grp K V} {B : List (Grp K V)} {D : List (List (Grp K V))}
    (h : InLv lv F A g B D) : (bulkSt T root npid lv m).cont g.pid =
      some (.base (node0 cfg (!D.isEmpty) A.isEmpty g B.head?)) := by
  unfold St.cont
  simp only [bulkSt, bulkSh, h.info hb.nodup, h.slot hb, Option.map_some]

theorem InLv.around {es : List (K × Pay V)} (hb : Built cfg ids es T root lv) (hs : SortedK es)
    {F : Nat} {A : List (Grp K V)} {g : Grp K V} {B : List (Grp K V)} {D : List (List (Grp K V))}
    (h : InLv lv F A g B D) : Around A g B := by
  obtain ⟨⟨U, e⟩, _⟩ := h
  have := hb.ok
  rw [e] at this
  exact BwTree.around (this.suffix.sorted hs)

/-- The size of each page is right, with fixed-length keys or if there is only one page. -/
theorem InLv.size (fix : (∀ k, cfg.klen k = 0) ∨ ∃ n, T root = some n ∧ n.inner = false)
    {es : List (K × Pay V)} (hb : Built cfg ids es T root lv)
    {F : Nat} {A : List (Grp K V)} {g : Grp K V} {B : List (Grp K V)} {D : List (List (Grp K V))}
    (h : InLv lv F A g B D) : SizeOK cfg (node0 cfg (!D.isEmpty) A.isEmpty g B.head?) ∧
      (node0 cfg (!D.isEmpty) A.isEmpty g B.head?).size ≤ cfg.page := by
  have hfit : cfg.hdr + cfg.recsLen (!D.isEmpty) g.recs ≤ cfg.page := by
    obtain ⟨⟨U, e⟩, _⟩ := h
    have := hb.ok
    rw [e] at this
    have h1 := this.suffix.fits.fits g (by simp)
    have h2 : cfg.bulkCap ≤ cfg.page := by unfold Cfg.bulkCap; omega
    omega
  rcases fix with fix | ⟨n, e1, e2⟩
  · refine ⟨node0_size fix, ?_⟩
    show ((cfg.bulkSize (!D.isEmpty) (some g.hd.1) g.recs (B.head?.map fun x => x.hd.1) : Nat) : Int) ≤
      cfg.page
    rw [recsLen_fix fix] at hfit
    rw [bulkSize_fix fix]
    exact_mod_cast hfit
  · obtain ⟨g0, h1, h2⟩ := hb.root
    obtain ⟨D0, rfl⟩ : ∃ D0, lv = [g0] :: D0 := by
      cases lv with
      | nil => cases h1
      | cons x D => cases h1; exact ⟨D, rfl⟩
    have h3 : InLv ([g0] :: D0) D0.length [] g0 [] D0 := ⟨⟨[], rfl⟩, rfl⟩
    have h4 := h3.slot hb
    rw [← h2, e1] at h4
    have h5 : D0 = [] := by
      cases D0 with
      | nil => rfl
      | cons d D =>
        rw [Option.some.inj h4] at e2
        cases e2
    subst h5
    obtain ⟨⟨U, e⟩, _⟩ := h
    cases U with
    | cons u U => simp at e
    | nil =>
      simp only [List.nil_append, List.cons.injEq] at e
      obtain ⟨e3, e4⟩ := e
      subst e4
      cases A with
      | cons a A => simp at e3
      | nil =>
        simp only [List.nil_append, List.cons.injEq] at e3
        obtain ⟨rfl, rfl⟩ := e3
        refine ⟨node0_size_one, ?_⟩
        show ((cfg.hdr + cfg.recsLen false g0.recs + 0 + 0 : Nat) : Int) ≤ cfg.page
        exact_mod_cast hfit

theorem InLv.wf (fix : (∀ k, cfg.klen k = 0) ∨ ∃ n, T root = some n ∧ n.inner = false)
    {es : List (K × Pay V)} (hb : Built cfg ids es T root lv) (hs : SortedK es)
    (hk : ∀ x ∈ es, ∃ v, x.2 = Pay.val v)
    {F : Nat} {A : List (Grp K V)} {g : Grp K V} {B : List (Grp K V)} {D : List (List (Grp K V))}
    (h : InLv lv F A g B D) : NodeWF cfg (node0 cfg (!D.isEmpty) A.isEmpty g B.head?) ∧
      (node0 cfg (!D.isEmpty) A.isEmpty g B.head?).size ≤ cfg.page := by
  refine ⟨node0_wf (h.size fix hb).1 (h.around hb hs) ?_, (h.size fix hb).2⟩
  obtain ⟨⟨U, e⟩, _⟩ := h
  have := hb.ok
  rw [e] at this
  exact fun x hx => this.suffix.kind hk x (List.mem_flatMap.mpr ⟨g, by simp, hx⟩)

theorem alook_vals (es : List (K × V)) (k : K) :
    alook (es.map fun x => (x.1, Pay.val x.2)) k = (Spec.ofList es k).map Pay.val := by
  induction es with
  | nil => rfl
  | cons x es ih =>
    rw [List.map_cons, alook_cons, Spec.ofList]
    split
    · rfl
    · exact ih

theorem isEmpty_len {α : Type} (l : List α) : (!l.isEmpty) = decide (l.length ≠ 0) := by
  cases l <;> simp

theorem node0_body_leaf {first : Bool} {g : Grp K V} {nx : Option (Grp K V)} :
    (node0 cfg false first g nx).body = g.recs := by
  simp [Node.body, Node.leftInner, node0, nodeOf]

theorem bulkSt_inv (fix : (∀ k, cfg.klen k = 0) ∨ ∃ n, T root = some n ∧ n.inner = false)
    (hb : Built cfg ids (es.map fun x => (x.1, Pay.val x.2)) T root lv)
    (hs : es.Pairwise fun x y => x.1 < y.1) (h0 : ∀ t i, ids t i ≠ 0)
    (hnp : ∀ p n, T p = some n → p < npid) :
    Inv cfg (bulkSt T root npid lv (Spec.ofList es)) := by
  have hs' : SortedK (es.map fun x => (x.1, Pay.val x.2)) := List.pairwise_map.mpr hs
  have hk : ∀ x ∈ (es.map fun x => (x.1, Pay.val x.2)), ∃ v, x.2 = Pay.val v := by
    intro x hx
    obtain ⟨y, _, rfl⟩ := List.mem_map.mp hx
    exact ⟨y.2, rfl⟩
  have hmem : ∀ {F A g B D}, InLv lv F A g B D → g.pid ∈ lvPids lv := by
    rintro F A g B D ⟨⟨U, e⟩, _⟩
    rw [e]; simp [lvPids]
  have hpos : ∀ {F A g B D}, InLv lv F A g B D → g.pid ≠ 0 := by
    intro F A g B D h
    obtain ⟨u, i, e⟩ := hb.mem _ (hmem h)
    rw [e]; exact h0 u i
  have hkids : ∀ {F A g B D}, InLv lv F A g B D → ∀ sep q,
      (sep, Pay.child q) ∈ (node0 cfg (!D.isEmpty) A.isEmpty g B.head?).body →
      ∃ A1 g1 B1 d ds, D = d :: ds ∧ A1 ≠ [] ∧ InLv lv ds.length A1 g1 B1 ds ∧ sep = g1.hd.1 ∧ q = g1.pid := by
    intro F A g B D h sep q hm
    cases D with
    | nil =>
      have hw := (h.wf fix hb hs' hk).1
      rw [List.isEmpty_nil, Bool.not_true, node0_body_leaf] at hm
      obtain ⟨v, e⟩ := hw.kind _ hm
      cases e
    | cons d ds =>
      obtain ⟨A1, g1, B1, c1, c2, c3⟩ := (h.child hb.ok).2 (sep, .child q) (by
          rintro rfl
          simpa [Node.body, Node.leftInner, node0, nodeOf, Grp.recs] using hm) (by
          unfold Node.body at hm
          split at hm
          · exact List.mem_of_mem_drop hm
          · exact hm)
      cases c3
      exact ⟨A1, g1, B1, d, ds, rfl, c1, c2, rfl, rfl⟩
  refine ⟨⟨?_, ?_, ?_, ?_, ?_, ?_, ?_, ?_, ?_, ?_⟩, ?_⟩
  · -- pages
    intro p c F low h1 h2
    obtain ⟨A, g, B, D, h3, rfl, h5, rfl⟩ := bulkSt_cont hb h1 h2
    simp only at h3 h5
    obtain ⟨hw, hz⟩ := h3.wf fix hb hs' hk
    have hF : F = D.length := h3.len.symm
    refine ⟨⟨?_, h5.symm, hw⟩, ⟨?_, ?_⟩, ?_, ?_, hz⟩
    · rw [hF]; exact isEmpty_len D
    · intro x hx q hq
      cases D with
      | nil => simp [Node.pre, Node.leftInner, node0, nodeOf] at hx
      | cons d ds =>
        have hA : A = [] ∧ x = g.hd := by
          cases A with
          | nil => simpa [Node.pre, Node.leftInner, node0, nodeOf, Grp.recs] using hx
          | cons a A => simp [Node.pre, Node.leftInner, node0, nodeOf] at hx
        obtain ⟨g1, B1, c1, c2⟩ := (h3.child hb.ok).1 x hA.1 hA.2
        subst c2
        cases hq
        have e := c1.info hb.nodup
        show lvInfo lv g1.pid = some (F - 1, none)
        rw [e, hF]; simp
    · intro x hx q hq
      obtain ⟨k, y⟩ := x
      simp only at hq
      subst hq
      obtain ⟨A1, g1, B1, d, ds, rfl, c1, c2, rfl, rfl⟩ := hkids h3 _ _ hx
      show lvInfo lv g1.pid = some (F - 1, some g1.hd.1)
      rw [c2.info hb.nodup, hF]
      cases A1 with
      | nil => exact absurd rfl c1
      | cons _ _ => simp
    · intro h hh
      cases B with
      | nil => cases hh
      | cons b B =>
        obtain ⟨⟨U, e⟩, e2⟩ := h3
        have h4 : InLv lv F (A ++ [g]) b B D := ⟨⟨U, by rw [e]; simp⟩, e2⟩
        show lvInfo lv b.pid = some (F, some h)
        have hh : some b.hd.1 = some h := hh
        rw [h4.info hb.nodup, ← hh]
        simp
    · have := slack_nonneg cfg (decide (F ≠ 0))
      show (node0 cfg (!D.isEmpty) A.isEmpty g B.head?).size ≤ _
      omega
  · intro p c h1
    cases hi : lvInfo lv p with
    | none =>
      change St.cont _ p = _ at h1
      unfold St.cont at h1
      simp only [bulkSt, hi] at h1
      cases h1
    | some x => exact ⟨x.1, x.2, hi⟩
  · -- disjointness
    intro p q c c' F low low' h1 h2 h3 h4 hne
    obtain ⟨A, g, B, D, a1, rfl, a3, rfl⟩ := bulkSt_cont hb h1 h3
    obtain ⟨A', g', B', D', b1, rfl, b3, rfl⟩ := bulkSt_cont hb h2 h4
    simp only at a1 b1 a3 b3
    obtain ⟨e, rfl⟩ := a1.same b1
    have main : ∀ {A A' B B' : List (Grp K V)} {g g' : Grp K V} {low' : Option K},
        Around A g B → low' = (if A'.isEmpty then none else some g'.hd.1) → (∃ X, A' = A ++ g :: X ∧ B = X ++ g' :: B') →
        Before (Chain.base (node0 cfg (!D.isEmpty) A.isEmpty g B.head?)).high low' := by
      rintro A A' B B' g g' low' ha hl ⟨X, rfl, rfl⟩
      obtain ⟨b, hbx⟩ : ∃ b, (X ++ g' :: B').head? = some b := by cases X <;> exact ⟨_, rfl⟩
      refine ⟨b.hd.1, g'.hd.1, ?_, ?_, ?_⟩
      · show Option.map _ (X ++ g' :: B').head? = _
        rw [hbx]; rfl
      · rw [hl]; simp
      · exact ha.right g'.hd (List.mem_flatMap.mpr ⟨g', by simp, List.mem_cons_self⟩) b hbx
    rcases List.append_eq_append_iff.mp e with ⟨X, e1, e2⟩ | ⟨X, e1, e2⟩
    · cases X with
      | nil => cases e2; exact absurd rfl hne
      | cons x X =>
        cases e2
        exact Or.inl (main (a1.around hb hs') b3 ⟨X, e1, rfl⟩)
    · cases X with
      | nil => cases e2; exact absurd rfl hne
      | cons x X =>
        cases e2
        exact Or.inr (main (b1.around hb hs') a3 ⟨X, e1, rfl⟩)
  · -- entries
    intro p c F low sep q h1 h2 h3
    obtain ⟨A, g, B, D, a1, rfl, a3, rfl⟩ := bulkSt_cont hb h1 h2
    obtain ⟨A1, g1, B1, d, ds, rfl, c1, c2, rfl, rfl⟩ := hkids a1 _ _ h3
    refine ⟨?_, _, c2.cont hb⟩
    have hF : (d :: ds).length = F := a1.len
    show (match lvInfo lv g1.pid with
      | some (F, _) => Est.posted (F + 1)
      | none => Est.posted 0) = Est.posted F
    rw [c2.info hb.nodup, ← hF]
    rfl
  · -- values
    intro p c low k h1 h2 h3
    obtain ⟨A, g, B, D, a1, rfl, a3, rfl⟩ := bulkSt_cont hb h1 h2
    simp only at a1 a3
    have hD : D = [] := List.length_eq_zero_iff.mp a1.len
    subst hD
    have har := a1.around hb hs'
    obtain ⟨⟨U, e⟩, _⟩ := a1
    have hok := hb.ok
    rw [e] at hok
    have h5 := hok.suffix.2
    show alook (node0 cfg false A.isEmpty g B.head?).body k = (Spec.ofList es k).map Pay.val
    rw [node0_body_leaf, ← alook_vals, ← h5, List.flatMap_append, List.flatMap_cons, alook_append,
      alook_append]
    have e1 : alook (A.flatMap Grp.recs) k = none := by
      cases A with
      | nil => rfl
      | cons a A =>
        have hlow : g.hd.1 ≤ k := h3.1 g.hd.1 a3
        exact alook_none_of_gt (fun x hx => lt_of_lt_of_le (har.left x hx) hlow)
    have e2 : alook (B.flatMap Grp.recs) k = none := by
      cases B with
      | nil => rfl
      | cons b B =>
        have hhigh : k < b.hd.1 := h3.2 b.hd.1 rfl
        exact alook_none_of_lt (fun x hx => lt_of_lt_of_le hhigh (har.right x hx b rfl))
    rw [e1, e2]
    cases alook g.recs k <;> rfl
  · -- every key is covered
    intro k
    have hlv : ∃ U gs, lv = U ++ [gs] := by
      rcases List.eq_nil_or_concat lv with e | ⟨U, gs, e⟩
      · exact absurd hb.ok (by rw [e]; exact id)
      · exact ⟨U, gs, by simpa using e⟩
    obtain ⟨U, gs, e⟩ := hlv
    have hok := hb.ok
    rw [e] at hok
    obtain ⟨A, g, B, rfl, c1, c2⟩ := cover_group k hok.suffix.ne
    have hin : InLv lv 0 A g B [] := ⟨⟨U, e⟩, rfl⟩
    refine ⟨g.pid, _, _, hin.cont hb, hin.info hb.nodup, ?_, ?_⟩
    · intro l hl
      cases A with
      | nil => cases hl
      | cons a A =>
        cases hl
        exact c1 (by simp)
    · intro u hu
      obtain ⟨b, e1, e2⟩ := Option.map_eq_some_iff.mp hu
      subst e2
      exact c2 b e1
  · intro p F l h1 _
    obtain ⟨A, g, B, D, a1, rfl, _⟩ := lvInfo_some h1
    exact ⟨_, a1.cont hb⟩
  · intro p F low h1
    obtain ⟨A, g, B, D, ⟨⟨U, e⟩, hl⟩, rfl, _⟩ := lvInfo_some h1
    show F < lv.length
    rw [e, ← hl]; simp only [List.length_append, List.length_cons]; omega
  · intro F h1 h2
    show F - 1 < F
    omega
  · intro p c h h1 hh
    have hk0 : ∃ x, lvInfo lv p = some x := by
      cases hi : lvInfo lv p with
      | none =>
        change St.cont _ p = _ at h1
        unfold St.cont at h1
        simp only [bulkSt, hi] at h1
        cases h1
      | some x => exact ⟨x, rfl⟩
    obtain ⟨⟨F, low⟩, h2⟩ := hk0
    obtain ⟨A, g, B, D, h3, rfl, _, rfl⟩ := bulkSt_cont hb h1 h2
    cases B with
    | nil => cases hh
    | cons b B =>
      obtain ⟨⟨U, e⟩, e2⟩ := h3
      have h4 : InLv lv F (A ++ [g]) b B D := ⟨⟨U, by rw [e]; simp⟩, e2⟩
      exact ⟨_, h4.cont hb⟩
  · obtain ⟨g, hg, hroot⟩ := hb.root
    have hrin : ∃ D, InLv lv D.length [] g [] D := by
      cases lv with
      | nil => cases hg
      | cons x D => cases hg; exact ⟨D, ⟨[], rfl⟩, rfl⟩
    obtain ⟨D, hrin⟩ := hrin
    have hTnone : ∀ p, lvInfo lv p = none → T p = none := by
      intro p hp
      cases hT : T p with
      | none => rfl
      | some n =>
        exfalso
        have h1 := hb.holds.only p n hT
        obtain ⟨x, h2, rfl⟩ := List.mem_map.mp h1
        obtain ⟨F, A, g, B, D, h3, rfl⟩ := lvNodes0_mem.mp h2
        have := h3.info hb.nodup
        simp only at hp
        rw [hp] at this
        cases this
    refine ⟨?_, ?_, ?_, ?_, ?_, ?_, ?_, ?_, ?_, ?_, ?_⟩
    · exact Nat.lt_of_le_of_lt (Nat.zero_le _) (hnp _ _ (hrin.slot hb))
    · intro p hp
      have hinfo : lvInfo lv p = none := by
        cases hi : lvInfo lv p with
        | none => rfl
        | some x =>
          obtain ⟨F, low⟩ := x
          obtain ⟨A, g, B, D, a1, rfl, _⟩ := lvInfo_some hi
          rcases hp with hp | hp
          · exact absurd (hnp _ _ (a1.slot hb)) (Nat.not_lt.mpr hp)
          · exact absurd hp (hpos a1)
      refine ⟨?_, hinfo, rfl, rfl⟩
      show (T p).map Chain.base = none
      rw [hTnone p hinfo]; rfl
    · intro p F low h1
      obtain ⟨A, g, B, D, a1, rfl, _⟩ := lvInfo_some h1
      refine ⟨.base (node0 cfg (!D.isEmpty) A.isEmpty g B.head?), ?_, fun b e => by cases e⟩
      show (T g.pid).map Chain.base = _
      rw [a1.slot hb]; rfl
    · intro p c h1 h2 h3
      obtain ⟨n, _, e⟩ := Option.map_eq_some_iff.mp h2
      subst e
      cases h3
    · intro p t h1; cases h1
    · intro p t h1; cases h1
    · intro p h1
      have h1 : (match lvInfo lv p with
        | some (F, _) => Est.posted (F + 1)
        | none => Est.posted 0) = Est.deleted := h1
      cases hi : lvInfo lv p <;> rw [hi] at h1 <;> cases h1
    · exact ⟨D.length, by
        show lvInfo lv root = _
        rw [hroot, hrin.info hb.nodup]; simp⟩
    · intro w F k h1; cases h1
    · intro w _; rfl
    · intro p c h1 h2
      have h2 : (T p).map Chain.base = some c := h2
      rw [hTnone p h1] at h2
      cases h2

end

end BwTree
