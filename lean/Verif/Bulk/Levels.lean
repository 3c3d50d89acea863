import Verif.Bulk.Layers
import Mathlib.Data.List.Nodup

/-!
# Whole bulkloaded trees as lists of layers, top layer first (proof side)
-/

namespace BwTree

set_option linter.unusedSectionVars false

variable {K V : Type} [LinearOrder K] {cfg : Cfg K}

/-- The layers of a tree over the entries `es`, top layer first. -/
def LvOK (cfg : Cfg K) (es : List (K × Pay V)) : List (List (Grp K V)) → Prop
  | [] => False
  | [g] => LayerOK cfg false g ∧ g.flatMap Grp.recs = es
  | g :: d :: ds => LayerOK cfg true g ∧ g.flatMap Grp.recs = entsOf d ∧ LvOK cfg es (d :: ds)

/-- The nodes of all layers. -/
def lvNodes (cfg : Cfg K) : List (List (Grp K V)) → List (PID × Node K V)
  | [] => []
  | g :: rest => nodesE cfg (!rest.isEmpty) none g ++ lvNodes cfg rest

/-- The pages of all layers. -/
def lvPids (lv : List (List (Grp K V))) : List PID := lv.flatten.map Grp.pid

theorem lvPids_cons (g : List (Grp K V)) (lv : List (List (Grp K V))) :
    lvPids (g :: lv) = g.map Grp.pid ++ lvPids lv := by
  simp [lvPids]

theorem lvNodes_pids : ∀ (lv : List (List (Grp K V))), (lvNodes cfg lv).map Prod.fst = lvPids lv
  | [] => rfl
  | g :: rest => by
    rw [lvNodes, List.map_append, lvNodes_pids rest, nodesE_pids, lvPids_cons]

theorem LvOK.ne {es : List (K × Pay V)} {g : List (Grp K V)} {lv : List (List (Grp K V))}
    (h : LvOK cfg es (g :: lv)) : g ≠ [] := by
  cases lv with
  | nil => exact h.1.ne
  | cons d ds => exact h.1.ne

/-- The table holds exactly the listed pages. -/
structure Holds (T : Tbl K V) (S : List (PID × Node K V)) : Prop where
  has : ∀ x ∈ S, T x.1 = some x.2
  only : ∀ p n, T p = some n → p ∈ S.map Prod.fst

theorem Holds.nil : Holds (fun _ => none : Tbl K V) [] :=
  ⟨fun _ h => by simp at h, fun _ _ h => by cases h⟩

theorem Holds.congr {T : Tbl K V} {S S' : List (PID × Node K V)} (h : Holds T S)
    (e : ∀ x, x ∈ S' ↔ x ∈ S) : Holds T S' := by
  refine ⟨fun x hx => h.has x ((e x).mp hx), fun p n hp => ?_⟩
  obtain ⟨x, h1, h2⟩ := List.mem_map.mp (h.only p n hp)
  exact List.mem_map.mpr ⟨x, (e x).mpr h1, h2⟩

theorem Holds.put {T : Tbl K V} {S : List (PID × Node K V)} (h : Holds T S) {x : PID × Node K V}
    (hx : x.1 ∉ S.map Prod.fst) : Holds (upd T x.1 (some x.2)) (x :: S) := by
  refine ⟨fun y hy => ?_, fun p n hp => ?_⟩
  · rcases List.mem_cons.mp hy with rfl | hy
    · exact upd_same ..
    · rw [upd_ne _ _ (fun e => hx (List.mem_map.mpr ⟨y, hy, e⟩))]; exact h.has y hy
  · by_cases e : p = x.1
    · subst e; simp
    · rw [upd_ne _ _ e] at hp
      exact List.mem_cons_of_mem _ (h.only p n hp)

theorem Holds.putAll : ∀ {ns S : List (PID × Node K V)} {T : Tbl K V}, Holds T S →
    ((ns ++ S).map Prod.fst).Nodup → Holds (T.putAll ns) (ns ++ S)
  | [], _, _, h, _ => h
  | x :: ns, S, T, h, hn => by
    rw [Tbl.putAll]
    have hn' : (x.1 :: (ns ++ S).map Prod.fst).Nodup := hn
    have h1 : x.1 ∉ S.map Prod.fst := fun e => (List.nodup_cons.mp hn').1 (by
      rw [List.map_append]; exact List.mem_append_right _ e)
    have hp : (ns ++ x :: S).Perm (x :: (ns ++ S)) := List.perm_middle
    have h2 : ((ns ++ x :: S).map Prod.fst).Nodup := (hp.map Prod.fst).nodup_iff.mpr hn'
    exact (Holds.putAll (h.put h1) h2).congr (fun y => hp.mem_iff.symm)

theorem Holds.replace {T : Tbl K V} {A B : List (PID × Node K V)} {p : PID} {n n' : Node K V}
    (h : Holds T (A ++ (p, n) :: B)) (hn : ((A ++ (p, n) :: B).map Prod.fst).Nodup) :
    Holds (upd T p (some n')) (A ++ (p, n') :: B) := by
  have hm : (A ++ (p, n') :: B).map Prod.fst = (A ++ (p, n) :: B).map Prod.fst := by simp
  have hne : ∀ y ∈ A ++ B, y.1 ≠ p := by
    have hp : (A ++ (p, n) :: B).Perm ((p, n) :: (A ++ B)) := List.perm_middle
    have h2 : (p :: (A ++ B).map Prod.fst).Nodup := (hp.map Prod.fst).nodup_iff.mp hn
    exact fun y hy e => (List.nodup_cons.mp h2).1 (List.mem_map.mpr ⟨y, hy, e⟩)
  refine ⟨fun y hy => ?_, fun q m hq => ?_⟩
  · by_cases e : y ∈ A ++ B
    · rw [upd_ne _ _ (hne y e)]
      refine h.has y ?_
      rcases List.mem_append.mp e with e | e
      · exact List.mem_append_left _ e
      · exact List.mem_append_right _ (List.mem_cons_of_mem _ e)
    · have : y = (p, n') := by
        simp only [List.mem_append, List.mem_cons, not_or] at hy e
        rcases hy with hy | rfl | hy
        · exact absurd hy e.1
        · rfl
        · exact absurd hy e.2
      subst this
      exact upd_same ..
  · rw [hm]
    by_cases e : q = p
    · subst e; simp
    · rw [upd_ne _ _ e] at hq
      exact h.only q m hq

/-! ## One more layer -/

/-- A partial tree with its layers. -/
structure PartS (cfg : Cfg K) (ids : Nat → PID) (own : PID → Prop) (es : List (K × Pay V))
    (p : Part K V) (lv : List (List (Grp K V))) : Prop where
  ok : LvOK cfg es lv
  height : p.height = lv.length
  nodes : ∃ g, lv.head? = some g ∧ p.nodes = entsOf g
  used : ∀ q ∈ lvPids lv, ∀ i, q = ids i → i < p.used
  mem : ∀ q ∈ lvPids lv, own q

/-- A partial tree in a table; `S` are the nodes of other partial trees. -/
structure PartOK (cfg : Cfg K) (ids : Nat → PID) (own : PID → Prop) (es : List (K × Pay V))
    (S : List (PID × Node K V)) (x : Part K V × Tbl K V) (lv : List (List (Grp K V))) : Prop
    extends PartS cfg ids own es x.1 lv where
  holds : Holds x.2 (lvNodes cfg lv ++ S)
  nodup : ((lvNodes cfg lv ++ S).map Prod.fst).Nodup

theorem range_map_nodup {ids : Nat → PID} (hinj : ∀ i j, ids i = ids j → i = j) (a n : Nat) :
    ((List.range' a n).map ids).Nodup :=
  List.Nodup.map (fun i j e => hinj i j e) List.nodup_range'

theorem PartOK.layer {ids : Nat → PID} (hinj : ∀ i j, ids i = ids j → i = j) {own : PID → Prop}
    (hown : ∀ i, own (ids i))
    {es : List (K × Pay V)} {S : List (PID × Node K V)} (hS : ∀ i, ids i ∉ S.map Prod.fst)
    {x : Part K V × Tbl K V} {lv : List (List (Grp K V))} (h : PartOK cfg ids own es S x lv)
    (hcap : (∀ k, cfg.hdr + cfg.bulkRes true + cfg.entLen true k ≤ cfg.bulkCap) ∨
      Part.layer cfg ids x ≠ none) :
    ∃ x' g, Part.layer cfg ids x = some x' ∧ PartOK cfg ids own es S x' (g :: lv) ∧
      x'.1.height = x.1.height + 1 ∧
      ((∀ k k', cfg.hdr + cfg.bulkRes true + cfg.entLen true k + cfg.entLen true k' ≤ cfg.bulkCap) →
        2 * x'.1.nodes.length ≤ x.1.nodes.length + 1) := by
  obtain ⟨g0, e0, e1⟩ := h.nodes
  obtain ⟨d, rfl⟩ : ∃ d, lv = g0 :: d := by
    cases lv with
    | nil => cases e0
    | cons a d => exact ⟨d, by rw [Option.some.inj e0]⟩
  obtain ⟨gs, g1, g2, g3, g4, g5⟩ := bulkLayer_spec (cfg := cfg) true ids x.1.nodes.length
    x.1.used x.1.nodes (Nat.le_refl _) (hcap.imp_right fun hne e => hne (by rw [Part.layer, e]))
  have hgne : gs ≠ [] := by
    rintro rfl
    rw [e1] at g2
    have hg0 := h.ok.ne
    cases g0 with
    | nil => exact hg0 rfl
    | cons a g0 => simp [entsOf] at g2
  have hent : (nodesE cfg true none gs).filterMap nodeEntry = entsOf gs := nodesE_entries true none gs
  have hnew : ∀ p ∈ gs.map Grp.pid, ∃ i, x.1.used ≤ i ∧ i < x.1.used + gs.length ∧ p = ids i := by
    intro p hp
    rw [g4] at hp
    obtain ⟨i, hi, rfl⟩ := List.mem_map.mp hp
    have := List.mem_range'_1.mp hi
    exact ⟨i, this.1, this.2, rfl⟩
  have e : lvNodes cfg (gs :: g0 :: d) ++ S = nodesE cfg true none gs ++ (lvNodes cfg (g0 :: d) ++ S) := by
    rw [lvNodes, List.append_assoc]; rfl
  have hnd : ((nodesE cfg true none gs ++ (lvNodes cfg (g0 :: d) ++ S)).map Prod.fst).Nodup := by
    rw [List.map_append, nodesE_pids]
    refine List.nodup_append.mpr ⟨g4 ▸ range_map_nodup hinj _ _, h.nodup, fun p hp q hq => ?_⟩
    rintro rfl
    obtain ⟨i, i1, _, rfl⟩ := hnew p hp
    rw [List.map_append, lvNodes_pids] at hq
    rcases List.mem_append.mp hq with hq | hq
    · have := h.used _ hq i rfl
      omega
    · exact hS i hq
  refine ⟨(⟨x.1.height + 1, entsOf gs, x.1.used + gs.length⟩,
    x.2.putAll (nodesE cfg true none gs)), gs, ?_, ⟨⟨⟨⟨hgne, g3⟩, by rw [g2, e1], h.ok⟩,
      by simp [h.height], ⟨gs, rfl, rfl⟩, ?_, ?_⟩, e ▸ Holds.putAll h.holds hnd, e ▸ hnd⟩, rfl, ?_⟩
  · rw [Part.layer, g1]; simp only [hent]
  · intro p hp i hi
    rw [lvPids_cons] at hp
    rcases List.mem_append.mp hp with hp | hp
    · obtain ⟨j, _, h2, h3⟩ := hnew p hp
      have : i = j := hinj _ _ (hi.symm.trans h3)
      rw [this]; exact h2
    · exact Nat.lt_of_lt_of_le (h.used p hp i hi) (Nat.le_add_right _ _)
  · intro p hp
    rw [lvPids_cons] at hp
    rcases List.mem_append.mp hp with hp | hp
    · obtain ⟨j, _, _, rfl⟩ := hnew p hp; exact hown j
    · exact h.mem p hp
  · intro h2
    have := g5 h2
    simpa [entsOf] using this

/-- The data layer. -/
theorem PartOK.leaves {ids : Nat → PID} (hinj : ∀ i j, ids i = ids j → i = j) {own : PID → Prop}
    (hown : ∀ i, own (ids i)) {es : List (K × Pay V)} (hes : es ≠ [])
    (hcap : (∀ k, cfg.hdr + cfg.bulkRes false + cfg.entLen false k ≤ cfg.bulkCap) ∨
      bulkLayer cfg false ids es.length 0 es ≠ none)
    {S : List (PID × Node K V)} (hS : ∀ i, ids i ∉ S.map Prod.fst) (hSn : (S.map Prod.fst).Nodup)
    {T : Tbl K V} (hT : Holds T S) :
    ∃ ns j lv, bulkLayer cfg false ids es.length 0 es = some (ns, j) ∧
      (ns.filterMap nodeEntry).length ≤ es.length ∧
      PartOK cfg ids own es S (⟨1, ns.filterMap nodeEntry, j⟩, T.putAll ns) lv := by
  obtain ⟨gs, g1, g2, g3, g4, g5⟩ := bulkLayer_spec (cfg := cfg) false ids es.length 0 es
    (Nat.le_refl _) hcap
  have hgne : gs ≠ [] := by rintro rfl; exact hes g2.symm
  have hu : ∀ p ∈ lvPids [gs], ∃ i, i < 0 + gs.length ∧ p = ids i := by
    intro p hp
    have hp : p ∈ gs.map Grp.pid := by simpa [lvPids_cons, lvPids] using hp
    rw [g4] at hp
    obtain ⟨i, hi, rfl⟩ := List.mem_map.mp hp
    exact ⟨i, (List.mem_range'_1.mp hi).2, rfl⟩
  have e : lvNodes cfg [gs] ++ S = nodesE cfg false none gs ++ S := by simp [lvNodes]
  have hnd : ((nodesE cfg false none gs ++ S).map Prod.fst).Nodup := by
    rw [List.map_append, nodesE_pids]
    refine List.nodup_append.mpr ⟨g4 ▸ range_map_nodup hinj _ _, hSn, fun p hp q hq => ?_⟩
    rintro rfl
    obtain ⟨i, _, rfl⟩ := hu p (by simpa [lvPids_cons, lvPids] using hp)
    exact hS i hq
  refine ⟨_, _, [gs], g1, ?_, ⟨⟨⟨⟨hgne, g3⟩, g2⟩, rfl, ⟨gs, rfl, nodesE_entries false none gs⟩, ?_,
    ?_⟩, e ▸ Holds.putAll hT hnd, e ▸ hnd⟩⟩
  · rw [nodesE_entries, ← g2, entsOf, List.length_map]
    clear g1 g2 g3 g4 g5 hgne hnd hu e
    induction gs with
    | nil => simp
    | cons g gs ih =>
      have : g.recs.length = g.tl.length + 1 := rfl
      rw [List.flatMap_cons, List.length_append, List.length_cons]; omega
  · intro p hp i hi
    obtain ⟨j, h1, h2⟩ := hu p hp
    have : i = j := hinj _ _ (hi.symm.trans h2)
    rw [this]; exact h1
  · intro p hp
    obtain ⟨j, _, rfl⟩ := hu p hp; exact hown j

/-! ## Repeated layers -/

theorem BulkOK.innerCap (h : BulkOK cfg) : 1 ≤ cfg.innerCap := by
  have h1 := h.inner
  have h2 : cfg.recLen true = cfg.idxLen := rfl
  have h3 : cfg.bulkRes true = cfg.maxKey + cfg.maxKey := rfl
  have h4 := h.pos
  have h5 := h.var
  unfold Cfg.bulkCap at h1
  unfold Cfg.innerCap
  split
  · rw [Nat.le_div_iff_mul_le h.pos]
    omega
  · rw [Nat.le_div_iff_mul_le (by omega)]
    omega

theorem BulkOK.one (h : BulkOK cfg) (b : Bool) (k : K) :
    cfg.hdr + cfg.bulkRes b + cfg.entLen b k ≤ cfg.bulkCap := by
  have h1 := h.keys k
  have h2 := h.inner
  have h3 := h.leaf
  unfold Cfg.entLen
  cases b <;> omega

theorem BulkOK.two (h : BulkOK cfg) (k k' : K) :
    cfg.hdr + cfg.bulkRes true + cfg.entLen true k + cfg.entLen true k' ≤ cfg.bulkCap := by
  have h1 := h.keys k
  have h4 := h.keys k'
  have h2 := h.inner
  unfold Cfg.entLen
  omega

theorem PartOK.grow {ids : Nat → PID} (hinj : ∀ i j, ids i = ids j → i = j)
    {own : PID → Prop} (hown : ∀ i, own (ids i))
    {es : List (K × Pay V)} {S : List (PID × Node K V)} (hS : ∀ i, ids i ∉ S.map Prod.fst) :
    ∀ (f : Nat) {x : Part K V × Tbl K V} {lv : List (List (Grp K V))},
      (BulkOK cfg ∧ x.1.nodes.length ≤ f ∨ Part.grow cfg ids f x ≠ none) →
      PartOK cfg ids own es S x lv →
      ∃ x' lv', Part.grow cfg ids f x = some x' ∧ PartOK cfg ids own es S x' lv' := by
  intro f
  induction f with
  | zero =>
    intro x lv hf h
    refine ⟨x, lv, ?_, h⟩
    by_cases hl : x.1.nodes.length ≤ cfg.innerCap
    · rw [Part.grow, if_pos hl]
    · rcases hf with hf | hf
      · omega
      · exact absurd (by rw [Part.grow, if_neg hl]) hf
  | succ f ih =>
    intro x lv hf h
    by_cases hl : x.1.nodes.length ≤ cfg.innerCap
    · exact ⟨x, lv, by rw [Part.grow, if_pos hl], h⟩
    · obtain ⟨x1, g, h1, h2, _, h4⟩ := h.layer hinj hown hS (hf.imp
        (fun hb => hb.1.one true)
        (fun hne e => hne (by rw [Part.grow, if_neg hl]; simp only [e, Option.bind_none])))
      obtain ⟨x', lv', h5, h6⟩ := ih (x := x1) (hf.imp
        (fun hb => ⟨hb.1, by
          have h9 := h4 hb.1.two
          have h10 := hb.1.innerCap
          omega⟩)
        (fun hne e => hne (by
          rw [Part.grow, if_neg hl]; simp only [h1, Option.bind_some]; exact e))) h2
      refine ⟨x', lv', ?_, h6⟩
      rw [Part.grow, if_neg hl]
      simp only [h1, Option.bind_some]
      exact h5

theorem PartOK.top {ids : Nat → PID} (hinj : ∀ i j, ids i = ids j → i = j)
    {own : PID → Prop} (hown : ∀ i, own (ids i))
    {es : List (K × Pay V)} {S : List (PID × Node K V)} (hS : ∀ i, ids i ∉ S.map Prod.fst) :
    ∀ (f : Nat) {x : Part K V × Tbl K V} {lv : List (List (Grp K V))},
      (BulkOK cfg ∧ x.1.nodes.length ≤ f ∨ bulkTop cfg ids f x ≠ none) →
      PartOK cfg ids own es S x lv →
      ∃ x' lv', bulkTop cfg ids f x = some x' ∧ PartOK cfg ids own es S x' lv' ∧
        x'.1.nodes.length ≤ 1 := by
  intro f
  induction f with
  | zero =>
    intro x lv hf h
    by_cases hl : x.1.nodes.length ≤ 1
    · exact ⟨x, lv, by rw [bulkTop, if_pos hl], h, hl⟩
    · rcases hf with hf | hf
      · omega
      · exact absurd (by rw [bulkTop, if_neg hl]) hf
  | succ f ih =>
    intro x lv hf h
    by_cases hl : x.1.nodes.length ≤ 1
    · exact ⟨x, lv, by rw [bulkTop, if_pos hl], h, hl⟩
    · obtain ⟨x1, g, h1, h2, _, h4⟩ := h.layer hinj hown hS (hf.imp
        (fun hb => hb.1.one true)
        (fun hne e => hne (by rw [bulkTop, if_neg hl]; simp only [e, Option.bind_none])))
      obtain ⟨x', lv', h5, h6⟩ := ih (x := x1) (hf.imp
        (fun hb => ⟨hb.1, by have h9 := h4 hb.1.two; omega⟩)
        (fun hne e => hne (by
          rw [bulkTop, if_neg hl]; simp only [h1, Option.bind_some]; exact e))) h2
      refine ⟨x', lv', ?_, h6⟩
      rw [bulkTop, if_neg hl]
      simp only [h1, Option.bind_some]
      exact h5

theorem PartOK.raise {ids : Nat → PID} (hinj : ∀ i j, ids i = ids j → i = j)
    {own : PID → Prop} (hown : ∀ i, own (ids i))
    {es : List (K × Pay V)} {S : List (PID × Node K V)} (hS : ∀ i, ids i ∉ S.map Prod.fst) :
    ∀ (n : Nat) {x : Part K V × Tbl K V} {lv : List (List (Grp K V))},
      (BulkOK cfg ∨ Part.raise cfg ids n x ≠ none) → PartOK cfg ids own es S x lv →
      ∃ x' lv', Part.raise cfg ids n x = some x' ∧ PartOK cfg ids own es S x' lv' ∧
        x'.1.height = x.1.height + n := by
  intro n
  induction n with
  | zero => intro x lv _ h; exact ⟨x, lv, rfl, h, rfl⟩
  | succ n ih =>
    intro x lv hf h
    obtain ⟨x1, g, h1, h2, h3, _⟩ := h.layer hinj hown hS (hf.imp
      (fun hb => hb.one true)
      (fun hne e => hne (by rw [Part.raise]; simp only [e, Option.bind_none])))
    obtain ⟨x', lv', h5, h6, h7⟩ := ih (x := x1) (hf.imp_right
      (fun hne e => hne (by rw [Part.raise]; simp only [h1, Option.bind_some]; exact e))) h2
    refine ⟨x', lv', ?_, h6, by omega⟩
    rw [Part.raise]
    simp only [h1, Option.bind_some]
    exact h5

theorem bulkPart_spec {ids : Nat → PID} (hinj : ∀ i j, ids i = ids j → i = j)
    {own : PID → Prop} (hown : ∀ i, own (ids i))
    {es : List (K × Pay V)} (hes : es ≠ []) {S : List (PID × Node K V)}
    (hS : ∀ i, ids i ∉ S.map Prod.fst) (hSn : (S.map Prod.fst).Nodup) {T : Tbl K V}
    (hT : Holds T S) (hb : BulkOK cfg ∨ bulkPart cfg ids T es ≠ none) :
    ∃ x lv, bulkPart cfg ids T es = some x ∧ PartOK cfg ids own es S x lv := by
  obtain ⟨ns, j, lv, h1, h2, h3⟩ := PartOK.leaves (own := own) hinj hown hes
    (hb.imp (fun hb => hb.one false) (fun hne e => hne (by rw [bulkPart, e]))) hS hSn hT
  obtain ⟨x', lv', h4, h5⟩ := PartOK.grow hinj hown hS es.length
    (hb.imp (fun hb => ⟨hb, h2⟩) (fun hne e => hne (by rw [bulkPart, h1]; exact e))) h3
  exact ⟨x', lv', by rw [bulkPart, h1]; exact h4, h5⟩

end BwTree
