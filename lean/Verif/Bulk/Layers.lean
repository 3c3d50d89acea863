import Verif.Bulk.Model

/-!
# Layers of a bulkloaded tree (proof side)

A layer is described by its groups of entries; the nodes follow from the groups.
-/

namespace BwTree

set_option linter.unusedSectionVars false

variable {K V : Type} [LinearOrder K] {cfg : Cfg K}

/-- The entries of one node. -/
structure Grp (K V : Type) where
  pid : PID
  hd : K × Pay V
  tl : List (K × Pay V)

/-- All entries of a group. -/
def Grp.recs (g : Grp K V) : List (K × Pay V) := g.hd :: g.tl

/-- The node of a group that is followed by another one. -/
def nodeOf (cfg : Cfg K) (b : Bool) (g : Grp K V) (nx : Option (Grp K V)) : PID × Node K V :=
  (g.pid, { inner := b, low := some g.hd.1, high := nx.map fun x => x.hd.1,
            next := (nx.map fun x => x.pid).getD 0, recs := g.recs,
            size := (cfg.bulkSize b (some g.hd.1) g.recs (nx.map fun x => x.hd.1) : Nat) })

/-- The nodes of a layer; `e` is what follows the layer. -/
def nodesE (cfg : Cfg K) (b : Bool) (e : Option (Grp K V)) : List (Grp K V) → List (PID × Node K V)
  | [] => []
  | g :: gs => nodeOf cfg b g (gs.head?.or e) :: nodesE cfg b e gs

/-- The entries of the layer above. -/
def entsOf (gs : List (Grp K V)) : List (K × Pay V) := gs.map fun g => (g.hd.1, .child g.pid)

theorem nodesE_append (b : Bool) (e : Option (Grp K V)) : ∀ (A B : List (Grp K V)),
    nodesE cfg b e (A ++ B) = nodesE cfg b (B.head?.or e) A ++ nodesE cfg b e B
  | [], B => rfl
  | a :: A, B => by
    rw [List.cons_append, nodesE, nodesE, nodesE_append b e A B, List.cons_append]
    congr 2
    cases A with
    | nil => cases B <;> rfl
    | cons a' A => rfl

theorem nodesE_pids (b : Bool) (e : Option (Grp K V)) : ∀ (gs : List (Grp K V)),
    (nodesE cfg b e gs).map Prod.fst = gs.map Grp.pid
  | [] => rfl
  | g :: gs => by rw [nodesE, List.map_cons, nodesE_pids b e gs, List.map_cons]; rfl

theorem nodesE_entries (b : Bool) (e : Option (Grp K V)) : ∀ (gs : List (Grp K V)),
    (nodesE cfg b e gs).filterMap nodeEntry = entsOf gs
  | [] => rfl
  | g :: gs => by
    rw [nodesE, List.filterMap_cons, nodesE_entries b e gs]; rfl

theorem nodesE_head (b : Bool) (e : Option (Grp K V)) (gs : List (Grp K V)) :
    ((nodesE cfg b e gs).head?.bind fun y => y.2.low) = gs.head?.map (fun x => x.hd.1) ∧
    (((nodesE cfg b e gs).head?.map fun y => y.1).getD 0) = (gs.head?.map fun x => x.pid).getD 0 := by
  cases gs with
  | nil => exact ⟨rfl, rfl⟩
  | cons g gs => exact ⟨rfl, rfl⟩

/-! ## One layer -/

theorem Cfg.recsLen_cons (b : Bool) (x : K × Pay V) (l : List (K × Pay V)) :
    cfg.recsLen b (x :: l) = cfg.entLen b x.1 + cfg.recsLen b l := by
  simp [Cfg.recsLen]

theorem bulkTake_spec (b : Bool) : ∀ (es : List (K × Pay V)) (sz : Nat),
    (bulkTake cfg b sz es).1 ++ (bulkTake cfg b sz es).2 = es ∧
    ((bulkTake cfg b sz es).1 ≠ [] → sz + cfg.recsLen b (bulkTake cfg b sz es).1 ≤ cfg.bulkCap) ∧
    (∀ y ys, (bulkTake cfg b sz es).2 = y :: ys →
      cfg.bulkCap < sz + cfg.recsLen b (bulkTake cfg b sz es).1 + cfg.entLen b y.1)
  | [], sz => by simp [bulkTake]
  | x :: xs, sz => by
    rw [bulkTake]
    by_cases h : sz + cfg.entLen b x.1 > cfg.bulkCap
    · rw [if_pos h]
      refine ⟨rfl, fun h => absurd rfl h, fun y ys e => ?_⟩
      cases e
      simpa [Cfg.recsLen] using h
    · rw [if_neg h]
      obtain ⟨h1, h2, h3⟩ := bulkTake_spec b xs (sz + cfg.entLen b x.1)
      refine ⟨by simp [h1], fun _ => ?_, fun y ys e => ?_⟩
      · simp only [Cfg.recsLen_cons]
        by_cases hn : (bulkTake cfg b (sz + cfg.entLen b x.1) xs).1 = []
        · rw [hn]; simp [Cfg.recsLen]; omega
        · have := h2 hn; omega
      · simp only [Cfg.recsLen_cons]
        have := h3 y ys e
        omega

/-- What holds for the groups of a layer. -/
structure LayerOK (cfg : Cfg K) (b : Bool) (gs : List (Grp K V)) : Prop where
  ne : gs ≠ []
  fits : ∀ g ∈ gs, cfg.hdr + cfg.bulkRes b + cfg.recsLen b g.recs ≤ cfg.bulkCap

/-- The layer loop cuts its input into groups, if it ends; it ends if a record fits. -/
theorem bulkLayer_spec (b : Bool) (ids : Nat → PID) :
    ∀ (f i : Nat) (es : List (K × Pay V)), es.length ≤ f →
      ((∀ k, cfg.hdr + cfg.bulkRes b + cfg.entLen b k ≤ cfg.bulkCap) ∨
        bulkLayer cfg b ids f i es ≠ none) →
      ∃ gs : List (Grp K V),
      bulkLayer cfg b ids f i es = some (nodesE cfg b none gs, i + gs.length) ∧
      gs.flatMap Grp.recs = es ∧
      (∀ g ∈ gs, cfg.hdr + cfg.bulkRes b + cfg.recsLen b g.recs ≤ cfg.bulkCap) ∧
      gs.map Grp.pid = (List.range' i gs.length).map ids ∧
      ((∀ k k', cfg.hdr + cfg.bulkRes b + cfg.entLen b k + cfg.entLen b k' ≤ cfg.bulkCap) →
        2 * gs.length ≤ es.length + 1)
  | f, i, [], _, _ => ⟨[], by cases f <;> rfl, rfl, by simp, rfl, by simp⟩
  | 0, i, e :: es, h, _ => by simp at h
  | f + 1, i, e :: es, h, hcap => by
    obtain ⟨h1, h2, h4⟩ := bulkTake_spec (cfg := cfg) b (e :: es) (cfg.hdr + cfg.bulkRes b)
    generalize hr : bulkTake cfg b (cfg.hdr + cfg.bulkRes b) (e :: es) = r at h1 h2 h4
    obtain ⟨xs, rest⟩ := r
    simp only at h1 h2 h4
    cases xs with
    | nil =>
      rw [List.nil_append] at h1
      have h9 := h4 _ _ h1
      rcases hcap with hcap | hcap
      · have := hcap e.1
        simp only [Cfg.recsLen, List.map_nil, List.sum_nil] at h9
        omega
      · rw [bulkLayer, hr] at hcap
        exact absurd rfl hcap
    | cons x xs =>
    have hlen : rest.length ≤ f := by
      have := congrArg List.length h1
      simp only [List.length_append, List.length_cons] at this h
      omega
    obtain ⟨gs, g1, g2, g3, g4, g5⟩ := bulkLayer_spec b ids f (i + 1) rest hlen
      (hcap.imp_right fun hne e => hne (by rw [bulkLayer, hr]; simp only [e]))
    refine ⟨⟨ids i, x, xs⟩ :: gs, ?_, ?_, ?_, ?_, ?_⟩
    · rw [bulkLayer, hr]
      simp only [g1]
      obtain ⟨e1, e2⟩ := nodesE_head (cfg := cfg) b none gs
      simp only [e1, e2, nodesE, nodeOf, Option.or_none, List.length_cons, Grp.recs]
      congr 2
      omega
    · rw [List.flatMap_cons, g2]; exact h1
    · intro g hg
      rcases List.mem_cons.mp hg with rfl | hg
      · exact h2 (by simp)
      · exact g3 g hg
    · rw [List.map_cons, g4, List.length_cons, List.range'_succ, List.map_cons]
    · intro h6
      have h7 := g5 h6
      have h8 := congrArg List.length h1
      simp only [List.length_append, List.length_cons] at h8 ⊢
      cases rest with
      | nil =>
        have : gs.length = 0 := by simp at h7; omega
        omega
      | cons y ys =>
        have h9 := h4 y ys rfl
        cases xs with
        | nil =>
          have := h6 x.1 y.1
          simp only [Cfg.recsLen, List.map_cons, List.map_nil, List.sum_cons, List.sum_nil] at h9
          omega
        | cons x' xs =>
          simp only [List.length_cons] at h8 h7 ⊢
          omega

end BwTree
