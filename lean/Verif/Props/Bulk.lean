import Verif.Spec.Bulk
import Verif.Conc.Solo
import Verif.Bulk.Resize
import Verif.Props.Races
import Mathlib.Data.Nat.Pairing

/-!
# Bulkload (C30, C31, C32, C33)

`IdsInj` and `fresh` say that the page IDs handed out are different from each other, from zero and
from the page of the empty root (C25).
-/

namespace BwTree.Props

open BwTree

set_option linter.unusedSectionVars false

variable {K V : Type} [LinearOrder K] {cfg : Cfg K}

/-! ## C31: shares -/

/-- The shares of the workers are, in order, the whole input, none is empty, and their lengths
differ by at most one. -/
theorem C31_shares {α : Type} (threads : Nat) (es : List α) (h1 : 0 < threads)
    (h2 : threads ≤ es.length) :
    (bulkShares threads es).length = threads ∧ (bulkShares threads es).flatten = es ∧
    (∀ s ∈ bulkShares threads es, s ≠ []) ∧
    ∀ s ∈ bulkShares threads es, ∀ s' ∈ bulkShares threads es, s.length ≤ s'.length + 1 := by
  have hes : es ≠ [] := by rintro rfl; simp at h2; omega
  obtain ⟨e1, e2, _⟩ := bulkShares_spec threads es hes
  by_cases h : threads ≤ 1
  · have : threads = 1 := by omega
    subst this
    refine ⟨by simp [bulkShares], e1, e2, ?_⟩
    intro s hs s' hs'
    simp [bulkShares] at hs hs'
    subst hs; subst hs'; omega
  · have hb : bulkShares threads es = shares es.length threads threads 0 es := by
      rw [bulkShares, if_neg (by omega)]
    obtain ⟨_, e3⟩ := shares_spec es.length threads threads 0 es (shareSum_all h1 _).symm
    have hlen : ∀ s ∈ bulkShares threads es, ∃ i, i < threads ∧ s.length = (es.length + i) / threads := by
      intro s hs
      rw [hb] at hs
      have : s.length ∈ (shares es.length threads threads 0 es).map List.length :=
        List.mem_map.mpr ⟨s, hs, rfl⟩
      rw [e3] at this
      obtain ⟨i, hi, e⟩ := List.mem_map.mp this
      exact ⟨i, by have := List.mem_range'_1.mp hi; omega, e.symm⟩
    refine ⟨?_, e1, e2, ?_⟩
    · have := congrArg List.length e3
      rw [hb]; simpa using this
    · intro s hs s' hs'
      obtain ⟨i, i1, i2⟩ := hlen s hs
      obtain ⟨j, j1, j2⟩ := hlen s' hs'
      rw [i2, j2, ← Nat.add_div_right _ h1]
      exact Nat.div_le_div_right (by omega)

/-- Seven records for three workers. -/
example : bulkShares 3 [1, 2, 3, 4, 5, 6, 7] = [[1, 2], [3, 4], [5, 6, 7]] := by decide

/-! ## The levels of a bulkloaded tree -/

theorem nodesE_chain (b : Bool) : ∀ (gs : List (Grp K V)),
    (nodesE cfg b none gs).IsChain
      fun x y => x.2.next = y.1 ∧ x.2.high = y.2.low ∧ y.2.low ≠ none
  | [] => .nil
  | [g] => .singleton _
  | g :: g' :: gs => by
    rw [nodesE]
    have := nodesE_chain b (g' :: gs)
    rw [nodesE] at this ⊢
    exact .cons_cons ⟨rfl, rfl, by simp [nodeOf]⟩ this

theorem nodesE_last (b : Bool) : ∀ (gs : List (Grp K V)) (x : PID × Node K V),
    (nodesE cfg b none gs).getLast? = some x → x.2.high = none
  | [], x, h => by cases h
  | [g], x, h => by cases h; rfl
  | g :: g' :: gs, x, h => by
    rw [nodesE] at h
    refine nodesE_last b (g' :: gs) x ?_
    rw [nodesE] at h ⊢
    rwa [List.getLast?_cons_cons] at h

theorem nodes0_level (b : Bool) (gs : List (Grp K V)) : Spec.LevelOK (nodes0 cfg b gs) := by
  cases gs with
  | nil => exact ⟨(fun x h => by cases h), (fun x h => by cases h), .nil⟩
  | cons g gs =>
    refine ⟨fun x h => ?_, fun x h => ?_, ?_⟩
    · cases h; rfl
    · cases gs with
      | nil => cases h; rfl
      | cons g' gs =>
        refine nodesE_last (cfg := cfg) b (g' :: gs) x ?_
        rw [nodes0, nodesE] at h
        rw [nodesE]
        rwa [List.getLast?_cons_cons] at h
    · cases gs with
      | nil => exact .singleton _
      | cons g' gs =>
        have := nodesE_chain (cfg := cfg) b (g' :: gs)
        rw [nodes0, nodesE]
        rw [nodesE] at this
        exact .cons_cons ⟨rfl, rfl, by simp [nodeOf]⟩ this

theorem nodes0_recs (b : Bool) (gs : List (Grp K V)) :
    ((nodes0 cfg b gs).flatMap fun x => x.2.recs) = gs.flatMap Grp.recs := by
  have h : ∀ gs : List (Grp K V),
      ((nodesE cfg b none gs).flatMap fun x => x.2.recs) = gs.flatMap Grp.recs := by
    intro gs
    induction gs with
    | nil => rfl
    | cons g gs ih => rw [nodesE, List.flatMap_cons, List.flatMap_cons, ih]; rfl
  cases gs with
  | nil => rfl
  | cons g gs => rw [nodes0, List.flatMap_cons, List.flatMap_cons, h]; rfl

theorem entsOf_fit (b : Bool) (gs : List (Grp K V)) :
    List.Forall₂ (fun r y => r.2 = Pay.child y.1 ∧ ∀ l, y.2.low = some l → r.1 = l)
      (entsOf gs) (nodes0 cfg b gs) := by
  have h : ∀ gs : List (Grp K V),
      List.Forall₂ (fun r y => r.2 = Pay.child y.1 ∧ ∀ l, y.2.low = some l → r.1 = l)
        (entsOf gs) (nodesE cfg b none gs) := by
    intro gs
    induction gs with
    | nil => exact .nil
    | cons g gs ih =>
      rw [nodesE, entsOf, List.map_cons]
      exact .cons ⟨rfl, fun l e => Option.some.inj e⟩ ih
  cases gs with
  | nil => exact .nil
  | cons g gs =>
    rw [nodes0, entsOf, List.map_cons]
    exact .cons ⟨rfl, fun l e => by cases e⟩ (h gs)

theorem nodesE_inner {b : Bool} {e : Option (Grp K V)} : ∀ {gs : List (Grp K V)},
    ∀ x ∈ nodesE cfg b e gs, x.2.inner = b ∧
      ∃ g ∈ gs, x.2.recs = g.recs ∧
        x.2.size = (cfg.bulkSize b (some g.hd.1) g.recs x.2.high : Nat)
  | [], x, h => by cases h
  | g :: gs, x, h => by
    rcases List.mem_cons.mp h with rfl | h
    · exact ⟨rfl, g, by simp, rfl, rfl⟩
    · obtain ⟨h1, g', h2, h3⟩ := nodesE_inner x h
      exact ⟨h1, g', List.mem_cons_of_mem _ h2, h3⟩

theorem nodes0_inner {b : Bool} {gs : List (Grp K V)} : ∀ x ∈ nodes0 cfg b gs, x.2.inner = b ∧
    ∃ g ∈ gs, x.2.recs = g.recs ∧
        x.2.size = (cfg.bulkSize b (some g.hd.1) g.recs x.2.high : Nat) := by
  intro x h
  cases gs with
  | nil => cases h
  | cons g gs =>
    rcases List.mem_cons.mp h with rfl | h
    · exact ⟨rfl, g, by simp, rfl, rfl⟩
    · obtain ⟨h1, g', h2, h3⟩ := nodesE_inner x h
      exact ⟨h1, g', List.mem_cons_of_mem _ h2, h3⟩

/-- Every bulkloaded node has at least one entry; its size is that of the header and its records, of its
highest key and, if it is an inner node, of its first key (keys count only if they have variable
length); it keeps to the reduced capacity if the bound on the lengths of keys holds. -/
def NodeFits (cfg : Cfg K) (n : Node K V) : Prop :=
  n.recs ≠ [] ∧
    n.size = ((cfg.hdr + cfg.recLen n.inner * n.recs.length + (n.recs.map fun x => cfg.klen x.1).sum +
      (if n.inner then cfg.olen (n.recs.head?.map Prod.fst) else 0) + cfg.olen n.high : Nat) : Int) ∧
    ((∀ k, cfg.klen k ≤ cfg.maxKey) → n.size ≤ (cfg.page * 9 / 10 : Nat))

theorem recsLen_split (b : Bool) (l : List (K × Pay V)) :
    cfg.recsLen b l = cfg.recLen b * l.length + (l.map fun x => cfg.klen x.1).sum := by
  induction l with
  | nil => rfl
  | cons a l ih =>
    rw [Cfg.recsLen_cons, ih, List.length_cons, Nat.mul_add, Cfg.entLen, List.map_cons, List.sum_cons]
    omega

theorem group_fits {b : Bool} {gs : List (Grp K V)} (h : LayerOK cfg b gs) {n : Node K V}
    (h1 : n.inner = b) {g : Grp K V} (h2 : g ∈ gs) (h3 : n.recs = g.recs)
    (h4 : n.size = (cfg.bulkSize b (some g.hd.1) g.recs n.high : Nat)) : NodeFits cfg n := by
  have h5 := h.fits g h2
  refine ⟨by rw [h3]; simp [Grp.recs], ?_, fun hk => ?_⟩
  · rw [h4, h3, h1, Cfg.bulkSize, recsLen_split]
    simp [Grp.recs, Nat.add_assoc]
  · have h6 : ∀ k : Option K, cfg.olen k ≤ cfg.maxKey := by
      intro k
      cases k with
      | none => exact Nat.zero_le _
      | some k => exact hk k
    have h7 := h6 (some g.hd.1)
    have h8 := h6 n.high
    have h9 : cfg.bulkSize b (some g.hd.1) g.recs n.high ≤ cfg.page * 9 / 10 := by
      unfold Cfg.bulkCap Cfg.bulkRes at h5
      unfold Cfg.bulkSize
      cases b <;> simp only [if_true, Bool.false_eq_true, if_false] at h5 ⊢ <;> omega
    rw [h4]
    exact_mod_cast h9

theorem lv_levels {es : List (K × Pay V)} : ∀ {lv : List (List (Grp K V))}, LvOK cfg es lv →
    ∃ U leaves, lvNodes0 cfg lv = (U ++ [leaves]).flatten ∧
      (∀ xs ∈ U ++ [leaves], Spec.LevelOK xs) ∧ (∀ xs ∈ U, ∀ x ∈ xs, x.2.inner = true) ∧
      (∀ x ∈ leaves, x.2.inner = false) ∧ (U ++ [leaves]).IsChain Spec.Feeds ∧
      (leaves.flatMap fun x => x.2.recs) = es ∧
      (∀ xs ∈ U ++ [leaves], ∀ x ∈ xs, NodeFits cfg x.2) ∧
      (U ++ [leaves]).head? = lv.head?.map (nodes0 cfg (!(lv.drop 1).isEmpty))
  | [], h => h.elim
  | [g], ⟨h, h'⟩ => by
    refine ⟨[], nodes0 cfg false g, by simp [lvNodes0], ?_, by simp, ?_, .singleton _, ?_, ?_, rfl⟩
    · intro xs hx
      rw [List.nil_append, List.mem_singleton] at hx
      subst hx; exact nodes0_level false g
    · exact fun x hx => (nodes0_inner x hx).1
    · rw [nodes0_recs, h']
    · intro xs hxs x hx
      rw [List.nil_append, List.mem_singleton] at hxs
      subst hxs
      obtain ⟨h1, g', h2, h3, h4⟩ := nodes0_inner x hx
      exact group_fits h h1 h2 h3 h4
  | g :: d :: ds, ⟨h, h', h''⟩ => by
    obtain ⟨U, leaves, e1, e2, e3, e4, e5, e6, e7, e8⟩ := lv_levels h''
    refine ⟨nodes0 cfg true g :: U, leaves, ?_, ?_, ?_, e4, ?_, e6, ?_, rfl⟩
    · rw [lvNodes0, e1]; rfl
    · intro xs hx
      rcases List.mem_cons.mp hx with rfl | hx
      · exact nodes0_level true g
      · exact e2 xs hx
    · intro xs hx
      rcases List.mem_cons.mp hx with rfl | hx
      · exact fun x hx => (nodes0_inner x hx).1
      · exact e3 xs hx
    · rw [List.cons_append]
      generalize U ++ [leaves] = W at e5 e8
      cases W with
      | nil => cases e8
      | cons w W =>
        refine .cons_cons ?_ e5
        have : w = nodes0 cfg (!ds.isEmpty) d := Option.some.inj e8
        rw [this, Spec.Feeds, nodes0_recs, h']
        exact entsOf_fit _ d
    · intro xs hxs x hx
      rcases List.mem_cons.mp hxs with rfl | hxs
      · obtain ⟨h1, g', h2, h3, h4⟩ := nodes0_inner x hx
        exact group_fits h h1 h2 h3 h4
      · exact e7 xs hxs x hx

theorem bulk_levels {ids : Nat → Nat → PID} (hinj : IdsInj ids) (hf : ∀ t i, 1 < ids t i)
    {threads : Nat} {es : List (K × V)} (hes : es ≠ [])
    (hb : BulkOK cfg ∨ bulkload cfg ids threads es ≠ none) :
    ∃ T root uppers leaves, bulkload cfg ids threads es = some (T, root) ∧
      Spec.LevelsOf T root uppers leaves ∧
      (leaves.flatMap fun x => x.2.recs) = es.map (fun x => (x.1, Pay.val x.2)) ∧
      ∀ p n, T p = some n → NodeFits cfg n := by
  have h0 : ∀ t i, ids t i ≠ 0 := fun t i e =>
    Nat.not_lt_zero 1 (Nat.lt_of_lt_of_eq (hf t i) e)
  obtain ⟨T, root, lv, h1, h2⟩ := bulkload_spec hinj h0 threads es hes hb
  obtain ⟨U, leaves, e1, e2, e3, e4, e5, e6, e7, e8⟩ := lv_levels h2.ok
  have ht : ∀ p n, T p = some n ↔ (p, n) ∈ (U ++ [leaves]).flatten := by
    intro p n
    rw [← e1]
    refine ⟨fun e => ?_, fun e => h2.holds.has (p, n) e⟩
    obtain ⟨⟨q, n'⟩, hx, e'⟩ := List.mem_map.mp (h2.holds.only p n e)
    obtain rfl : q = p := e'
    have := h2.holds.has _ hx
    rw [e] at this
    rw [Option.some.inj this]; exact hx
  refine ⟨T, root, U, leaves, h1, ⟨ht, e2, e3, e4, e5, ?_⟩, e6, ?_⟩
  · obtain ⟨g, g1, g2⟩ := h2.root
    rw [g1] at e8
    exact ⟨_, by rw [e8, g2]; rfl⟩
  · intro p n e
    obtain ⟨xs, hx, hp⟩ := List.mem_flatten.mp ((ht p n).mp e)
    exact e7 xs hx _ hp

/-! ## C33: links -/

/-- If `Bulkload` ends, the table holds exactly the nodes of a tree whose levels are linked without
gaps, for any number of workers; the root is the only node of its level. -/
theorem C33_levels_linked {ids : Nat → Nat → PID} (hinj : IdsInj ids) (hf : ∀ t i, 1 < ids t i)
    {threads : Nat} {es : List (K × V)} (hes : es ≠ []) {T : Tbl K V} {root : PID}
    (hb : bulkload cfg ids threads es = some (T, root)) :
    ∃ uppers leaves, Spec.LevelsOf T root uppers leaves := by
  obtain ⟨T', root', U, leaves, h1, h2, _⟩ := bulk_levels hinj hf hes
    (Or.inr (by rw [hb]; exact Option.some_ne_none _))
  cases h1.symm.trans hb
  exact ⟨U, leaves, h2⟩

/-! ## C30: contents -/

theorem childStep_base {key : K} {closed : Bool} (n : Node K V) (w : Nat) :
    childStep key closed (.base n) ≠ .cell w := by
  have h : dcSearchChild key closed false (.base n) = .sibling n.next ∨
      dcSearchChild key closed false (.base n) = .base n := by
    rw [dcSearchChild]
    split
    · exact Or.inl rfl
    · exact Or.inr rfl
  rcases h with h | h
  · simp [childStep, h]
  · simp only [childStep, h]
    cases n.searchChild key closed <;> simp

/-- If `Bulkload` ends, the leaves hold, from left to right, exactly the given records, and a `Read`
of any key from the new root ends and returns the payload of the key. -/
theorem C30_contents {ids : Nat → Nat → PID} (hinj : IdsInj ids) (hf : ∀ t i, 1 < ids t i)
    {threads : Nat} {es : List (K × V)} (hes : es ≠ []) (hs : es.Pairwise fun x y => x.1 < y.1)
    {T : Tbl K V} {root npid : PID} (hb : bulkload cfg ids threads es = some (T, root))
    (hn : ∀ p n, T p = some n → p < npid) :
    (∃ uppers leaves, Spec.LevelsOf T root uppers leaves ∧
      (leaves.flatMap fun x => x.2.recs) = es.map (fun x => (x.1, Pay.val x.2))) ∧
    ∀ key, ∃ N, ∀ f, N ≤ f → ∃ n, Alone n (bulkSh T root npid) (runOp cfg f (.read key))
      (bulkSh T root npid) (.ret (.payload (Spec.ofList es key))) := by
  have hne : bulkload cfg ids threads es ≠ none := by rw [hb]; exact Option.some_ne_none _
  refine ⟨?_, fun key => ?_⟩
  · obtain ⟨T', root', U, leaves, h1, h2, h3, _⟩ := bulk_levels hinj hf hes (Or.inr hne)
    cases h1.symm.trans hb
    exact ⟨U, leaves, h2, h3⟩
  · have h0 : ∀ t i, ids t i ≠ 0 := fun t i e =>
      Nat.not_lt_zero 1 (Nat.lt_of_lt_of_eq (hf t i) e)
    obtain ⟨T', root', lv, h1, h2⟩ := bulkload_spec hinj h0 threads es hes (Or.inr hne)
    cases h1.symm.trans hb
    have hn' : ∀ p n, (T p).map Node.flatten = some n → p < npid := by
      intro p n hp
      obtain ⟨m, hm, _⟩ := Option.map_eq_some_iff.mp hp
      exact hn p m hm
    obtain ⟨M, h3⟩ := h2.flat
    have hI := bulkSt_inv (npid := npid) (Or.inl fun _ => rfl) h3 hs h0 hn'
    have hbase : ∀ p c, (bulkSh (fun p => (T p).map Node.flatten) root npid).mt p = some c →
        ∃ n, T p = some n ∧ c = .base n.flatten := by
      intro p c hm
      obtain ⟨n, h, e⟩ := Option.map_eq_some_iff.mp hm
      obtain ⟨m, h', rfl⟩ := Option.map_eq_some_iff.mp h
      exact ⟨m, h', e.symm⟩
    have hC : Spec.Calm (bulkSh (fun p => (T p).map Node.flatten) root npid) key true := by
      refine ⟨fun p b _ hm => ?_, fun p c w hr hm hl hw => ?_⟩
      · obtain ⟨n, _, e⟩ := hbase _ _ hm
        cases e
      · obtain ⟨n, _, rfl⟩ := hbase _ _ hm
        exact absurd hw (childStep_base _ w)
    obtain ⟨N, h⟩ := read_yields hI hC
    refine ⟨N, fun f hf => ?_⟩
    obtain ⟨n, h⟩ := (h f hf).alone
    refine ⟨n, (read_resized (flatCfg K M) cfg f key).alone (sh := bulkSh (fun p => (T p).map Node.flatten) root npid)
      (sh' := bulkSh T root npid) rfl rfl (fun x c hm => ?_) h⟩
    obtain ⟨n, hT, rfl⟩ := hbase _ _ hm
    refine ⟨n.flatten, n.size, rfl, ?_⟩
    show (T x).map Chain.base = _
    rw [hT]
    rfl

/-! ## C32: capacity and progress -/

/-- If two index entries and one record fit into the reduced capacity of a page, `Bulkload` ends with
one root, and every node has at least one entry and keeps to that capacity. -/
theorem C32_bulkload_ends_partial (hb : BulkOK cfg) {ids : Nat → Nat → PID} (hinj : IdsInj ids)
    (hf : ∀ t i, 1 < ids t i) (threads : Nat) {es : List (K × V)} (hes : es ≠ []) :
    ∃ T root, bulkload cfg ids threads es = some (T, root) ∧ T root ≠ none ∧
      ∀ p n, T p = some n → NodeFits cfg n := by
  obtain ⟨T, root, U, leaves, h1, h2, h3, h4⟩ := bulk_levels hinj hf hes (Or.inl hb)
  refine ⟨T, root, h1, ?_, h4⟩
  obtain ⟨n, e⟩ := h2.root
  rw [(h2.table root n).mpr (List.mem_flatten.mpr ⟨_, List.mem_of_mem_head? e, by simp⟩)]
  exact Option.some_ne_none _

/-- Even if `Bulkload` might not end: the nodes it builds are never too full. -/
theorem C32_nodes_fit {ids : Nat → Nat → PID} (hinj : IdsInj ids) (hf : ∀ t i, 1 < ids t i)
    {threads : Nat} {es : List (K × V)} (hes : es ≠ []) {T : Tbl K V} {root : PID}
    (hb : bulkload cfg ids threads es = some (T, root)) :
    ∀ p n, T p = some n → NodeFits cfg n := by
  obtain ⟨T', root', U, leaves, h1, h2, h3, h4⟩ := bulk_levels hinj hf hes
    (Or.inr (by rw [hb]; exact Option.some_ne_none _))
  cases h1.symm.trans hb
  exact h4

/-- The sizes of a build with fixed-length keys and payloads (`fixlen/node.hpp` 749-780). -/
def fixCfg (page key pay : Nat) : Cfg Nat :=
  { page := page, hdr := 16 + 2 * key, leafLen := key + pay, idxLen := key + 8,
    minSize := page / 16, thr := 4, maxDelta := 64 }

theorem bulkTake_one {b : Bool} {sz : Nat} {x : K × Pay V} {xs : List (K × Pay V)}
    (h1 : ∀ k, sz + cfg.entLen b k ≤ cfg.bulkCap)
    (h2 : ∀ k k', cfg.bulkCap < sz + cfg.entLen b k + cfg.entLen b k') :
    bulkTake cfg b sz (x :: xs) = ([x], xs) := by
  have h3 := h1 x.1
  rw [bulkTake, if_neg (by omega)]
  cases xs with
  | nil => rfl
  | cons y ys =>
    have h4 := h2 x.1 y.1
    rw [bulkTake, if_pos (by omega)]

theorem bulkLayer_one {b : Bool} {ids : Nat → PID}
    (h1 : ∀ k, cfg.hdr + cfg.bulkRes b + cfg.entLen b k ≤ cfg.bulkCap)
    (h2 : ∀ k k', cfg.bulkCap < cfg.hdr + cfg.bulkRes b + cfg.entLen b k + cfg.entLen b k') :
    ∀ (f i : Nat) (es : List (K × Pay V)), es.length ≤ f →
      ∃ ns j, bulkLayer cfg b ids f i es = some (ns, j) ∧
        (ns.filterMap nodeEntry).length = es.length
  | f, i, [], _ => ⟨[], i, by cases f <;> rfl, rfl⟩
  | 0, i, e :: es, h => by simp at h
  | f + 1, i, e :: es, h => by
    have hm := bulkTake_one (cfg := cfg) (x := e) (xs := es) h1 h2
    obtain ⟨ns, j, g1, g2⟩ := bulkLayer_one (ids := ids) h1 h2 f (i + 1) es (by simpa using h)
    rw [bulkLayer, hm]
    simp only [g1]
    refine ⟨_, j, rfl, ?_⟩
    rw [List.filterMap_cons]
    simp only [nodeEntry, Option.map_some, List.length_cons]
    exact congrArg (· + 1) g2

/-- C32 does not hold for all sizes the static assertion (`bw_tree.hpp` 1681-1682) admits: with pages
of 1024 bytes, keys of 248 bytes and payloads of 8 bytes an index node takes one entry only, so every
layer has as many nodes as the one below, and `BulkloadWithSingleThread` does not end for two records
(for any amount of fuel). -/
theorem C32_false : 248 + 8 ≤ 1024 / 4 ∧ ∀ (ids : Nat → PID) (T : Tbl Nat Nat),
    (∃ ns j, bulkLayer (fixCfg 1024 248 8) false ids 2 0 [(1, .val 1), (2, .val 2)] =
        some (ns, j) ∧ ns.length = 2 ∧
      ∀ f, Part.grow (fixCfg 1024 248 8) ids f
        (⟨1, ns.filterMap nodeEntry, j⟩, T.putAll ns) = none) := by
  refine ⟨by decide, fun ids T => ?_⟩
  have key : ∀ f (x : Part Nat Nat × Tbl Nat Nat), 2 ≤ x.1.nodes.length →
      Part.grow (fixCfg 1024 248 8) ids f x = none := by
    intro f
    have hc : (fixCfg 1024 248 8).innerCap = 1 := by decide
    induction f with
    | zero =>
      intro x hx
      rw [Part.grow, if_neg (by omega)]
    | succ f ih =>
      intro x hx
      rw [Part.grow, if_neg (by omega)]
      obtain ⟨ns, j, h1, h2⟩ := bulkLayer_one (cfg := fixCfg 1024 248 8) (b := true) (ids := ids)
        (fun _ => (by decide : 512 + 0 + 256 ≤ 921)) (fun _ _ => (by decide : 921 < 512 + 0 + 256 + 256)) x.1.nodes.length x.1.used x.1.nodes (Nat.le_refl _)
      simp only [Part.layer, h1, Option.bind_some]
      exact ih _ (by simp only [h2]; exact hx)
  refine ⟨[(ids 0, ⟨false, some 1, some 2, ids 1, [(1, .val 1)], _⟩),
    (ids 1, ⟨false, some 2, none, 0, [(2, .val 2)], _⟩)], 2, rfl, rfl, fun f => key f _ ?_⟩
  exact Nat.le_refl 2

/-! ## Non-vacuity -/

/-- Page IDs for the examples. -/
def exIds (t i : Nat) : PID := 2 + Nat.pair t i

theorem exIds_inj : IdsInj exIds := by
  intro t i u j h
  exact Nat.pair_eq_pair.mp (Nat.add_left_cancel h)

theorem exIds_fresh (t i : Nat) : 1 < exIds t i := by
  exact Nat.lt_of_lt_of_le Nat.one_lt_two (Nat.le_add_right _ _)

theorem tinyCfg_bulk : BulkOK tinyCfg := ⟨by decide, by decide, by decide, fun _ => Nat.le_refl 0, by decide⟩

theorem defCfg_bulk : BulkOK defCfg := ⟨by decide, by decide, by decide, fun _ => Nat.le_refl 0, by decide⟩

/-- Fourteen records for three workers: two records per node, partial trees of height 1, 2 and 2. -/
def exBulk : List (Nat × Nat) := (List.range 14).map fun i => (10 * i, i)

/-- The partial trees really have different heights. -/
example : (bulkParts tinyCfg exIds 0 (fun _ => none)
    (bulkShares 3 (exBulk.map fun x => (x.1, Pay.val x.2)))).map
      (fun x => x.1.map Part.height) = some [1, 2, 2] := by decide

/-- The root, and the last leaf of the first worker, which is linked to the first leaf of the second
one. -/
example : (bulkload tinyCfg exIds 3 exBulk).map (fun x => (x.2, (x.1 (exIds 0 1)).map fun n =>
    (n.low, n.high, n.next, n.recs.length))) =
    some (exIds 3 5, some (some 20, some 40, exIds 1 0, 2)) := by decide +kernel

theorem exBulk_loads : ∃ T root, bulkload tinyCfg exIds 3 exBulk = some (T, root) ∧
    exBulk ≠ [] ∧ (exBulk.Pairwise fun x y => x.1 < y.1) := by
  obtain ⟨T, root, h, _⟩ := C32_bulkload_ends_partial tinyCfg_bulk exIds_inj exIds_fresh 3
    (es := exBulk) (by decide)
  exact ⟨T, root, h, by decide, by decide⟩

/-- Keys of 25 to 64 bytes. -/
def wordCfg : Cfg Nat :=
  { page := 1024, hdr := 32, leafLen := 16, idxLen := 16, minSize := 96, thr := 4, maxDelta := 64,
    klen := fun k => 25 + k % 40, maxKey := 64, buf := true }

theorem wordCfg_bulk : BulkOK wordCfg :=
  ⟨by decide, by decide, by decide, fun k => show 25 + k % 40 ≤ 64 by omega, by decide⟩

/-- Forty records of variable length for three workers. -/
def exWords : List (Nat × Nat) := (List.range 40).map fun i => (7 * i, i)

/-- `Bulkload` ends for them: with keys of variable length the theorems on the structure say something. -/
example : ∃ T root, bulkload wordCfg exIds 3 exWords = some (T, root) ∧ T root ≠ none ∧
    ∀ p n, T p = some n → NodeFits wordCfg n :=
  C32_bulkload_ends_partial wordCfg_bulk exIds_inj exIds_fresh 3 (by decide)

/-- The leaf of the second worker; its size counts the highest key (47 bytes), not the lowest one. -/
example : (bulkload wordCfg exIds 3 exWords).map (fun x => ((x.1 (exIds 1 0)).map fun n =>
    (n.low, n.high, n.next, n.recs.length, n.size))) =
    some (some (some 91, some 182, exIds 2 0, 13, 861)) := by decide +kernel

/-- `Read` finds every word, whatever the sizes. -/
example : ∃ T root, bulkload wordCfg exIds 3 exWords = some (T, root) ∧
    ∀ npid : PID, (∀ p n, T p = some n → p < npid) → ∀ key, ∃ N, ∀ f, N ≤ f → ∃ n,
      Alone n (bulkSh T root npid) (runOp wordCfg f (.read key)) (bulkSh T root npid)
        (.ret (.payload (Spec.ofList exWords key))) := by
  obtain ⟨T, root, h, _⟩ := C32_bulkload_ends_partial wordCfg_bulk exIds_inj exIds_fresh 3
    (es := exWords) (by decide)
  exact ⟨T, root, h, fun npid hn =>
    (C30_contents exIds_inj exIds_fresh (by decide) (by decide +kernel) h hn).2⟩

/-- The read theorem says something: key 50 is found, key 55 is not. -/
example : Spec.ofList exBulk 50 = some 5 ∧ Spec.ofList exBulk 55 = none := by decide

/-- Executions can start from this tree. -/
example : ∃ (T : Tbl Nat Nat) (root npid : PID),
    Init tinyCfg (Spec.ofList exBulk) (bulkSh T root npid) := by
  obtain ⟨T, root, h1, h2, h3⟩ := exBulk_loads
  obtain ⟨U, leaves, h4⟩ := C33_levels_linked exIds_inj exIds_fresh h2 h1
  have hb : ∃ b : Nat, ∀ x ∈ (U ++ [leaves]).flatten, x.1 < b := by
    generalize (U ++ [leaves]).flatten = l
    induction l with
    | nil => exact ⟨0, by simp⟩
    | cons x l ih =>
      obtain ⟨b, hb⟩ := ih
      refine ⟨max (x.1 + 1) b, fun y hy => ?_⟩
      rcases List.mem_cons.mp hy with rfl | hy
      · exact Nat.lt_of_lt_of_le (Nat.lt_succ_self _) (Nat.le_max_left _ _)
      · exact Nat.lt_of_lt_of_le (hb y hy) (Nat.le_max_right _ _)
  obtain ⟨b, hb⟩ := hb
  exact ⟨T, root, b, .bulk (Or.inl fun _ => rfl) exIds_inj exIds_fresh h2 h3 h1
    fun p n e => hb (p, n) ((h4.table p n).mp e)⟩

end BwTree.Props
