import Verif.Tree.SpecLemmas

/-!
# C15 - C19, C43: properties of one delta chain

`ChainWF cfg inner low c` is the shape that every chain in a mapping-table slot has; it is proved to
be an invariant of all executions in the concurrent model.
-/

namespace BwTree.Props

open BwTree

variable {K V : Type} [LinearOrder K] {cfg : Cfg K} {inner : Bool} {low : Option K}
set_option linter.unusedSectionVars false

/-! ## A non-trivial chain used by the examples

A leaf `[10, 20, 30)`, merged with its right sibling `[50, 60)`, then `15` inserted, `20` deleted and
`50` modified. -/

def exCfg : Cfg Nat :=
  { page := 1024, hdr := 32, leafLen := 16, idxLen := 16, minSize := 64, thr := 4, maxDelta := 64 }

theorem exCfg_ok : CfgOK exCfg :=
  ⟨by decide, by decide, by decide, by decide, by decide, fun _ => Nat.le_refl _, Or.inl rfl⟩

def exBase : Node Nat Nat :=
  { inner := false, low := some 10, high := some 50, next := 7,
    recs := [(10, .val 1), (20, .val 2), (30, .val 3)], size := 80 }

def exRight : Node Nat Nat :=
  { inner := false, low := some 50, high := some 90, next := 9,
    recs := [(50, .val 5), (60, .val 6)], size := 64 }

def exChain : Chain Nat Nat :=
  .delta { inner := false, ty := .modify, key := 50, high := none, pay := .val 55, cnt := 4,
           size := 112 } <|
  .delta { inner := false, ty := .delete, key := 20, high := none, pay := .none, cnt := 3,
           size := 112 } <|
  .delta { inner := false, ty := .insert, key := 15, high := none, pay := .val 15, cnt := 2,
           size := 128 } <|
  .delta { inner := false, ty := .merge, key := 50, high := some 90, pay := .node exRight, cnt := 1,
           size := 112 } <|
  .base exBase

theorem exRight_wf : NodeWF exCfg exRight where
  sorted := by simp [exRight, Node.body, Node.leftInner, SortedK]
  range := by simp [exRight, Node.body, Node.leftInner, InR, LowOK, HighOK]
  ne := by simp [exRight, NonEmptyR]
  kind := by simp [exRight, PayOK]
  first := by simp [exRight]
  size := by decide

theorem exBase_wf : NodeWF exCfg exBase where
  sorted := by simp [exBase, Node.body, Node.leftInner, SortedK]
  range := by simp [exBase, Node.body, Node.leftInner, InR, LowOK, HighOK]
  ne := by simp [exBase, NonEmptyR]
  kind := by simp [exBase, PayOK]
  first := by simp [exBase]
  size := by decide

theorem exChain_wf : ChainWF exCfg false (some 10) exChain := by
  refine ⟨⟨⟨⟨⟨rfl, rfl, exBase_wf⟩, rfl, trivial, rfl, by decide, by decide, rfl, exRight, rfl, rfl,
    rfl, rfl, exRight_wf⟩, rfl, ⟨15, rfl⟩, rfl, by decide, by decide, ?_, by decide⟩, rfl, rfl, rfl,
    by decide, by decide, ?_, by decide, by simp⟩, rfl, ⟨rfl, 55, rfl⟩, rfl, by decide, by decide,
    ?_, by decide⟩
  all_goals
    simp [InR, LowOK, HighOK, Chain.high]

/-! ## C15 -/

/-- What a reader of `key` gets from a split pair: the left page is asked first and may send the
reader to the new page `rp`. -/
def readPair (key : K) (rp : PID) (l r : Node K V) : RdRes V :=
  match readChain key (.base { l with next := rp }) with
  | .sibling p => if p = rp then readChain key (.base r) else .sibling p
  | x => x

theorem readChain_base_congr {n m : Node K V} (key : K) (h1 : n.inner = m.inner)
    (h2 : n.low = m.low) (h3 : n.high = m.high) (h4 : n.next = m.next) (h5 : n.recs = m.recs) :
    readChain key (.base n) = readChain key (.base m) := by
  obtain ⟨a, b, c, d, e, f⟩ := n
  obtain ⟨a', b', c', d', e', f'⟩ := m
  simp only at h1 h2 h3 h4 h5
  subst h1 h2 h3 h4 h5
  simp only [readChain, dcSearchRecord]
  cases (!false && !highKeyIsGE c key false) <;> rfl

theorem readChain_congr {low' : Option K} {c c' : Chain K V} (h : ChainWF cfg false low c)
    (h' : ChainWF cfg false low' c') (hf : ∀ k, alook c'.flatBody k = alook c.flatBody k)
    (hh : c'.high = c.high) (hn : c'.nextPid = c.nextPid) (key : K) :
    readChain key c' = readChain key c := by
  by_cases hk : HighOK c.high key true
  · obtain ⟨o, e1, e2⟩ := (readChain_spec h key).2 hk
    obtain ⟨o', e1', e2'⟩ := (readChain_spec h' key).2 (hh ▸ hk)
    rw [e1, e1']
    rw [hf, e2] at e2'
    congr 1
    cases o <;> cases o' <;> simp_all
  · rw [(readChain_spec h key).1 hk, (readChain_spec h' key).1 (hh ▸ hk), hn]

/-- **C15.**  A reader gets the same answer (payload, absence, or forwarding to the sibling) from a
chain and from whatever replaces the chain: the consolidated node, the node built for a merge, the
copy made by a scan, or the two halves of a split.  The payload is the one the specification
`Spec.look` assigns to the chain. -/
theorem C15_chain_read_eq_consolidated_read (hc : CfgOK cfg) {c : Chain K V}
    (h : ChainWF cfg false low c) (key : K) :
    (HighOK c.high key true →
      ∃ o, readChain key c = .ret o ∧ Spec.look key c = o.map Pay.val) ∧
    (∀ scan n, tryConsolidate cfg scan c = some (.consolidate n) →
      readChain key (.base n) = readChain key c) ∧
    (∀ scan n, tryConsolidate cfg scan c = some (.merge n) →
      readChain key (.base n) = readChain key c) ∧
    (∀ scan l r rp, tryConsolidate cfg scan c = some (.split l r) →
      readPair key rp l r = readChain key c) := by
  obtain ⟨t1, t2, t3, t4⟩ := tryConsolidate_spec hc h false
  obtain ⟨s1, _, _, _⟩ := tryConsolidate_spec hc h true
  have s1 := s1 rfl
  obtain ⟨w1, w2, w3, w4, w5⟩ := consNode_wf h
  have hcons : readChain key (.base (consNode false c c.size)) = readChain key c :=
    readChain_congr h w1 (by rw [w3]; intro _; rfl) w4 w5 key
  refine ⟨?_, ?_, ?_, ?_⟩
  · intro hh
    obtain ⟨o, e1, e2⟩ := (readChain_spec h key).2 hh
    exact ⟨o, e1, by rw [look_eq h, e2]⟩
  · intro scan n hn
    cases scan with
    | true =>
      rw [s1] at hn; cases hn
      rw [← hcons]; exact readChain_base_congr key rfl rfl rfl rfl rfl
    | false =>
      by_cases hp : c.size ≤ cfg.page
      · by_cases hm : c.size ≤ cfg.minSize
        · rw [t2 rfl hp hm] at hn; cases hn
        · rw [t3 rfl hp hm] at hn; cases hn; exact hcons
      · obtain ⟨_, _, _, _, _, _, _, e⟩ := t4 rfl hp
        rw [e] at hn; cases hn
  · intro scan n hn
    cases scan with
    | true => rw [s1] at hn; cases hn
    | false =>
      by_cases hp : c.size ≤ cfg.page
      · by_cases hm : c.size ≤ cfg.minSize
        · rw [t2 rfl hp hm] at hn; cases hn; exact hcons
        · rw [t3 rfl hp hm] at hn; cases hn
      · obtain ⟨_, _, _, _, _, _, _, e⟩ := t4 rfl hp
        rw [e] at hn; cases hn
  · intro scan l r rp hn
    cases scan with
    | true => rw [s1] at hn; cases hn
    | false =>
      by_cases hp : c.size ≤ cfg.page
      · by_cases hm : c.size ≤ cfg.minSize
        · rw [t2 rfl hp hm] at hn; cases hn
        · rw [t3 rfl hp hm] at hn; cases hn
      · obtain ⟨lr, x, rr, hlr, hcat, _, _, e⟩ := t4 rfl hp
        rw [e] at hn; cases hn
        obtain ⟨v1, v2, v3, v4, v5, v6, v7, v8⟩ := split_wf h hlr hcat rp
        have hsl := v1.flatBody_spec
        have hsr := v2.flatBody_spec
        have hl := readChain_spec v1 key
        unfold readPair
        change (match readChain key (.base (splitL cfg false c lr x.1 rp)) with
          | .sibling p => if p = rp then readChain key (.base (splitR cfg false c x rr))
              else .sibling p
          | x => x) = _
        by_cases hk : key < x.1
        · have hko : HighOK (Chain.base (splitL cfg false c lr x.1 rp)).high key true := by
            intro h' e'; cases e'; simpa using hk
          obtain ⟨o, e1, e2⟩ := hl.2 hko
          have hk' : HighOK c.high key true := by
            intro h' e'
            have := v8 h' e'
            simp only [if_true] at this ⊢
            order
          obtain ⟨o', e1', e2'⟩ := (readChain_spec h key).2 hk'
          rw [e1, e1']
          simp only [RdRes.ret.injEq]
          rw [← v5, alook_append, e2] at e2'
          have : alook (Chain.base (splitR cfg false c x rr)).flatBody key = none := by
            apply alook_none_of_lt
            intro y hy
            have := (hsr.2.1 y hy).1 _ rfl
            simp only [if_true] at this; order
          rw [this] at e2'
          cases o <;> cases o' <;> simp_all
        · have hko : ¬ HighOK (Chain.base (splitL cfg false c lr x.1 rp)).high key true := by
            intro h'; have := h' _ rfl; simp only [if_true] at this; exact hk this
          rw [hl.1 hko]
          simp only [Chain.nextPid, splitL, if_true]
          by_cases hk' : HighOK c.high key true
          · obtain ⟨o, e1, e2⟩ := (readChain_spec h key).2 hk'
            obtain ⟨o', e1', e2'⟩ := (readChain_spec v2 key).2 hk'
            rw [e1, e1']
            simp only [RdRes.ret.injEq]
            rw [← v5, alook_append, e2'] at e2
            have : alook (Chain.base (splitL cfg false c lr x.1 rp)).flatBody key = none := by
              apply alook_none_of_gt
              intro y hy
              have := (hsl.2.1 y hy).2 _ rfl
              simp only [if_true] at this; order
            rw [this] at e2
            cases o <;> cases o' <;> simp_all
          · rw [(readChain_spec h key).1 hk', (readChain_spec v2 key).1 hk']
            rfl

/-- The hypotheses of C15/C16 hold for a chain with a merge, an insert, a delete and a modify, and
the four answers below are what the model computes. -/
example : CfgOK exCfg ∧ ChainWF exCfg false (some 10) exChain ∧
    readChain 15 exChain = .ret (some 15) ∧ readChain 20 exChain = .ret none ∧
    readChain 50 exChain = .ret (some 55) ∧ readChain 95 exChain = .sibling 9 :=
  ⟨exCfg_ok, exChain_wf, by decide, by decide, by decide, by decide⟩

/-! ## C16 -/

/-- **C16.**  Consolidation of a chain gives one node (or, when the chain is larger than a page, two)
whose records are in strictly increasing key order, contain for each key exactly what
`Spec.look` says, and keep level, lower bound, upper bound, sibling link and the key-less first
child. -/
theorem C16_consolidation_exact (hc : CfgOK cfg) {c : Chain K V} (h : ChainWF cfg inner low c)
    (scan : Bool) :
    (∃ n, (tryConsolidate cfg scan c = some (.consolidate n) ∨
            tryConsolidate cfg scan c = some (.merge n)) ∧
        Spec.Increasing (Spec.keyed n) ∧ (∀ key, Spec.find (Spec.keyed n) key = Spec.look key c) ∧
        n.inner = inner ∧ n.low = low ∧ n.high = c.high ∧ n.next = c.nextPid ∧
        (inner = true → (Chain.base n).leftmostChild = c.leftmostChild ∨ low ≠ none)) ∨
    (scan = false ∧ (cfg.page : Int) < c.size ∧
      ∃ l r sep, tryConsolidate cfg scan c = some (.split l r) ∧
        Spec.Increasing (Spec.keyed l) ∧ Spec.Increasing (Spec.keyed r) ∧
        l.high = some sep ∧ r.low = some sep ∧
        (∀ key, Spec.find (if key < sep then Spec.keyed l else Spec.keyed r) key
          = Spec.look key c) ∧
        l.inner = inner ∧ r.inner = inner ∧ l.low = low ∧ r.high = c.high ∧ r.next = c.nextPid) := by
  obtain ⟨t1, t2, t3, t4⟩ := tryConsolidate_spec hc h scan
  obtain ⟨w1, w2, w3, w4, w5⟩ := consNode_wf h
  have key : ∀ sz, Spec.Increasing (Spec.keyed (consNode inner c sz)) ∧
      (∀ k, Spec.find (Spec.keyed (consNode inner c sz)) k = Spec.look k c) ∧
      (consNode inner c sz).inner = inner ∧ (consNode inner c sz).low = low ∧
      (consNode inner c sz).high = c.high ∧ (consNode inner c sz).next = c.nextPid ∧
      (inner = true → (Chain.base (consNode inner c sz)).leftmostChild = c.leftmostChild ∨
        low ≠ none) := by
    intro sz
    have hb : Spec.keyed (consNode inner c sz) = c.flatBody := by
      rw [keyed_eq_body, ← w3]; rfl
    refine ⟨?_, ?_, rfl, h.low_eq, rfl, rfl, ?_⟩
    · rw [hb, increasing_iff]; exact h.flatBody_spec.1
    · intro k; rw [hb, find_eq_alook, look_eq h]
    · intro hi; subst hi
      cases hl : low with
      | some l => right; simp
      | none =>
        left
        subst hl
        clear t1 t2 t3 t4 w1 w2 w3 w4 w5 hb
        obtain ⟨n, b1, b2, b3, b4, b5⟩ := h.base
        obtain ⟨r, rs, hr, _⟩ := b2.first b3
        obtain ⟨p, hp⟩ : ∃ p, r.2 = .child p := by
          have := b2.kind r (by simp [hr]); simpa [PayOK, b3] using this
        have e1 : c.leftmostChild = some p := by
          clear h b5
          induction c with
          | base m =>
            cases b1
            obtain ⟨r1, r2⟩ := r
            simp only at hp; subst hp
            simp [Chain.leftmostChild, hr]
          | removed l => cases b1
          | delta d nx ih => exact ih b1
        have e2 : c.pre = [r] := by rw [b5]; simp [Node.pre, Node.leftInner, b3, b4, hr]
        rw [e1]
        obtain ⟨r1, r2⟩ := r
        simp only at hp; subst hp
        simp [Chain.leftmostChild, consNode, Chain.flat, e2]
  cases scan with
  | true => exact Or.inl ⟨_, Or.inl (t1 rfl), key _⟩
  | false =>
    by_cases hp : c.size ≤ cfg.page
    · by_cases hm : c.size ≤ cfg.minSize
      · exact Or.inl ⟨_, Or.inr (t2 rfl hp hm), key _⟩
      · exact Or.inl ⟨_, Or.inl (t3 rfl hp hm), key _⟩
    · right
      obtain ⟨lr, x, rr, hlr, hcat, _, _, e⟩ := t4 rfl hp
      obtain ⟨v1, v2, v3, v4, v5, v6, v7, v8⟩ := split_wf h hlr hcat 0
      have hsl := v1.flatBody_spec
      have hsr := v2.flatBody_spec
      refine ⟨rfl, by omega, _, _, x.1, e, ?_, ?_, rfl, rfl, ?_, rfl, rfl, h.low_eq, rfl, rfl⟩
      · rw [keyed_eq_body, increasing_iff]; exact hsl.1
      · rw [keyed_eq_body, increasing_iff]; exact hsr.1
      · intro k
        rw [look_eq h, ← v5, alook_append, find_eq_alook]
        by_cases hk : k < x.1
        · simp only [hk, if_true, keyed_eq_body]
          have : alook (Chain.base (splitR cfg inner c x rr)).flatBody k = none := by
            apply alook_none_of_lt
            intro y hy
            have := (hsr.2.1 y hy).1 _ rfl
            simp only [if_true] at this; order
          rw [this]
          change alook (Chain.base (splitL cfg inner c lr x.1 0)).flatBody k = _
          cases alook (Chain.base (splitL cfg inner c lr x.1 0)).flatBody k <;> rfl
        · simp only [hk, if_false, keyed_eq_body]
          have : alook (Chain.base (splitL cfg inner c lr x.1 0)).flatBody k = none := by
            apply alook_none_of_gt
            intro y hy
            have := (hsl.2.1 y hy).2 _ rfl
            simp only [if_true] at this; order
          rw [this]
          rfl

example : tryConsolidate exCfg false exChain = some (.consolidate
    { inner := false, low := some 10, high := some 90, next := 9,
      recs := [(10, .val 1), (15, .val 15), (30, .val 3), (50, .val 55), (60, .val 6)],
      size := 112 }) := by rfl

/-! ## C17 -/

/-- **C17.**  The record search of a node always ends inside the record array; it says `found`
exactly when the key is present, with its position; otherwise it returns the number of smaller keys
(plus the key-less record 0 of a leftmost index node, which the code skips). -/
theorem C17_record_search_exact (n : Node K V) (hs : Spec.Increasing (Spec.keyed n)) (key : K) :
    ∃ found pos, n.searchRecord key = some (found, pos) ∧
      (found = true ↔ ∃ p, (key, p) ∈ Spec.keyed n) ∧
      (found = true → ∃ p, n.recs[pos]? = some (key, p) ∧ Spec.find (Spec.keyed n) key = some p) ∧
      (found = false → pos = (if n.inner = true ∧ n.low = none then 1 else 0) +
        ((Spec.keyed n).filter (fun r => decide (r.1 < key))).length) := by
  rw [increasing_iff, keyed_eq_body] at hs
  have hskip : n.skip = (if n.inner = true ∧ n.low = none then 1 else 0) := by
    unfold Node.skip Node.leftInner
    cases n.inner <;> cases n.low <;> simp
  rw [keyed_eq_body, ← hskip]
  rcases n.searchRecord_spec hs key with ⟨pos, hp, h1, h2, h3, h4⟩ | ⟨pos, h1, h2, h3, h4, h5, h6⟩
  · refine ⟨true, pos, h1, ⟨fun _ => ⟨_, alook_mem h4⟩, fun _ => rfl⟩, fun _ => ?_, by simp⟩
    refine ⟨n.recs[pos].2, ?_, by rw [find_eq_alook]; exact h4⟩
    rw [List.getElem?_eq_getElem hp]
    congr 1; exact Prod.ext h3 rfl
  · refine ⟨false, pos, h1, ⟨by simp, ?_⟩, by simp, fun _ => ?_⟩
    · rintro ⟨p, hp⟩
      rw [alook_of_mem hs hp] at h4; cases h4
    · rw [Node.body_eq]
      have := filter_lt_length (n.recs.drop n.skip) key (pos - n.skip)
        (by rw [List.length_drop]; omega)
        (by
          intro i hi hip
          rw [List.getElem_drop]
          exact h5 _ (by rw [List.length_drop] at hi; omega) (by omega) (by omega))
        (by
          intro i hi hip
          rw [List.getElem_drop]
          exact h6 _ (by rw [List.length_drop] at hi; omega) (by omega) (by omega))
      rw [this]; omega

example : Spec.Increasing (Spec.keyed exBase) ∧ exBase.searchRecord 20 = some (true, 1) ∧
    exBase.searchRecord 25 = some (false, 2) ∧ exBase.searchRecord 99 = some (false, 3) := by
  refine ⟨by simp [Spec.Increasing, Spec.keyed, exBase], by decide, by decide, by decide⟩

/-! ## C18 -/

/-- **C18.**  For every index node whose separators increase (from record 1 on) the child search
returns the child of the last separator `≤ key` (closed) / `< key` (open), the first child if there
is none. -/
theorem C18_child_search_routes (n : Node K V) (k0 : K) (p0 : PID) (rest : List (K × PID))
    (hrecs : n.recs = (k0, .child p0) :: rest.map (fun r => (r.1, Pay.child r.2)))
    (hs : (rest.map Prod.fst).Pairwise (· < ·)) (key : K) (closed : Bool) :
    n.searchChild key closed = some (Spec.route key closed p0 rest) := by
  have hlen : n.recs.length = rest.length + 1 := by simp [hrecs]
  have hget : ∀ i (h : i < rest.length), n.recs[i + 1]'(by omega) = (rest[i].1, .child rest[i].2) := by
    intro i h
    simp [hrecs]
  obtain ⟨pos, hp, c, h1, h2, h3, h4⟩ := n.searchChild_spec
    (by
      rw [hrecs]; simp only [List.drop_succ_cons, List.drop_zero]
      unfold SortedK
      rw [List.pairwise_map] at hs ⊢
      exact hs)
    (by simp [hrecs]) key closed
    (by
      intro x hx
      rw [hrecs] at hx
      rcases List.mem_cons.1 hx with e | hx
      · exact ⟨p0, by rw [e]⟩
      · obtain ⟨r, _, e⟩ := List.mem_map.1 hx
        exact ⟨r.2, by rw [← e]⟩)
  rw [h1, route_pos key closed rest p0 pos (by omega)]
  · cases pos with
    | zero =>
      have : n.recs[0].2 = .child p0 := by simp [hrecs]
      rw [this] at h2; cases h2; rfl
    | succ i =>
      rw [hget i (by omega)] at h2
      cases h2
      simp [List.getElem?_eq_getElem (show i < rest.length by omega)]
  · intro i hi hip
    have := h3 (i + 1) (by omega) (by omega) (by omega)
    rw [hget i hi] at this; exact this
  · intro i hi hip
    have := h4 (i + 1) (by omega) (by omega)
    rw [hget i hi] at this; exact this

def exIndex : Node Nat Nat :=
  { inner := true, low := none, high := none, next := 0,
    recs := [(0, .child 3), (10, .child 4), (20, .child 5)], size := 80 }

example : exIndex.searchChild 5 true = some 3 ∧ exIndex.searchChild 10 true = some 4 ∧
    exIndex.searchChild 10 false = some 3 ∧ exIndex.searchChild 99 true = some 5 ∧
    exIndex.recs = (0, .child 3) :: [(10, 4), (20, 5)].map (fun r => (r.1, Pay.child r.2)) := by
  decide

/-! ## C19 -/

/-- **C19.**  A chain larger than a page (by no more than one record or one merged node, which is
what can occur, see C22) is split so that: both halves are non-empty; the records of the left half
followed by those of the right half are exactly the consolidated records, in order; the separator is
the smallest key of the right half and bounds the left half strictly from above; both halves fit in
one page, and the sizes they carry are exact. -/
theorem C19_split_partitions (hc : CfgOK cfg) {c : Chain K V} (h : ChainWF cfg inner low c)
    (hbig : (cfg.page : Int) < c.size) (hsl : c.size ≤ cfg.page + slack cfg inner)
    (hmin : (cfg.minSize : Int) ≤ max (cfg.hdr + cfg.recLen inner) ((cfg.page - cfg.hdr) / 2))
    (hminv : cfg.maxKey = 0 ∨ cfg.minSize + cfg.maxKey ≤ (cfg.page - cfg.hdr) / 2) :
    ∃ l r sep n, tryConsolidate cfg false c = some (.split l r) ∧
      tryConsolidate cfg true c = some (.consolidate n) ∧ l.recs ++ r.recs = n.recs ∧
      l.recs ≠ [] ∧ r.recs.head?.map Prod.fst = some sep ∧
      l.high = some sep ∧ r.low = some sep ∧
      (∀ x ∈ Spec.keyed l, x.1 < sep) ∧ (∀ x ∈ Spec.keyed r, sep ≤ x.1) ∧
      (∀ s, low = some s → s < sep) ∧ (∀ s, c.high = some s → sep < s) ∧
      l.size = Spec.bytes cfg l ∧ l.size ≤ cfg.page ∧
      r.size = Spec.bytes cfg r ∧ r.size ≤ cfg.page := by
  obtain ⟨_, _, _, t4⟩ := tryConsolidate_spec hc h false
  obtain ⟨s1, _, _, _⟩ := tryConsolidate_spec hc h true
  obtain ⟨lr, x, rr, hlr, hcat, hsm, hlg, e⟩ := t4 rfl (by omega)
  obtain ⟨v1, v2, v3, v4, v5, v6, v7, v8⟩ := split_wf h hlr hcat 0
  have hsl' := v1.flatBody_spec
  have hsr := v2.flatBody_spec
  obtain ⟨z1, z2⟩ := split_fits hc h hsl hmin hminv hlr hcat hsm hlg
  refine ⟨_, _, x.1, _, e, s1 rfl, hcat, hlr, rfl, rfl, rfl, ?_, ?_, ?_, ?_,
    v1.2.2.size.trans (bytes_spec _), z1, v2.2.2.size.trans (bytes_spec _), z2⟩
  · intro y hy
    rw [keyed_eq_body] at hy
    have := (hsl'.2.1 y hy).2 _ rfl
    simpa using this
  · intro y hy
    rw [keyed_eq_body] at hy
    have := (hsr.2.1 y hy).1 _ rfl
    simpa using this
  · intro s hs
    have := v7 s hs; simpa using this
  · intro s hs
    have := v8 s hs; simpa using this

/-- An overfull leaf: 62 records in the base node (1024 bytes), one more inserted. -/
def exFull : Chain Nat Nat :=
  .delta { inner := false, ty := .insert, key := 1000, high := none, pay := .val 0, cnt := 1,
           size := 1040 }
    (.base { inner := false, low := none, high := none, next := 0,
             recs := (List.range 62).map (fun i => (i, .val i)), size := 1024 })

theorem exFull_wf : ChainWF exCfg false none exFull := by
  refine ⟨⟨rfl, rfl, ?_⟩, rfl, ⟨0, rfl⟩, rfl, by decide, by decide, by simp [InR, LowOK, HighOK,
    Chain.high], by decide⟩
  constructor
  · simp only [Node.body, Node.leftInner, Bool.false_and, Bool.false_eq_true, if_false, SortedK]
    rw [List.pairwise_map]
    exact List.pairwise_lt_range
  · intro x _; simp [InR, LowOK, HighOK]
  · simp [NonEmptyR]
  · intro x hx
    obtain ⟨i, _, e⟩ := List.mem_map.1 hx
    exact ⟨i, by rw [← e]⟩
  · intro h; cases h
  · decide

example : CfgOK exCfg ∧ ChainWF exCfg false none exFull ∧ (exCfg.page : Int) < exFull.size ∧
    exFull.size ≤ exCfg.page + slack exCfg false ∧
    (exCfg.minSize : Int) ≤
      max (exCfg.hdr + exCfg.recLen false) ((exCfg.page - exCfg.hdr) / 2) :=
  ⟨exCfg_ok, exFull_wf, by decide, by decide, by decide⟩

/-! ## C43, the check made on one parent chain -/

/-- The check a merging thread makes on the parent before it deletes the index entry
(`GetHeadForMerge`) succeeds only if the entry is present and is not the parent's own lower bound.
The lift to all executions is in `Props/Conc`. -/
theorem C43_merge_check_sound {c : Chain K V} (h : ChainWF cfg true low c) (key : K)
    (sib : Option K) (hok : mergeCheck key sib c = .ok) :
    (∃ p, Spec.look key c = some p) ∧ (∀ l, low = some l → l < key) := by
  rcases mergeCheck_spec h key sib with ⟨_, h1, h2⟩ | e | ⟨e, _⟩
  · refine ⟨?_, ?_⟩
    · rw [look_eq h]; exact Option.ne_none_iff_exists'.1 h1
    · intro l hl; have := h2 l hl; simpa using this
  · rw [e] at hok; cases hok
  · rw [e] at hok; cases hok

def exParent : Chain Nat Nat :=
  .delta { inner := true, ty := .insert, key := 15, high := some 20, pay := .child 8, cnt := 1,
           size := 96 } (.base exIndex)

theorem exParent_wf : ChainWF exCfg true none exParent := by
  refine ⟨⟨rfl, rfl, ?_⟩, rfl, ⟨8, rfl⟩, rfl, by decide, by decide, by simp [InR, LowOK, HighOK,
    Chain.high, exIndex], by decide⟩
  constructor
  · simp [Node.body, Node.leftInner, exIndex, SortedK]
  · intro x _; simp [InR, LowOK, HighOK, exIndex]
  · simp [NonEmptyR, exIndex]
  · simp [exIndex, PayOK]
  · intro _; exact ⟨_, _, rfl, by simp [exIndex]⟩
  · decide

example : ChainWF exCfg true none exParent ∧ mergeCheck 15 (some 20) exParent = .ok ∧
    mergeCheck 10 (some 15) exParent = .ok ∧ mergeCheck 12 (some 15) exParent = .abort :=
  ⟨exParent_wf, by decide, by decide, by decide⟩

end BwTree.Props
