import Verif.Tree.ChainLemmas

/-!
# What `TryConsolidate` produces (helper lemmas)
-/

namespace BwTree

set_option linter.unusedSectionVars false

variable {K V : Type} [LinearOrder K] {cfg : Cfg K} {inner : Bool} {low : Option K}

/-! ## The copy sequence -/

/-- All records of a list of merged nodes. -/
def recsOf (ns : List (Node K V)) : List (K × Pay V) := ns.flatMap (fun n => n.recs)

theorem copySeq_tail (ns : List (Node K V)) (h : ∀ n ∈ ns, n.leftInner = false)
    (arr : List (Delta K V)) : copySeq ns arr = some (mergeFull (recsOf ns) arr) := by
  induction ns generalizing arr with
  | nil => simp [copySeq, mergeFull, recsOf, mergeRecs]
  | cons n ns ih =>
    have hn : (n.inner && n.low.isNone) = false := h n (by simp)
    have e : recsOf (n :: ns) = n.recs ++ recsOf ns := by simp [recsOf]
    unfold copySeq
    simp only [hn, Bool.false_eq_true, if_false]
    rw [ih (fun m hm => h m (by simp [hm]))]
    simp only [Option.map_some, mergeFull, e, mergeRecs_append, List.append_assoc]

theorem copySeq_cons (n : Node K V) (ns : List (Node K V)) (h : ∀ m ∈ ns, m.leftInner = false)
    (hn : n.inner = true → n.recs ≠ []) (arr : List (Delta K V)) :
    copySeq (n :: ns) arr = some (n.pre.map .first ++ mergeFull (n.body ++ recsOf ns) arr) := by
  by_cases hl : n.leftInner = true
  · have hi : n.inner = true := by simp [Node.leftInner] at hl; exact hl.1
    have hl' : (n.inner && n.low.isNone) = true := hl
    unfold copySeq
    simp only [hl', if_true]
    cases hr : n.recs with
    | nil => exact absurd hr (hn hi)
    | cons r rs =>
      simp only
      rw [copySeq_tail ns h]
      simp [Node.pre, Node.body, hl, hr, mergeFull, mergeRecs_append]
  · have hl' : (n.inner && n.low.isNone) = false := by
      cases e : (n.inner && n.low.isNone)
      · rfl
      · exact absurd e hl
    unfold copySeq
    simp only [hl', Bool.false_eq_true, if_false]
    rw [copySeq_tail ns h]
    simp [Node.pre, Node.body, hl, mergeFull, mergeRecs_append]

/-- Base node of a chain. -/
def baseOf : Chain K V → Option (Node K V)
  | .base n => some n
  | .removed _ => none
  | .delta _ nx => baseOf nx

theorem ChainWF.base {c : Chain K V} (h : ChainWF cfg inner low c) :
    ∃ n, baseOf c = some n ∧ NodeWF cfg n ∧ n.inner = inner ∧ n.low = low ∧ c.pre = n.pre := by
  induction c with
  | base n => exact ⟨n, rfl, h.2.2, h.1, h.2.1, rfl⟩
  | removed l => exact h.elim
  | delta d nx ih => exact ih h.next

theorem ChainWF.nodes {c : Chain K V} (h : ChainWF cfg inner low c) :
    ∃ n ms, (nodesOf c).reverse = n :: ms ∧ baseOf c = some n ∧
      (∀ m ∈ ms, m.leftInner = false) ∧ baseBody c = n.body ++ recsOf ms ∧
      (nodesOf c).getLast? = some n ∧
      ∃ f, (nodesOf c).head? = some f ∧ f.high = c.high ∧ f.next = c.nextPid := by
  induction c with
  | base n => exact ⟨n, [], by simp [nodesOf], rfl, by simp, by simp [baseBody, recsOf],
      rfl, n, rfl, rfl, rfl⟩
  | removed l => exact h.elim
  | delta d nx ih =>
    obtain ⟨n, ms, h1, h2, h3, h4, h5, f, h6, h7, h8⟩ := ih h.next
    by_cases hm : d.ty = .merge
    · obtain ⟨_, _, _, _, _, _, h'⟩ := h
      rw [hm] at h'
      obtain ⟨hh, m, hpay, hin, hlow, hhigh, hwf⟩ := h'
      have e1 : nodesOf (.delta d nx) = m :: nodesOf nx := by simp [nodesOf, hm, hpay]
      refine ⟨n, ms ++ [m], by simp [e1, h1], h2, ?_, ?_, ?_, m, by simp [e1], ?_, ?_⟩
      · intro x hx
        rcases List.mem_append.1 hx with hx | hx
        · exact h3 x hx
        · simp at hx; subst hx; simp [Node.leftInner, hlow]
      · simp [baseBody, hm, hpay, h4, recsOf]
      · rw [e1, List.getLast?_cons, h5]; rfl
      · simp [Chain.high, hm, hhigh]
      · simp [Chain.nextPid, hm, hpay]
    · have e1 : nodesOf (.delta d nx) = nodesOf nx := by
        cases ht : d.ty <;> simp_all [nodesOf]
      refine ⟨n, ms, by rw [e1]; exact h1, h2, h3, by rw [baseBody_of_ne hm]; exact h4,
        by rw [e1]; exact h5, f, by rw [e1]; exact h6, ?_, ?_⟩
      · simp [Chain.high, hm, h7]
      · cases ht : d.ty <;> simp_all [Chain.nextPid]

/-- The records emitted by consolidation are the meaning of the chain. -/
theorem ChainWF.outRecs_eq {c : Chain K V} (h : ChainWF cfg inner low c) {arr : List (Delta K V)}
    (ha : SortedD arr) (hl : ∀ k, dlook arr k = newest k c) :
    outRecs (mergeFull (baseBody c) arr) = c.flatBody := by
  obtain ⟨hb, _, _⟩ := h.baseBody_spec
  apply sorted_ext (sorted_outRecs (sorted_mergeFull hb ha)) h.flatBody_spec.1
  intro k
  rw [alook_outRecs (sorted_mergeFull hb ha), clook_mergeFull hb ha, h.alook_flatBody, hl]
  cases newest k c with
  | some d => simp [Copy.val, Delta.outcome]; split <;> simp
  | none => cases alook (baseBody c) k <;> simp [Copy.val]

/-! ## Copying with and without a split -/

/-- A copy that can be performed. -/
def Copy.Good (c : Copy K V) : Prop :=
  match c with
  | .first _ => True
  | .node _ => True
  | .delta d => d.ty ≠ .delete → d.toRec.isSome

/-- A record with the number of bytes it takes. -/
abbrev WRec (K V : Type) := (K × Pay V) × Nat

/-- The record and the length a copy adds to the new node. -/
def Copy.wval (cfg : Cfg K) (len : Nat) : Copy K V → Option (WRec K V)
  | .first r => some (r, len)
  | .node r => some (r, len + cfg.klen r.1)
  | .delta d => if d.ty = .delete then none else d.toRec.map (fun r => (r, len + cfg.klen d.key))

/-- One copy of a record with its length. -/
def copyW (cfg : Cfg K) (sp : Bool) (st : CopySt K V) (x : WRec K V) : CopySt K V :=
  copyRec cfg x.2 sp st x.1

theorem copyAll_fold (cfg : Cfg K) (len : Nat) (sp : Bool) (l : List (Copy K V))
    (h : ∀ c ∈ l, c.Good) (st : CopySt K V) :
    copyAll cfg len sp st l =
      some ((l.filterMap (Copy.wval cfg len)).foldl (copyW cfg sp) st) := by
  induction l generalizing st with
  | nil => rfl
  | cons c l ih =>
    have hc := h c (by simp)
    have ih := ih (fun x hx => h x (by simp [hx]))
    rw [copyAll]
    cases c with
    | first r =>
      simp only [copyOne, Option.bind_some, ih]
      simp [Copy.wval, copyW]
    | node r =>
      simp only [copyOne, Option.bind_some, ih]
      simp [Copy.wval, copyW]
    | delta d =>
      by_cases hd : d.ty = .delete
      · simp only [copyOne, hd, Option.bind_some, ih]
        simp [Copy.wval, hd]
      · have := hc hd
        obtain ⟨r, hr⟩ := Option.isSome_iff_exists.1 this
        have e : copyOne cfg len sp st (.delta d) =
            some (copyRec cfg (len + cfg.klen d.key) sp st r) := by
          cases ht : d.ty <;> simp_all [copyOne]
        rw [e]
        simp only [Option.bind_some, ih]
        simp [Copy.wval, copyW, hd, hr]

/-- The records of a chain with their lengths. -/
def wrecs (cfg : Cfg K) (len : Nat) (pre body : List (K × Pay V)) : List (WRec K V) :=
  pre.map (fun r => (r, len)) ++ body.map (fun r => (r, len + cfg.klen r.1))

theorem wrecs_fst (len : Nat) (pre body : List (K × Pay V)) :
    (wrecs cfg len pre body).map Prod.fst = pre ++ body := by
  simp [wrecs, Function.comp_def]

theorem wrecs_sum (len : Nat) (pre body : List (K × Pay V)) :
    ((wrecs cfg len pre body).map Prod.snd).sum =
      len * (pre ++ body).length + cfg.keyBytes body := by
  have h1 : ∀ l : List (K × Pay V), (l.map (fun _ => len)).sum = len * l.length := by
    intro l
    induction l with
    | nil => simp
    | cons a l ih => simp only [List.map_cons, List.sum_cons, ih, List.length_cons, Nat.mul_add]; omega
  have h2 : ∀ l : List (K × Pay V), (l.map (fun r => len + cfg.klen r.1)).sum =
      len * l.length + cfg.keyBytes l := by
    intro l
    induction l with
    | nil => simp [Cfg.keyBytes]
    | cons a l ih =>
      simp only [List.map_cons, List.sum_cons, ih, List.length_cons, Nat.mul_add, Cfg.keyBytes]
      omega
  simp only [wrecs, List.map_append, List.map_map, Function.comp_def, List.sum_append, h1, h2,
    List.length_append, Nat.mul_add]
  omega

theorem wval_body {len : Nat} {l : List (Copy K V)} (h : ∀ c ∈ l, ∀ r, c ≠ .first r) :
    l.filterMap (Copy.wval cfg len) =
      (outRecs l).map (fun r => (r, len + cfg.klen r.1)) := by
  induction l with
  | nil => rfl
  | cons c l ih =>
    have ih := ih (fun x hx => h x (by simp [hx]))
    cases c with
    | first r => exact absurd rfl (h _ (by simp) r)
    | node r => simp [Copy.wval, outRecs, Copy.val]; simpa [outRecs] using ih
    | delta d =>
      by_cases hd : d.ty = .delete
      · simp [Copy.wval, outRecs, Copy.val, hd]; simpa [outRecs] using ih
      · cases hr : d.toRec with
        | none => simp [Copy.wval, outRecs, Copy.val, hd, hr]; simpa [outRecs] using ih
        | some r =>
          have := toRec_key hr
          simp [Copy.wval, outRecs, Copy.val, hd, hr, this]; simpa [outRecs] using ih

/-- Invariant of the copy loop: `wl` and `wr` are the records copied to the left and right. -/
structure CopyInv (cfg : Cfg K) (sp : Bool) (st : CopySt K V) (wl wr : List (WRec K V)) :
    Prop where
  l : st.l = wl.map Prod.fst
  r : st.r = wr.map Prod.fst
  lsz : st.lsz = cfg.hdr + ((wl.map Prod.snd).sum : Nat)
  rsz : st.rsz = cfg.hdr + ((wr.map Prod.snd).sum : Nat)
  left : st.switched = false → wr = [] ∧
    (sp = true → wl = [] ∨ st.lsz ≤ ((cfg.page - cfg.hdr) / 2 : Int))
  right : st.switched = true → sp = true ∧ wl ≠ [] ∧
    ((cfg.page - cfg.hdr) / 2 : Int) < st.lsz ∧
    ((∃ x ∈ wl, st.lsz - x.2 ≤ ((cfg.page - cfg.hdr) / 2 : Int)) ∨ wl.length = 1)

theorem copyW_inv {sp : Bool} {st : CopySt K V} {wl wr : List (WRec K V)}
    (h : CopyInv cfg sp st wl wr) (x : WRec K V) :
    ∃ wl' wr', wl' ++ wr' = wl ++ wr ++ [x] ∧ CopyInv cfg sp (copyW cfg sp st x) wl' wr' := by
  unfold copyW copyRec
  by_cases hs : st.switched = true
  · simp only [hs, if_true]
    exact ⟨wl, wr ++ [x], by simp,
      { l := h.l
        r := by simp [h.r]
        lsz := h.lsz
        rsz := by simp [h.rsz]; omega
        left := by simp
        right := fun _ => h.right hs }⟩
  · simp only [hs]
    have hs' : st.switched = false := by simpa using hs
    obtain ⟨h1, h2⟩ := h.left hs'
    refine ⟨wl ++ [x], [], by simp [h1],
      { l := by simp [h.l]
        r := by simp [h.r, h1]
        lsz := by simp [h.lsz]; omega
        rsz := by simp [h.rsz, h1]
        left := ?_
        right := ?_ }⟩
    · intro hsw
      refine ⟨rfl, ?_⟩
      intro hsp
      right
      simp [hsp] at hsw
      exact hsw
    · intro hsw
      simp at hsw
      refine ⟨hsw.1, by simp, hsw.2, ?_⟩
      rcases h2 hsw.1 with e | e
      · right; simp [e]
      · left
        exact ⟨x, by simp, by simp; omega⟩

theorem foldl_copyW_inv {sp : Bool} (ys : List (WRec K V)) :
    ∀ {st : CopySt K V} {wl wr : List (WRec K V)}, CopyInv cfg sp st wl wr →
      ∃ wl' wr', wl' ++ wr' = wl ++ wr ++ ys ∧ CopyInv cfg sp (ys.foldl (copyW cfg sp) st) wl' wr' := by
  induction ys with
  | nil => intro st wl wr h; exact ⟨wl, wr, by simp, h⟩
  | cons y ys ih =>
    intro st wl wr h
    obtain ⟨wl1, wr1, e1, h1⟩ := copyW_inv h y
    obtain ⟨wl2, wr2, e2, h2⟩ := ih h1
    exact ⟨wl2, wr2, by rw [e2, e1]; simp, h2⟩

/-- Initial state of the copy loop. -/
def copyInit (cfg : Cfg K) : CopySt K V :=
  { l := [], lsz := cfg.hdr, switched := false, r := [], rsz := cfg.hdr }

theorem copyInit_inv (sp : Bool) : CopyInv cfg sp (copyInit (K := K) (V := V) cfg) [] [] where
  l := rfl
  r := rfl
  lsz := by simp [copyInit]
  rsz := by simp [copyInit]
  left := fun _ => ⟨rfl, fun _ => Or.inl rfl⟩
  right := by simp [copyInit]

/-- Configuration assumed by the static assertions (`bw_tree.hpp` 1683): a record fits a page.
`keys` bounds the key lengths.  `var` is needed in the variable-length layout only: the assertion
does not imply it, and without it a split can leave its right half empty (theorem `C56_false`). -/
structure CfgOK (cfg : Cfg K) : Prop where
  leaf : cfg.hdr + cfg.leafLen ≤ cfg.page
  idx : cfg.hdr + cfg.idxLen ≤ cfg.page
  leafPos : 0 < cfg.leafLen
  idxPos : 0 < cfg.idxLen
  hdrPos : 0 < cfg.hdr
  keys : ∀ k, cfg.klen k ≤ cfg.maxKey
  var : cfg.maxKey = 0 ∨ ∀ inner,
    (cfg.page - cfg.hdr) / 2 + cfg.recLen inner + 3 * cfg.maxKey ≤ cfg.page ∧
    cfg.hdr + cfg.recLen inner + 2 * cfg.maxKey ≤ (cfg.page - cfg.hdr) / 2

theorem CfgOK.len (h : CfgOK cfg) (inner : Bool) : cfg.hdr + cfg.recLen inner ≤ cfg.page := by
  unfold Cfg.recLen; split
  · exact h.idx
  · exact h.leaf

theorem CfgOK.lenPos (h : CfgOK cfg) (inner : Bool) : 0 < cfg.recLen inner := by
  unfold Cfg.recLen; split
  · exact h.idxPos
  · exact h.leafPos

theorem CfgOK.olen_le (h : CfgOK cfg) (k : Option K) : cfg.olen k ≤ cfg.maxKey := by
  cases k with
  | none => exact Nat.zero_le _
  | some k => exact h.keys k

theorem CfgOK.bnd_le (h : CfgOK cfg) (inner : Bool) (low high : Option K) :
    cfg.bnd inner low high ≤ 2 * cfg.maxKey := by
  have h1 := h.olen_le low
  have h2 := h.olen_le high
  unfold Cfg.bnd; split <;> omega

theorem nonswitch_of_false {st : CopySt K V} {wl wr : List (WRec K V)}
    (h : CopyInv cfg false st wl wr) : st.switched = false := by
  cases hs : st.switched with
  | false => rfl
  | true => have := (h.right hs).1; simp at this

theorem mem_wsum {ws : List (WRec K V)} {x : WRec K V} (h : x ∈ ws) :
    x.2 ≤ (ws.map Prod.snd).sum := by
  induction ws with
  | nil => cases h
  | cons y ws ih =>
    simp only [List.map_cons, List.sum_cons]
    rcases List.mem_cons.1 h with e | e
    · subst e; omega
    · have := ih e; omega

/-- A split needs more than one page of records; then both halves are non-empty. -/
theorem split_halves (hc : CfgOK cfg) {inner : Bool} {st : CopySt K V} {wl wr : List (WRec K V)}
    (h : CopyInv cfg true st wl wr) {b : Nat} (hb : b ≤ 2 * cfg.maxKey)
    (hw : ∀ x ∈ wl ++ wr, cfg.recLen inner ≤ x.2 ∧ x.2 ≤ cfg.recLen inner + cfg.maxKey)
    (hsz : (cfg.page : Int) < cfg.hdr + (((wl ++ wr).map Prod.snd).sum : Nat) + b) :
    st.switched = true ∧ wl ≠ [] ∧ wr ≠ [] := by
  have hlen := hc.len inner
  have hv := hc.var
  have hl := h.lsz
  rw [List.map_append, List.sum_append] at hsz
  cases hs : st.switched with
  | false =>
    obtain ⟨h1, h2⟩ := h.left hs
    rw [h1] at hsz
    simp only [List.map_nil, List.sum_nil, Nat.add_zero] at hsz
    rcases h2 rfl with e | e
    · simp [e] at hsz
      rcases hv with hv | hv
      · omega
      · have := hv inner; omega
    · rcases hv with hv | hv
      · omega
      · have := hv inner; omega
  | true =>
    obtain ⟨_, h1, h2, h3⟩ := h.right hs
    refine ⟨rfl, h1, ?_⟩
    intro e
    rw [e] at hsz hw
    simp only [List.map_nil, List.sum_nil, Nat.add_zero, List.append_nil] at hsz hw
    have one : wl.length = 1 → False := by
      intro h4
      obtain ⟨a, e⟩ := List.length_eq_one_iff.1 h4
      subst e
      have := (hw a (by simp)).2
      simp only [List.map_cons, List.map_nil, List.sum_cons, List.sum_nil] at hsz hl
      rcases hv with hv | hv
      · omega
      · have := hv inner; omega
    rcases h3 with ⟨x, hx, h3⟩ | h3
    · by_cases h4 : wl.length = 1
      · exact one h4
      · rcases hv with hv | hv
        · -- another record on the left
          obtain ⟨a, b, wl', e⟩ : ∃ a b wl', wl = a :: b :: wl' := by
            match wl, h1, h4 with
            | [], h, _ => exact absurd rfl h
            | [_], _, h => simp at h
            | a :: b :: l, _, _ => exact ⟨a, b, l, rfl⟩
          have ha := hw a (by simp [e])
          have hb' := hw b (by simp [e])
          have hx' := hw x hx
          rw [e] at hl hsz
          simp only [List.map_cons, List.sum_cons] at hl hsz
          omega
        · have := hv inner
          have := hw x hx
          omega
    · exact one h3

/-- Cut a list of weighted records behind the key-less prefix. -/
theorem wrecs_cut {len : Nat} {pre body : List (K × Pay V)} {wl wr : List (WRec K V)}
    (h : wl ++ wr = wrecs cfg len pre body) (hp : pre.length ≤ wl.length) :
    ∃ lb rb, body = lb ++ rb ∧ wl = wrecs cfg len pre lb ∧ wr = wrecs cfg len [] rb := by
  unfold wrecs at h
  have h1 : wl = pre.map (fun r => (r, len)) ++ wl.drop pre.length := by
    have := congrArg (List.take pre.length) h
    rw [List.take_append_of_le_length hp,
      List.take_append_of_le_length (Nat.le_of_eq (List.length_map _).symm),
      List.take_of_length_le (Nat.le_of_eq (List.length_map _))] at this
    exact (List.take_append_drop pre.length wl).symm.trans (congrArg (· ++ _) this)
  rw [h1, List.append_assoc, List.append_cancel_left_eq] at h
  obtain ⟨lb, rb, e1, e2, e3⟩ := List.map_eq_append_iff.1 h.symm
  refine ⟨lb, rb, e1, ?_, ?_⟩
  · rw [h1, ← e2]; rfl
  · rw [← e3]; rfl

/-! ## TryConsolidate -/

theorem ChainWF.size_eq {c : Chain K V} (h : ChainWF cfg inner low c) :
    c.size = cfg.bytes inner low c.high c.flat.length c.flatBody := by
  cases c with
  | base n =>
    have := h.2.2.size
    rw [h.1, h.2.1] at this
    simp only [Chain.size, this, Chain.flat, Chain.pre, Chain.flatBody, n.pre_body, Chain.high]
  | removed l => exact h.elim
  | delta d nx => exact h.2.2.2.2.2.1

theorem ChainWF.hdr_le {c : Chain K V} (h : ChainWF cfg inner low c) : (cfg.hdr : Int) ≤ c.size := by
  rw [h.size_eq]; unfold Cfg.bytes
  have : (0 : Int) ≤ cfg.recLen inner * c.flat.length := Int.mul_nonneg (by omega) (by omega)
  omega

/-- The node that consolidation without split produces. -/
def consNode (inner : Bool) (c : Chain K V) (sz : Int) : Node K V :=
  { inner := inner, low := c.low, high := c.high, next := c.nextPid, recs := c.flat, size := sz }

/-- Bytes of the records that a split leaves on the left, with the header. -/
def Cfg.lsz (cfg : Cfg K) (inner : Bool) (c : Chain K V) (lr : List (K × Pay V)) : Int :=
  cfg.hdr + cfg.recLen inner * lr.length + cfg.keyBytes (lr.drop c.pre.length)

/-- The left half of a split, linked to page `next`. -/
def splitL (cfg : Cfg K) (inner : Bool) (c : Chain K V) (recs : List (K × Pay V)) (sep : K)
    (next : PID) : Node K V :=
  { inner := inner, low := c.low, high := some sep, next := next, recs := recs,
    size := cfg.lsz inner c recs + cfg.bnd inner c.low (some sep) }

/-- The right half of a split. -/
def splitR (cfg : Cfg K) (inner : Bool) (c : Chain K V) (x : K × Pay V)
    (rest : List (K × Pay V)) : Node K V :=
  { inner := inner, low := some x.1, high := c.high, next := c.nextPid, recs := x :: rest,
    size := cfg.bytes inner (some x.1) c.high (x :: rest).length (x :: rest) }

/-- Full description of `TryConsolidate` on a well-formed chain. -/
theorem tryConsolidate_spec (hc : CfgOK cfg) {c : Chain K V} (h : ChainWF cfg inner low c)
    (scan : Bool) :
    (scan = true → tryConsolidate cfg scan c =
      some (.consolidate (consNode inner c (2 * cfg.page)))) ∧
    (scan = false → c.size ≤ cfg.page → c.size ≤ cfg.minSize →
      tryConsolidate cfg scan c = some (.merge (consNode inner c c.size))) ∧
    (scan = false → c.size ≤ cfg.page → ¬ c.size ≤ cfg.minSize →
      tryConsolidate cfg scan c = some (.consolidate (consNode inner c c.size))) ∧
    (scan = false → ¬ c.size ≤ cfg.page →
      ∃ lr x rr, lr ≠ [] ∧ lr ++ x :: rr = c.flat ∧
        (cfg.lsz inner c lr - (cfg.recLen inner + cfg.maxKey) ≤ ((cfg.page - cfg.hdr) / 2 : Int) ∨
          lr.length = 1) ∧
        ((cfg.page - cfg.hdr) / 2 : Int) < cfg.lsz inner c lr ∧
        tryConsolidate cfg scan c =
          some (.split (splitL cfg inner c lr x.1 0) (splitR cfg inner c x rr))) := by
  obtain ⟨arr, hs1, hs2, hs3, hs4, _⟩ := dcSort_spec h [] [] List.Pairwise.nil
  have hs3 : ∀ k, dlook arr k = newest k c := by intro k; rw [hs3]; simp [dlook]
  simp only [List.nil_append] at hs1
  obtain ⟨n, ms, hn1, hn2, hn3, hn4, hn5, f, hn6, hn7, hn8⟩ := h.nodes
  obtain ⟨n', hb1, hb2, hb3, hb4, hb5⟩ := h.base
  rw [hn2] at hb1
  cases hb1
  have hne : n.inner = true → n.recs ≠ [] := by
    intro hi
    obtain ⟨r, rs, e, _⟩ := hb2.first hi
    rw [e]; simp
  have hseq := copySeq_cons n ms hn3 hne arr
  rw [← hn1, ← hn4] at hseq
  have hout : (n.pre.map Copy.first ++ mergeFull (baseBody c) arr).filterMap
      (Copy.wval cfg (cfg.recLen inner)) = wrecs cfg (cfg.recLen inner) c.pre c.flatBody := by
    rw [List.filterMap_append, wval_body (l := mergeFull (baseBody c) arr),
      h.outRecs_eq hs2 hs3, hb5]
    · have e1 : List.filterMap (Copy.wval cfg (cfg.recLen inner)) (n.pre.map Copy.first) =
          n.pre.map (fun r => (r, cfg.recLen inner)) := by
        rw [List.filterMap_map, ← List.filterMap_eq_map]; rfl
      rw [e1]; rfl
    · intro x hx r e
      subst e
      rcases mem_mergeFull hx with ⟨_, _, e⟩ | ⟨_, _, e⟩ <;> cases e
  have hgood : ∀ x ∈ n.pre.map Copy.first ++ mergeFull (baseBody c) arr, x.Good := by
    intro x hx
    rcases List.mem_append.1 hx with hx | hx
    · obtain ⟨r, _, e⟩ := List.mem_map.1 hx
      subst e; trivial
    · rcases mem_mergeFull hx with ⟨r, _, e⟩ | ⟨d, hd, e⟩
      · subst e; trivial
      · subst e
        intro hdel
        rcases hs4 d hd with h' | h'
        · simp at h'
        · obtain ⟨_, hm, hp, _⟩ := h.dmem h'
          obtain ⟨p, hp, _⟩ := DPayOK.toRec hp hm hdel
          simp [hp]
  have hleaf : (!c.isLeaf) = inner := by rw [h.isLeaf]; simp
  have hall : ∀ sp, copyAll cfg (cfg.recLen inner) sp
      { l := [], lsz := cfg.hdr, switched := false, r := [], rsz := cfg.hdr }
      (n.pre.map Copy.first ++ mergeFull (baseBody c) arr) =
      some ((wrecs cfg (cfg.recLen inner) c.pre c.flatBody).foldl (copyW cfg sp) (copyInit cfg)) := by
    intro sp
    rw [copyAll_fold _ _ _ _ hgood, hout]; rfl
  have hinv : ∀ sp, ∃ wl wr, wl ++ wr = wrecs cfg (cfg.recLen inner) c.pre c.flatBody ∧
      CopyInv cfg sp ((wrecs cfg (cfg.recLen inner) c.pre c.flatBody).foldl (copyW cfg sp)
        (copyInit cfg)) wl wr := by
    intro sp
    have := foldl_copyW_inv (wrecs cfg (cfg.recLen inner) c.pre c.flatBody)
      (copyInit_inv (cfg := cfg) (K := K) (V := V) sp)
    simpa using this
  have hlow : n.low = c.low := by rw [hb4, h.low_eq]
  have hlow' := h.low_eq
  have hpl : c.pre.length ≤ 1 := by
    rw [hb5]; unfold Node.pre; split
    · rw [List.length_take]; exact Nat.min_le_left _ _
    · simp
  have hsum : (((wrecs cfg (cfg.recLen inner) c.pre c.flatBody).map Prod.snd).sum : Int) =
      cfg.recLen inner * c.flat.length + cfg.keyBytes c.flatBody := by
    have := wrecs_sum (cfg := cfg) (cfg.recLen inner) c.pre c.flatBody
    rw [this]; unfold Chain.flat; push_cast; rfl
  have hns : ∀ (sc : Bool), (!sc && decide ((cfg.page : Int) < c.size)) = false →
      tryConsolidate cfg sc c =
        (if !sc && decide (c.size ≤ cfg.minSize) then
          some (.merge (consNode inner c (if sc then 2 * cfg.page else c.size)))
        else some (.consolidate (consNode inner c (if sc then 2 * cfg.page else c.size)))) := by
    intro sc hsc
    obtain ⟨wl, wr, he, hi⟩ := hinv false
    have hsw := nonswitch_of_false hi
    have hr := (hi.left hsw).1
    rw [hr, List.append_nil] at he
    subst he
    have hl := hi.l
    rw [wrecs_fst] at hl
    have hz := hi.lsz
    rw [hsum] at hz
    have hz' : ((wrecs cfg (cfg.recLen inner) c.pre c.flatBody).foldl (copyW cfg false)
        (copyInit cfg)).lsz + cfg.bnd inner c.low c.high = c.size := by
      rw [hz, h.size_eq, hlow']; unfold Cfg.bytes; omega
    unfold tryConsolidate
    rw [hs1]
    simp only [hsc, hseq, hn6, hn5, hleaf, hall false, Bool.false_eq_true, if_false]
    rw [hl, hlow, hn7, hn8, hz']
    rfl
  refine ⟨?_, ?_, ?_, ?_⟩
  · intro e; subst e; rw [hns true (by simp)]; simp
  · intro e h1 h2; subst e; rw [hns false (by simp; exact h1)]; simp [h2]
  · intro e h1 h2; subst e; rw [hns false (by simp; exact h1)]; simp [h2]
  · intro e h1; subst e
    obtain ⟨wl, wr, he, hi⟩ := hinv true
    have hb := hc.bnd_le inner low c.high
    have hw : ∀ x ∈ wl ++ wr, cfg.recLen inner ≤ x.2 ∧ x.2 ≤ cfg.recLen inner + cfg.maxKey := by
      intro x hx
      rw [he] at hx
      rcases List.mem_append.1 hx with hx | hx
      · obtain ⟨r, _, e⟩ := List.mem_map.1 hx
        subst e; exact ⟨Nat.le_refl _, Nat.le_add_right _ _⟩
      · obtain ⟨r, _, e⟩ := List.mem_map.1 hx
        have := hc.keys r.1
        subst e; exact ⟨Nat.le_add_right _ _, by simpa using this⟩
    have hsz : (cfg.page : Int) <
        cfg.hdr + (((wl ++ wr).map Prod.snd).sum : Nat) + cfg.bnd inner low c.high := by
      have hz := h.size_eq
      unfold Cfg.bytes at hz
      rw [he, hsum]; omega
    obtain ⟨hsw, hlne, hrne⟩ := split_halves hc hi hb hw hsz
    obtain ⟨_, _, hbig, hsmall⟩ := hi.right hsw
    have hsplit : (!false && decide ((cfg.page : Int) < c.size)) = true := by
      simp; omega
    have hl1 : 1 ≤ wl.length := List.length_pos_iff.2 hlne
    obtain ⟨lb, rb, hfb, hwl, hwr⟩ := wrecs_cut he (by omega)
    have hrb : rb ≠ [] := by
      intro e; rw [e] at hwr; exact hrne (by rw [hwr]; rfl)
    obtain ⟨x, rr, hx⟩ := List.exists_cons_of_ne_nil hrb
    subst hx
    have hl : ((wrecs cfg (cfg.recLen inner) c.pre c.flatBody).foldl (copyW cfg true)
        (copyInit cfg)).l = c.pre ++ lb := by rw [hi.l, hwl, wrecs_fst]
    have hr : ((wrecs cfg (cfg.recLen inner) c.pre c.flatBody).foldl (copyW cfg true)
        (copyInit cfg)).r = x :: rr := by rw [hi.r, hwr, wrecs_fst]; rfl
    have hlz : ((wrecs cfg (cfg.recLen inner) c.pre c.flatBody).foldl (copyW cfg true)
        (copyInit cfg)).lsz = cfg.lsz inner c (c.pre ++ lb) := by
      rw [hi.lsz, hwl, wrecs_sum]; unfold Cfg.lsz; simp; omega
    have hrz : ((wrecs cfg (cfg.recLen inner) c.pre c.flatBody).foldl (copyW cfg true)
        (copyInit cfg)).rsz + cfg.bnd inner (some x.1) c.high =
          cfg.bytes inner (some x.1) c.high (x :: rr).length (x :: rr) := by
      rw [hi.rsz, hwr, wrecs_sum]; unfold Cfg.bytes; simp; omega
    have hwll : wl.length = (c.pre ++ lb).length := by
      rw [hwl, ← List.length_map (f := Prod.fst), wrecs_fst]
    refine ⟨c.pre ++ lb, x, rr, ?_, ?_, ?_, ?_, ?_⟩
    · intro e; rw [e] at hwll; exact hlne (List.length_eq_zero_iff.1 hwll)
    · unfold Chain.flat; rw [hfb]; simp
    · rcases hsmall with ⟨y, hy, hh⟩ | hh
      · left
        have hy2 := (hw y (List.mem_append_left _ hy)).2
        rw [hlz] at hh
        omega
      · right; omega
    · rw [hlz] at hbig; exact hbig
    · unfold tryConsolidate
      rw [hs1]
      simp only [hsplit, hseq, hn6, hn5, hleaf, hall true, if_true, hsw, hr]
      rw [hn7, hn8, hrz, hl, hlz, hlow]
      rfl

end BwTree
