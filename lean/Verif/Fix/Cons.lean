import Verif.Fix.Sim

/-!
# Consolidation on bytes does what the model does (fixed-length layout)
-/

namespace BwTree.Fix

open Layout (Mem FCfg FPage FSplit Enc Framed FHolds forall₂_head forall₂_reverse forall₂_last)

set_option linter.unusedSectionVars false

variable {K V : Type} [LinearOrder K] {cfg : Cfg K} {P : FPar} {e : Enc K V}

/-- Bytes of the records of a node, the first `k` of them without keys. -/
def encRecs (e : Enc K V) (pre body : List (K × Pay V)) : List (Option Str × Str) :=
  pre.map (fun r => (none, e.pay r.2)) ++ body.map (fun r => (some (e.key r.1), e.pay r.2))

theorem encRecs_get (e : Enc K V) (pre body : List (K × Pay V)) (i : Nat) :
    (encRecs e pre body)[i]? = ((pre ++ body)[i]?).map
      (fun r => (if i < pre.length then none else some (e.key r.1), e.pay r.2)) := by
  unfold encRecs
  by_cases h : i < pre.length
  · rw [List.getElem?_append_left (by simpa using h), List.getElem?_append_left h, List.getElem?_map]
    simp [h]
  · rw [List.getElem?_append_right (by simpa using h), List.getElem?_append_right (by simpa using h),
      List.getElem?_map]
    simp [h]

theorem enc_val {x : Copy K V} (h : ∀ r, x ≠ .first r) :
    Copy.enc e x = (Copy.val x).map fun r => (some (e.key r.1), e.pay r.2) := by
  cases x with
  | first r => exact absurd rfl (h r)
  | node r => rfl
  | delta d =>
    simp only [Copy.enc, Copy.val]
    split
    · rfl
    · cases hr : d.toRec with
      | none => rfl
      | some r => simp [toRec_key hr]

theorem enc_body {l : List (Copy K V)} (h : ∀ x ∈ l, ∀ r, x ≠ .first r) :
    l.filterMap (Copy.enc e) = (outRecs l).map fun r => (some (e.key r.1), e.pay r.2) := by
  induction l with
  | nil => rfl
  | cons x l ih =>
    have h0 := enc_val (e := e) (h x (List.mem_cons_self ..))
    have ih := ih fun y hy => h y (List.mem_cons_of_mem _ hy)
    unfold outRecs at ih ⊢
    cases hv : x.val with
    | none =>
      rw [hv] at h0
      rw [List.filterMap_cons_none h0, List.filterMap_cons_none hv, ih]
    | some r =>
      rw [hv] at h0
      rw [List.filterMap_cons_some h0, List.filterMap_cons_some hv, ih]; rfl

theorem FEncOK.paylen (he : FEncOK cfg P e) {inner : Bool} {p : Pay V} (h : PayOK inner p) :
    (e.pay p).length = P.plen inner := by
  unfold PayOK at h
  cases inner
  · obtain ⟨v, rfl⟩ := h
    exact he.val v
  · obtain ⟨q, rfl⟩ := h
    exact he.pid q

theorem FEncOK.recLen (he : FEncOK cfg P e) (inner : Bool) :
    cfg.recLen inner = P.c.klen + P.plen inner := by
  cases inner
  · exact he.leafLen
  · exact he.idxLen

/-- What the copies of a well-formed chain store. -/
theorem copy_facts (he : FEncOK cfg P e) {inner : Bool} {low : Option K} {ch : Chain K V}
    (h : ChainWF cfg inner low ch) {arr : List (Delta K V)} {nodes : List (Node K V)}
    {seq : List (Copy K V)} (h1 : dcSort [] [] ch = some (arr, nodes))
    (h2 : copySeq nodes.reverse arr = some seq) :
    seq.filterMap (Copy.enc e) = encRecs e ch.pre ch.flatBody ∧
    (∀ x ∈ seq, ∀ kp, Copy.enc e x = some kp → kp.2.length = P.plen inner) ∧
    (∀ x ∈ seq, x.Good) ∧
    (∀ sp st, copyAll cfg (cfg.recLen inner) sp (copyInit cfg) seq = some st →
      st.l ++ st.r = ch.flat ∧
      (sp = false → st.switched = false ∧ st.r = [] ∧ st.rsz = cfg.hdr ∧
        st.lsz = cfg.hdr + cfg.recLen inner * ch.flat.length + cfg.keyBytes ch.flatBody)) ∧
    (∃ f, nodes.head? = some f ∧ f.high = ch.high ∧ f.next = ch.nextPid) ∧
    ∃ n, nodes.getLast? = some n ∧ n.low = ch.low := by
  obtain ⟨arr', hs1, hs2, hs3, hs4, _⟩ := dcSort_spec h [] [] List.Pairwise.nil
  have hs3 : ∀ k, dlook arr' k = newest k ch := by intro k; rw [hs3]; simp [dlook]
  simp only [List.nil_append] at hs1
  rw [hs1] at h1
  cases h1
  obtain ⟨n, ms, hn1, hn2, hn3, hn4, hn5, f, hn6, hn7, hn8⟩ := h.nodes
  obtain ⟨n', hb1, hb2, hb3, hb4, hb5⟩ := h.base
  rw [hn2] at hb1
  cases hb1
  have hne : n.inner = true → n.recs ≠ [] := by
    intro hi
    obtain ⟨r, rs, e, _⟩ := hb2.first hi
    rw [e]; simp
  have hseq := copySeq_cons n ms hn3 hne arr
  rw [← hn1, ← hn4, h2] at hseq
  cases hseq
  have hnf : ∀ x ∈ mergeFull (baseBody ch) arr, ∀ r, x ≠ .first r := by
    intro x hx r e
    subst e
    rcases mem_mergeFull hx with ⟨_, _, e⟩ | ⟨_, _, e⟩ <;> cases e
  have hout : (n.pre.map Copy.first ++ mergeFull (baseBody ch) arr).filterMap
      (Copy.wval cfg (cfg.recLen inner)) = wrecs cfg (cfg.recLen inner) ch.pre ch.flatBody := by
    rw [List.filterMap_append, wval_body (l := mergeFull (baseBody ch) arr) hnf,
      h.outRecs_eq hs2 hs3, hb5]
    have e1 : List.filterMap (Copy.wval cfg (cfg.recLen inner)) (n.pre.map Copy.first) =
        n.pre.map (fun r => (r, cfg.recLen inner)) := by
      rw [List.filterMap_map, ← List.filterMap_eq_map]; rfl
    rw [e1]; rfl
  have henc : (n.pre.map Copy.first ++ mergeFull (baseBody ch) arr).filterMap (Copy.enc e) =
      encRecs e ch.pre ch.flatBody := by
    rw [List.filterMap_append, enc_body hnf, h.outRecs_eq hs2 hs3, hb5]
    have e1 : List.filterMap (Copy.enc e) (n.pre.map Copy.first) =
        n.pre.map (fun r => (none, e.pay r.2)) := by
      rw [List.filterMap_map, ← List.filterMap_eq_map]; rfl
    rw [e1]; rfl
  have hgood : ∀ x ∈ n.pre.map Copy.first ++ mergeFull (baseBody ch) arr, x.Good := by
    intro x hx
    rcases List.mem_append.1 hx with hx | hx
    · obtain ⟨r, _, e⟩ := List.mem_map.1 hx
      subst e; trivial
    · rcases mem_mergeFull hx with ⟨r, _, e⟩ | ⟨d, hd, e⟩
      · subst e; trivial
      · subst e
        intro hdel
        rcases hs4 d hd with h' | h'
        · simp at h'
        · obtain ⟨_, hm, hp, _⟩ := h.dmem h'
          obtain ⟨p, hp, _⟩ := DPayOK.toRec hp hm hdel
          simp [hp]
  refine ⟨henc, ?_, hgood, ?_, ⟨f, hn6, hn7, hn8⟩, n, hn5, by rw [hb4, h.low_eq]⟩
  · intro x hx kp hkp
    have hm : kp ∈ encRecs e ch.pre ch.flatBody := by
      rw [← henc]; exact List.mem_filterMap.2 ⟨x, hx, hkp⟩
    have hk := h.kind_flat
    rcases List.mem_append.1 hm with hm | hm <;> obtain ⟨r, hr, rfl⟩ := List.mem_map.1 hm
    · exact he.paylen (hk r (List.mem_append_left _ hr))
    · exact he.paylen (hk r (List.mem_append_right _ hr))
  · intro sp st hst
    rw [copyAll_fold _ _ _ _ hgood, hout] at hst
    cases hst
    obtain ⟨wl, wr, he1, hi⟩ := foldl_copyW_inv (wrecs cfg (cfg.recLen inner) ch.pre ch.flatBody)
      (copyInit_inv (cfg := cfg) (K := K) (V := V) sp)
    simp only [List.nil_append] at he1
    refine ⟨?_, ?_⟩
    · rw [hi.l, hi.r, ← List.map_append, he1, wrecs_fst]; rfl
    · rintro rfl
      have hsw := nonswitch_of_false hi
      have hr := (hi.left hsw).1
      subst hr
      rw [List.append_nil] at he1
      subst he1
      refine ⟨hsw, by rw [hi.r]; rfl, by rw [hi.rsz]; simp, ?_⟩
      rw [hi.lsz, wrecs_sum]
      unfold Chain.flat
      push_cast
      omega

theorem CImg.size {ch : Chain K V} {b : BChain} (h : CImg P e ch b) : b.size = ch.size := by
  cases ch <;> cases b <;> try exact h.elim
  · exact NImg.size h
  · rfl
  · exact h.1.size

theorem CImg.inner {ch : Chain K V} {b : BChain} (h : CImg P e ch b) : b.inner = !ch.isLeaf := by
  cases ch <;> cases b <;> try exact h.elim
  · simp [BChain.inner, Chain.isLeaf, NImg.inner h]
  · have : _ = _ := h
    simp [BChain.inner, Chain.isLeaf, this]
  · simp [BChain.inner, Chain.isLeaf, h.1.inner]

theorem forall₂_get {α β : Type} {R : α → β → Prop} {l : List α} {l' : List β}
    (h : List.Forall₂ R l l') {i : Nat} {a : α} (ha : l[i]? = some a) :
    ∃ b, l'[i]? = some b ∧ R a b := by
  induction h generalizing i with
  | nil => cases ha
  | cons h1 _ ih =>
    cases i with
    | zero => cases ha; exact ⟨_, rfl, h1⟩
    | succ i => exact ih ha

theorem bnd_zero (he : FEncOK cfg P e) (inner : Bool) (lo hi : Option K) :
    cfg.bnd inner lo hi = 0 := by
  unfold Cfg.bnd Cfg.olen
  cases lo <;> cases hi <;> simp [he.klen]

/-- A page with stored records holds the node with these records. -/
theorem nimg_of (he : FEncOK cfg P e) {q : Nat} (hq : q = 1 ∨ q = 2) {old : Mem}
    {rs : List (Str × Str)} {pg : FPage} {n : Node K V} {nd : FNode}
    (h : FHolds P.c (P.plen n.inner) (q * P.c.page) old rs pg)
    (hfit : P.c.hdr + rs.length * (P.c.klen + P.plen n.inner) ≤ q * P.c.page)
    (hmem : nd.pg.mem = pg.mem) (hcnt : nd.pg.cnt = pg.cnt) (hlo : (q - 1) * P.c.page < nd.pg.size)
    (hhi : nd.pg.size ≤ q * P.c.page) (hlen : n.recs.length = rs.length)
    (hrs : ∀ i (h : i < n.recs.length), ∃ kp, rs[i]? = some kp ∧
      KP P.c (if n.inner = true ∧ n.low = none ∧ i = 0 then none else some (e.key (n.recs[i]).1),
        e.pay (n.recs[i]).2) kp)
    (hkind : ∀ r ∈ n.recs, PayOK n.inner r.2)
    (hin : nd.inner = n.inner) (hsize : (nd.pg.size : Int) = n.size)
    (hlow : Bnd e n.low nd.hasLow nd.low) (hhigh : Bnd e n.high nd.hasHigh nd.high)
    (hnext : nd.next = n.next) :
    NImg P e n nd ∧ Framed P.c.keys (q * P.c.page) old nd.pg.mem ∧ nd.InPage P (q * P.c.page) := by
  have hr := holds_read he hq h hfit hmem hlo hhi
  refine ⟨⟨hin, by rw [hcnt, h.cnt, hlen], hsize, ?_, ?_, hlow, hhigh, hnext⟩, ?_, ?_⟩
  · intro i hi hne
    obtain ⟨kp, k1, k2⟩ := hrs i hi
    rw [if_neg hne] at k2
    rw [List.getElem?_eq_getElem (by omega)] at k1
    rw [(hr i (by omega)).1, Option.some.inj k1]
    exact k2.1 _ rfl
  · intro i hi
    obtain ⟨kp, k1, k2⟩ := hrs i hi
    rw [List.getElem?_eq_getElem (by omega)] at k1
    rw [he.paylen (hkind _ (List.getElem_mem hi)), (hr i (by omega)).2.1, Option.some.inj k1]
    exact k2.2.2
  · rw [hmem]; exact holds_frame h
  · intro i hi
    rw [hcnt, h.cnt] at hi ⊢
    rw [hin]
    exact (hr i hi).2.2

/-- Consolidation on the bytes of a chain makes pages that hold what it makes in the model. -/
theorem bTryConsolidate_sim (he : FEncOK cfg P e) (hc : CfgOK cfg) {inner : Bool} {low : Option K}
    {ch : Chain K V} {b : BChain} (h : ChainWF cfg inner low ch) (hi : CImg P e ch b) (old old' : Mem)
    (scan : Bool) (hscan : scan = true → ch.size ≤ 2 * cfg.page)
    (hsplit : ∀ l r, tryConsolidate cfg scan ch = some (.split l r) →
      l.size ≤ cfg.page ∧ r.size ≤ cfg.page)
    {smo : SMO K V} (ht : tryConsolidate cfg scan ch = some smo) :
    ∃ bs, bTryConsolidate P old old' scan b = some bs ∧ SImg P e smo bs ∧
      SFrame P (P.c.page * (if scan then 2 else 1)) old old' bs := by
  have ht0 := ht
  have hpage := he.page
  have hhdr := he.hdr
  have hpos := he.pos
  have hroom := he.room
  have hse := h.size_eq
  have hlow := h.low_eq
  have hlen := he.recLen inner
  unfold tryConsolidate at ht
  cases hd : dcSort [] [] ch with
  | none => rw [hd] at ht; cases ht
  | some an =>
  obtain ⟨arr, nodes⟩ := an
  rw [hd] at ht
  simp only at ht
  cases hq : copySeq nodes.reverse arr with
  | none => rw [hq] at ht; cases ht
  | some seq =>
  obtain ⟨f1, f2, fg, f3, ⟨front, f4, f5, f6⟩, back, f7, f8⟩ := copy_facts he h hd hq
  have hleaf : (!ch.isLeaf) = inner := by rw [h.isLeaf]; simp
  rw [hq, f4, f7, hleaf] at ht
  simp only at ht
  obtain ⟨barr, bnodes, g1, g2, g3⟩ := bSort_sim he hi .nil .nil hd
  obtain ⟨bseq, g4, g5⟩ := bCopySeq_sim he (forall₂_reverse g3) g2 hq
  obtain ⟨bfront, g6, g7⟩ := forall₂_head g3 f4
  obtain ⟨bback, g8, g9⟩ := forall₂_last g3 f7
  have hvals := vals_sim he g5 f2 fg
  rw [f1] at hvals
  have hbin : b.inner = inner := by rw [hi.inner, hleaf]
  have hbsz := hi.size
  have hdo : (!scan && decide ((P.c.page : Int) < b.size)) =
      (!scan && decide ((cfg.page : Int) < ch.size)) := by rw [hbsz, he.page]
  -- images of the borders
  have hbl : Bnd e ch.low bback.hasLow bback.low := by rw [← f8]; exact g9.low
  have hbh : Bnd e ch.high bfront.hasHigh bfront.high := by rw [← f5]; exact g7.high
  have hnx : bfront.next = ch.nextPid := by rw [g7.next, f6]
  have hkind : ∀ r ∈ ch.flat, PayOK inner r.2 := h.kind_flat
  have hpre1 : (inner = true ∧ ch.low = none) → ch.pre.length = 1 := by
    rintro ⟨q1, q2⟩
    obtain ⟨r, hr, _⟩ := h.pre_shape.1 (by rw [q1, ← hlow, q2]; rfl)
    rw [hr]; rfl
  have hpre0 : ¬ (inner = true ∧ ch.low = none) → ch.pre.length = 0 := by
    intro q
    have := h.pre_shape.2 (by
      rw [← hlow]
      cases hin : inner with
      | false => rfl
      | true =>
        cases hl : ch.low with
        | none => exact absurd ⟨hin, hl⟩ q
        | some l => rfl)
    rw [this]; rfl
  have hinit : ∀ (start : Nat) (sp : Bool), FillInv (K := K) (V := V) P.c (P.plen inner) start sp
      old old' [] [] (copyInit cfg)
      { cur := FPage.init P.c old, off := start
        right := if sp then some (FPage.init P.c old') else none, left := none } := by
    intro start sp
    refine ⟨fun _ => ⟨rfl, rfl, rfl, FHolds.init, by simp⟩, ?_, ?_, ?_, rfl, rfl⟩
    · intro h'; simp [copyInit] at h'
    · simp [copyInit, he.hdr]
    · simp [copyInit, he.hdr]
  unfold bTryConsolidate
  rw [g1, Option.bind_some]
  simp only [g4, g6, g8, Option.bind_some, hdo, hbin]
  cases hsp : (!scan && decide ((cfg.page : Int) < ch.size)) with
  | false =>
    rw [hsp] at ht
    cases hst : copyAll cfg (cfg.recLen inner) false
        { l := [], lsz := cfg.hdr, switched := false, r := [], rsz := cfg.hdr } seq with
    | none => rw [hst] at ht; cases ht
    | some st =>
    rw [hst] at ht
    obtain ⟨k1, k2⟩ := f3 false st hst
    obtain ⟨k2, k3, k4, k5⟩ := k2 rfl
    rw [k3, List.append_nil] at k1
    have hlsz : st.lsz + cfg.bnd inner ch.low ch.high = ch.size := by
      rw [k5, hse, hlow]; unfold Cfg.bytes; omega
    have hb0 := bnd_zero he inner ch.low ch.high
    have hmul : P.c.page * (if scan then 2 else 1) = (if scan then 2 else 1) * P.c.page :=
      Nat.mul_comm _ _
    have hcs : ch.size ≤ (P.c.page * (if scan then 2 else 1) : Nat) := by
      cases scan with
      | true => have := hscan rfl; simp only [if_true]; omega
      | false =>
        simp only [Bool.not_false, Bool.true_and, decide_eq_false_iff_not] at hsp
        simp only [Bool.false_eq_true, if_false]; omega
    have hstart : P.c.page * (if scan then 2 else 1) ≤ 2 * P.c.page := by
      cases scan <;> (simp only [Bool.false_eq_true, if_false, if_true]; omega)
    obtain ⟨s, el, er, m1, m2, m3⟩ := fill_sim he hstart hlen g5 f2 fg (hinit _ false) hst
      (by omega) (by omega)
    obtain ⟨n1, n2, n3, n4, n5⟩ := m2.left k2
    subst n1
    simp only [List.append_nil, List.nil_append] at m3
    have hll := m2.lenl
    have hl2 := m2.lsz
    have hsz := n4.size
    have hrs : ∀ i (h : i < st.l.length), ∃ kp, el[i]? = some kp ∧
        KP P.c (if inner = true ∧ ch.low = none ∧ i = 0 then none else some (e.key (st.l[i]).1),
          e.pay (st.l[i]).2) kp := by
      intro i hi'
      rw [m3]
      refine forall₂_get hvals ?_
      rw [encRecs_get]
      have q1 : (ch.pre ++ ch.flatBody)[i]? = some st.l[i] := by
        have : ch.pre ++ ch.flatBody = st.l := by rw [k1]; rfl
        rw [this, List.getElem?_eq_getElem hi']
      rw [q1, Option.map_some]
      by_cases q : inner = true ∧ ch.low = none
      · have := hpre1 q
        by_cases hi0 : i = 0
        · simp [q.1, q.2, hi0, this]
        · have : ¬ i < ch.pre.length := by omega
          simp [hi0, this]
      · have := hpre0 q
        have q' : ¬ (inner = true ∧ ch.low = none ∧ i = 0) := fun z => q ⟨z.1, z.2.1⟩
        have : ¬ i < ch.pre.length := by omega
        simp only [q', this, if_false]
    rw [m1]
    simp only [Option.bind_some, Bool.false_eq_true, if_false]
    rw [f8, f5, f6] at ht
    rw [hmul] at n4 ⊢
    have hfit : P.c.hdr + el.length * (P.c.klen + P.plen inner) ≤
        (if scan then 2 else 1) * P.c.page := by omega
    cases scan with
    | true =>
      simp only [Bool.not_true, Bool.false_and, Bool.false_eq_true, if_false, if_true,
        Option.some.injEq] at ht n4 hfit ⊢
      subst ht
      refine ⟨_, rfl, nimg_of (n := Node.mk inner ch.low ch.high ch.nextPid st.l (2 * cfg.page)) he
        (Or.inr rfl) n4 hfit rfl rfl ?_ ?_ hll hrs
        (fun r hr => hkind r (by rw [← k1]; exact hr)) rfl ?_ hbl hbh hnx⟩
      · show (2 - 1) * P.c.page < 2 * P.c.page; omega
      · exact Nat.le_refl _
      · show ((2 * P.c.page : Nat) : Int) = _
        rw [he.page]; push_cast; rfl
    | false =>
      simp only [Bool.not_false, Bool.true_and, Bool.false_eq_true, if_false] at ht n4 hfit ⊢
      rw [hlsz] at ht
      rw [hbsz, ← he.minSize]
      have himg : ∀ nd : FNode, nd = ⟨s.cur, inner, bback.hasLow, bback.low, bfront.hasHigh,
            bfront.high, bfront.next⟩ →
          NImg P e (Node.mk inner ch.low ch.high ch.nextPid st.l ch.size) nd ∧
          Framed P.c.keys (1 * P.c.page) old nd.pg.mem ∧ nd.InPage P (1 * P.c.page) := by
        rintro nd rfl
        refine nimg_of (n := Node.mk inner ch.low ch.high ch.nextPid st.l ch.size) he
          (Or.inl rfl) n4 hfit rfl rfl ?_ ?_ hll hrs
          (fun r hr => hkind r (by rw [← k1]; exact hr)) rfl ?_ hbl hbh hnx
        · show (1 - 1) * P.c.page < s.cur.size; omega
        · show s.cur.size ≤ _; omega
        · show (s.cur.size : Int) = ch.size
          rw [hsz]; omega
      by_cases hmin : ch.size ≤ cfg.minSize
      · simp only [hmin, decide_true, if_true, Option.some.injEq] at ht ⊢
        subst ht
        exact ⟨_, rfl, himg _ rfl⟩
      · simp only [hmin, decide_false, Bool.false_eq_true, if_false, Option.some.injEq] at ht ⊢
        subst ht
        exact ⟨_, rfl, himg _ rfl⟩
  | true =>
    rw [hsp] at ht
    have hscf : scan = false := by cases scan with | true => simp at hsp | false => rfl
    subst hscf
    have hbig : ¬ ch.size ≤ cfg.page := by simpa using hsp
    obtain ⟨lr, y, rr, t1, t2, _, _, t3⟩ := (tryConsolidate_spec hc h false).2.2.2 rfl hbig
    obtain ⟨w1, w2, _⟩ := split_wf h t1 t2 0
    cases hst : copyAll cfg (cfg.recLen inner) true
        { l := [], lsz := cfg.hdr, switched := false, r := [], rsz := cfg.hdr } seq with
    | none => rw [hst] at ht; cases ht
    | some st =>
    rw [hst] at ht
    simp only [if_true] at ht
    cases hsw : st.switched with
    | false => rw [hsw] at ht; cases ht
    | true =>
    cases hr : st.r with
    | nil => rw [hsw, hr] at ht; cases ht
    | cons x xs =>
    rw [hsw, hr, f8, f5, f6] at ht
    simp only [Option.some.injEq] at ht
    subst ht
    obtain ⟨z1, z2⟩ := hsplit _ _ ht0
    rw [t3] at ht0
    obtain ⟨u1, u2⟩ := SMO.split.inj (Option.some.inj ht0)
    have v1 : lr = st.l := congrArg Node.recs u1
    have v2 : y :: rr = x :: xs := congrArg Node.recs u2
    obtain ⟨rfl, rfl⟩ := List.cons.inj v2
    subst v1
    obtain ⟨k1, _⟩ := f3 true st hst
    simp only at z1 z2
    have hb1 := bnd_zero he inner ch.low (some y.1)
    have hb2 := bnd_zero he inner (some y.1) ch.high
    obtain ⟨s, el, er, m1, m2, m3⟩ := fill_sim he (start := P.c.page) (by omega) hlen g5 f2 fg
      (hinit _ true) hst (by omega) (by omega)
    obtain ⟨_, n1, lp, n2, n3, n4, n5⟩ := m2.right hsw
    simp only [List.append_nil, List.nil_append] at m3
    rw [← m3] at hvals
    have hll := m2.lenl
    have hlr := m2.lenr
    have hl2 := m2.lsz
    have hr2 := m2.rsz
    have hlpos : 0 < st.l.length := List.length_pos_iff.2 t1
    have hrpos : 0 < er.length := by rw [← hlr, hr]; simp
    have hcnt : ¬ s.cur.cnt = 0 := by rw [n4.cnt]; omega
    have hprel : ch.pre.length ≤ 1 := by
      by_cases q : inner = true ∧ ch.low = none
      · exact Nat.le_of_eq (hpre1 q)
      · have := hpre0 q; omega
    have hfl : ch.pre ++ ch.flatBody = st.l ++ st.r := by rw [k1]; rfl
    have hel : ∀ i (hi' : i < st.l.length), ∃ kp, el[i]? = some kp ∧ KP P.c
        (if inner = true ∧ ch.low = none ∧ i = 0 then none else some (e.key (st.l[i]).1),
          e.pay (st.l[i]).2) kp := by
      intro i hi'
      have q0 : el[i]? = (el ++ er)[i]? := (List.getElem?_append_left (by omega)).symm
      rw [q0]
      refine forall₂_get hvals ?_
      rw [encRecs_get, hfl, List.getElem?_append_left hi', List.getElem?_eq_getElem hi',
        Option.map_some]
      by_cases q : inner = true ∧ ch.low = none
      · have := hpre1 q
        by_cases hi0 : i = 0
        · simp [q.1, q.2, hi0, this]
        · have : ¬ i < ch.pre.length := by omega
          simp [hi0, this]
      · have := hpre0 q
        have q' : ¬ (inner = true ∧ ch.low = none ∧ i = 0) := fun z => q ⟨z.1, z.2.1⟩
        have : ¬ i < ch.pre.length := by omega
        simp only [q', this, if_false]
    have her : ∀ i (hi' : i < st.r.length), ∃ kp, er[i]? = some kp ∧ KP P.c
        (some (e.key (st.r[i]).1), e.pay (st.r[i]).2) kp := by
      intro i hi'
      have q0 : er[i]? = (el ++ er)[el.length + i]? := by
        rw [List.getElem?_append_right (by omega)]; congr 1; omega
      have q1 : ¬ el.length + i < ch.pre.length := by omega
      rw [q0]
      refine forall₂_get hvals ?_
      rw [encRecs_get, hfl, List.getElem?_append_right (by omega)]
      have q2 : el.length + i - st.l.length = i := by omega
      rw [q2, List.getElem?_eq_getElem hi', Option.map_some]
      simp only [q1, if_false]
    have hfitL : P.c.hdr + el.length * (P.c.klen + P.plen inner) ≤ 1 * P.c.page := by omega
    have hfitR : P.c.hdr + er.length * (P.c.klen + P.plen inner) ≤ 1 * P.c.page := by omega
    have hlsz := n3.size
    have hrsz := n4.size
    rw [show P.c.page = 1 * P.c.page from (Nat.one_mul _).symm] at n3 n4
    have hkey : s.cur.key P.c 0 = e.key y.1 := by
      have q := (holds_read he (Or.inl rfl) n4 hfitR rfl (by omega) (by omega) 0 hrpos).1
      obtain ⟨kp, j1, j2⟩ := her 0 (by omega)
      rw [List.getElem?_eq_getElem hrpos] at j1
      rw [q, Option.some.inj j1]
      have := j2.1 _ rfl
      simp only [hr, List.getElem_cons_zero] at this
      exact this
    have hkl : ∀ r ∈ st.l, PayOK inner r.2 := fun r hr' => hkind r (by
      rw [← k1]; exact List.mem_append_left _ hr')
    have hkr : ∀ r ∈ y :: rr, PayOK inner r.2 := fun r hr' => hkind r (by
      rw [← k1, hr]; exact List.mem_append_right _ hr')
    have A := nimg_of (n := Node.mk inner ch.low (some y.1) 0 st.l
          (st.lsz + cfg.bnd inner ch.low (some y.1)))
      (nd := { pg := lp, inner := inner, hasLow := bback.hasLow, low := bback.low
               hasHigh := true, high := s.cur.key P.c 0, next := 0 }) he
      (Or.inl rfl) n3 hfitL rfl rfl (by show (1 - 1) * P.c.page < lp.size; omega)
      (by show lp.size ≤ _; omega) hll hel hkl rfl (by simp only; omega) hbl
      ⟨rfl, fun x hx => by cases hx; exact hkey⟩ rfl
    have B := nimg_of (n := Node.mk inner (some y.1) ch.high ch.nextPid (y :: rr)
          (st.rsz + cfg.bnd inner (some y.1) ch.high))
      (nd := { pg := s.cur, inner := inner, hasLow := true, low := s.cur.key P.c 0
               hasHigh := bfront.hasHigh, high := bfront.high, next := bfront.next }) he
      (Or.inl rfl) n4 hfitR rfl rfl (by show (1 - 1) * P.c.page < s.cur.size; omega)
      (by show s.cur.size ≤ _; omega) (by show (y :: rr).length = _; rw [← hr, hlr])
      (by
        intro i hi'
        obtain ⟨kp, j1, j2⟩ := her i (by rw [hr]; exact hi')
        refine ⟨kp, j1, ?_⟩
        simp only [hr] at j2
        simpa using j2)
      hkr rfl (by simp only; omega)
      ⟨rfl, fun x hx => by cases hx; exact hkey⟩ hbh hnx
    simp only [Bool.false_eq_true, if_false, Nat.mul_one, if_true]
    simp only [if_true] at m1
    simp only [m1, Option.bind_some, n2, hcnt, if_false]
    rw [show 1 * P.c.page = P.c.page from Nat.one_mul _] at A B
    exact ⟨_, rfl, ⟨A.1, B.1⟩, A.2, B.2⟩

end BwTree.Fix
