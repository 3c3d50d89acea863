import Verif.Layout.Sim

/-!
# Consolidation on bytes does what the model does
-/

namespace BwTree.Layout

open Util (Metadata)

set_option linter.unusedSectionVars false

variable {K V : Type} [LinearOrder K] {cfg : Cfg K} {c : VCfg}
  {lt : List UInt8 → List UInt8 → Bool} {e : Enc K V}

/-- Bytes of the records of a node, the first `k` of them without keys. -/
def encRecs (e : Enc K V) (pre body : List (K × Pay V)) : List (List UInt8 × List UInt8) :=
  pre.map (fun r => ([], e.pay r.2)) ++ body.map (fun r => (e.key r.1, e.pay r.2))

theorem encRecs_get (e : Enc K V) (pre body : List (K × Pay V)) (i : Nat) :
    (encRecs e pre body)[i]? = ((pre ++ body)[i]?).map
      (fun r => (if i < pre.length then [] else e.key r.1, e.pay r.2)) := by
  unfold encRecs
  by_cases h : i < pre.length
  · rw [List.getElem?_append_left (by simpa using h), List.getElem?_append_left h, List.getElem?_map]
    simp [h]
  · rw [List.getElem?_append_right (by simpa using h), List.getElem?_append_right (by simpa using h),
      List.getElem?_map]
    simp [h]

theorem enc_val {x : Copy K V} (h : ∀ r, x ≠ .first r) :
    Copy.enc e x = (Copy.val x).map fun r => (e.key r.1, e.pay r.2) := by
  cases x with
  | first r => exact absurd rfl (h r)
  | node r => rfl
  | delta d =>
    simp only [Copy.enc, Copy.val]
    split
    · rfl
    · cases hr : d.toRec with
      | none => rfl
      | some r => simp [toRec_key hr]

theorem enc_body {l : List (Copy K V)} (h : ∀ x ∈ l, ∀ r, x ≠ .first r) :
    l.filterMap (Copy.enc e) = (outRecs l).map fun r => (e.key r.1, e.pay r.2) := by
  induction l with
  | nil => rfl
  | cons x l ih =>
    have h0 := enc_val (e := e) (h x (List.mem_cons_self ..))
    have ih := ih fun y hy => h y (List.mem_cons_of_mem _ hy)
    unfold outRecs at ih ⊢
    cases hv : x.val with
    | none =>
      rw [hv] at h0
      rw [List.filterMap_cons_none h0, List.filterMap_cons_none hv, ih]
    | some r =>
      rw [hv] at h0
      rw [List.filterMap_cons_some h0, List.filterMap_cons_some hv, ih]; rfl

theorem EncOK.paylen (he : EncOK cfg c lt e) {inner : Bool} {p : Pay V} (h : PayOK inner p) :
    cfg.recLen inner = 8 + (e.pay p).length := by
  unfold PayOK at h
  cases inner
  · obtain ⟨v, rfl⟩ := h
    exact he.val v
  · obtain ⟨q, rfl⟩ := h
    exact he.pid q

/-- What the copies of a well-formed chain store. -/
theorem copy_facts (he : EncOK cfg c lt e) {inner : Bool} {low : Option K} {ch : Chain K V}
    (h : ChainWF cfg inner low ch) {arr : List (Delta K V)} {nodes : List (Node K V)}
    {seq : List (Copy K V)} (h1 : dcSort [] [] ch = some (arr, nodes))
    (h2 : copySeq nodes.reverse arr = some seq) :
    seq.filterMap (Copy.enc e) = encRecs e ch.pre ch.flatBody ∧
    (∀ x ∈ seq, ∀ kp, Copy.enc e x = some kp → cfg.recLen inner = 8 + kp.2.length) ∧
    (∀ sp st, copyAll cfg (cfg.recLen inner) sp (copyInit cfg) seq = some st →
      st.l ++ st.r = ch.flat ∧
      (sp = false → st.switched = false ∧ st.r = [] ∧ st.rsz = cfg.hdr ∧
        st.lsz = cfg.hdr + cfg.recLen inner * ch.flat.length + cfg.keyBytes ch.flatBody)) ∧
    (∃ f, nodes.head? = some f ∧ f.high = ch.high ∧ f.next = ch.nextPid) ∧
    ∃ n, nodes.getLast? = some n ∧ n.low = ch.low := by
  obtain ⟨arr', hs1, hs2, hs3, hs4, _⟩ := dcSort_spec h [] [] List.Pairwise.nil
  have hs3 : ∀ k, dlook arr' k = newest k ch := by intro k; rw [hs3]; simp [dlook]
  simp only [List.nil_append] at hs1
  rw [hs1] at h1
  cases h1
  obtain ⟨n, ms, hn1, hn2, hn3, hn4, hn5, f, hn6, hn7, hn8⟩ := h.nodes
  obtain ⟨n', hb1, hb2, hb3, hb4, hb5⟩ := h.base
  rw [hn2] at hb1
  cases hb1
  have hne : n.inner = true → n.recs ≠ [] := by
    intro hi
    obtain ⟨r, rs, e, _⟩ := hb2.first hi
    rw [e]; simp
  have hseq := copySeq_cons n ms hn3 hne arr
  rw [← hn1, ← hn4, h2] at hseq
  cases hseq
  have hnf : ∀ x ∈ mergeFull (baseBody ch) arr, ∀ r, x ≠ .first r := by
    intro x hx r e
    subst e
    rcases mem_mergeFull hx with ⟨_, _, e⟩ | ⟨_, _, e⟩ <;> cases e
  have hout : (n.pre.map Copy.first ++ mergeFull (baseBody ch) arr).filterMap
      (Copy.wval cfg (cfg.recLen inner)) = wrecs cfg (cfg.recLen inner) ch.pre ch.flatBody := by
    rw [List.filterMap_append, wval_body (l := mergeFull (baseBody ch) arr) hnf,
      h.outRecs_eq hs2 hs3, hb5]
    have e1 : List.filterMap (Copy.wval cfg (cfg.recLen inner)) (n.pre.map Copy.first) =
        n.pre.map (fun r => (r, cfg.recLen inner)) := by
      rw [List.filterMap_map, ← List.filterMap_eq_map]; rfl
    rw [e1]; rfl
  have henc : (n.pre.map Copy.first ++ mergeFull (baseBody ch) arr).filterMap (Copy.enc e) =
      encRecs e ch.pre ch.flatBody := by
    rw [List.filterMap_append, enc_body hnf, h.outRecs_eq hs2 hs3, hb5]
    have e1 : List.filterMap (Copy.enc e) (n.pre.map Copy.first) =
        n.pre.map (fun r => ([], e.pay r.2)) := by
      rw [List.filterMap_map, ← List.filterMap_eq_map]; rfl
    rw [e1]; rfl
  have hgood : ∀ x ∈ n.pre.map Copy.first ++ mergeFull (baseBody ch) arr, x.Good := by
    intro x hx
    rcases List.mem_append.1 hx with hx | hx
    · obtain ⟨r, _, e⟩ := List.mem_map.1 hx
      subst e; trivial
    · rcases mem_mergeFull hx with ⟨r, _, e⟩ | ⟨d, hd, e⟩
      · subst e; trivial
      · subst e
        intro hdel
        rcases hs4 d hd with h' | h'
        · simp at h'
        · obtain ⟨_, hm, hp, _⟩ := h.dmem h'
          obtain ⟨p, hp, _⟩ := DPayOK.toRec hp hm hdel
          simp [hp]
  refine ⟨henc, ?_, ?_, ⟨f, hn6, hn7, hn8⟩, n, hn5, by rw [hb4, h.low_eq]⟩
  · intro x hx kp hkp
    have hm : kp ∈ encRecs e ch.pre ch.flatBody := by
      rw [← henc]; exact List.mem_filterMap.2 ⟨x, hx, hkp⟩
    have hk := h.kind_flat
    rcases List.mem_append.1 hm with hm | hm <;> obtain ⟨r, hr, rfl⟩ := List.mem_map.1 hm
    · exact he.paylen (hk r (List.mem_append_left _ hr))
    · exact he.paylen (hk r (List.mem_append_right _ hr))
  · intro sp st hst
    rw [copyAll_fold _ _ _ _ hgood, hout] at hst
    cases hst
    obtain ⟨wl, wr, he1, hi⟩ := foldl_copyW_inv (wrecs cfg (cfg.recLen inner) ch.pre ch.flatBody)
      (copyInit_inv (cfg := cfg) (K := K) (V := V) sp)
    simp only [List.nil_append] at he1
    refine ⟨?_, ?_⟩
    · rw [hi.l, hi.r, ← List.map_append, he1, wrecs_fst]; rfl
    · rintro rfl
      have hsw := nonswitch_of_false hi
      have hr := (hi.left hsw).1
      subst hr
      rw [List.append_nil] at he1
      subst he1
      refine ⟨hsw, by rw [hi.r]; rfl, by rw [hi.rsz]; simp, ?_⟩
      rw [hi.lsz, wrecs_sum]
      unfold Chain.flat
      push_cast
      omega

theorem EncOK.olen (he : EncOK cfg c lt e) (k : Option K) : cfg.olen k = (e.opt k).length := by
  cases k with
  | none => rfl
  | some k => exact he.klen k

/-- A finished page holds the node. -/
theorem Done.nimg {start : Nat} {p0 : VPage} {rs : List (List UInt8 × List UInt8)} {n : Node K V} {pg : VPage}
    (hd : Done c start p0 rs n.inner (e.opt n.low) (e.opt n.high) pg) (hlen : n.recs.length = rs.length)
    (hrs : ∀ i (h : i < n.recs.length), rs[i]? = some
      (if n.inner = true ∧ n.low = none ∧ i = 0 then [] else e.key (n.recs[i]).1, e.pay (n.recs[i]).2))
    (hsize : (pg.size : Int) = n.size) (hnext : pg.next = n.next)
    (hfirst : n.inner = true → ∃ r rs, n.recs = r :: rs ∧ ∀ l, n.low = some l → r.1 = l) :
    NImg c e n pg := by
  refine ⟨hd.kind, by rw [hd.cnt, hlen], hsize, ?_, ?_, hd.high, hnext⟩
  · intro i hi
    have h1 := hd.recs i (by omega)
    have h2 := hrs i hi
    rw [List.getElem?_eq_getElem (by omega)] at h2
    rw [Option.some.inj h2] at h1
    exact h1
  · cases hin : n.inner with
    | false => exact hd.lowL hin
    | true =>
      obtain ⟨r, rs', h1, h2⟩ := hfirst hin
      have hpos : 0 < n.recs.length := by rw [h1]; simp
      have h3 := hd.lowI hin (by omega)
      have h4 := hrs 0 hpos
      rw [List.getElem?_eq_getElem (by omega)] at h4
      rw [Option.some.inj h4] at h3
      cases hl : n.low with
      | none => simpa [hin, hl, Enc.opt] using h3
      | some l =>
        have h5 := h2 l hl
        simp only [hin, hl, reduceCtorEq, false_and, and_false, if_false, h1, List.getElem_cons_zero,
          h5] at h3
        exact h3

theorem Done.setNext {start : Nat} {p0 : VPage} {rs : List (List UInt8 × List UInt8)} {inner : Bool} {low high : List UInt8}
    {pg : VPage} (h : Done c start p0 rs inner low high pg) (p : Nat) :
    Done c start p0 rs inner low high { pg with next := p } :=
  ⟨h.cnt, h.kind, h.recs, h.lowI, h.lowL, h.high, h.box, h.frame⟩

theorem forall₂_head {α β : Type} {R : α → β → Prop} {l : List α} {l' : List β} {a : α}
    (h : List.Forall₂ R l l') (ha : l.head? = some a) : ∃ b, l'.head? = some b ∧ R a b := by
  cases h with
  | nil => cases ha
  | cons h1 _ => cases ha; exact ⟨_, rfl, h1⟩

theorem forall₂_reverse {α β : Type} {R : α → β → Prop} {l : List α} {l' : List β}
    (h : List.Forall₂ R l l') : List.Forall₂ R l.reverse l'.reverse := by
  induction h with
  | nil => exact .nil
  | cons h1 _ ih => rw [List.reverse_cons, List.reverse_cons]; exact forall₂_snoc ih h1

theorem forall₂_last {α β : Type} {R : α → β → Prop} {l : List α} {l' : List β} {a : α}
    (h : List.Forall₂ R l l') (ha : l.getLast? = some a) : ∃ b, l'.getLast? = some b ∧ R a b := by
  rw [List.getLast?_eq_head?_reverse] at ha
  obtain ⟨b, h1, h2⟩ := forall₂_head (forall₂_reverse h) ha
  exact ⟨b, by rw [List.getLast?_eq_head?_reverse]; exact h1, h2⟩

theorem CImg.size {ch : Chain K V} {b : BChain} (h : CImg c e ch b) : b.size = ch.size := by
  cases ch <;> cases b <;> try exact h.elim
  · exact NImg.size h
  · rfl
  · exact h.1.size

theorem CImg.inner {ch : Chain K V} {b : BChain} (h : CImg c e ch b) : b.inner = !ch.isLeaf := by
  cases ch <;> cases b <;> try exact h.elim
  · simp [BChain.inner, Chain.isLeaf, NImg.inner h]
  · have : _ = _ := h
    simp [BChain.inner, Chain.isLeaf, this]
  · simp [BChain.inner, Chain.isLeaf, h.1.inner]

theorem border_opt {n : Node K V} {pg : VPage} (h : NImg c e n pg) :
    pg.border pg.low = e.opt n.low ∧ pg.border pg.high = e.opt n.high := ⟨h.low.key, h.high.key⟩

/-- Consolidation on the bytes of a chain makes pages that hold what it makes in the model. -/
theorem bTryConsolidate_sim (he : EncOK cfg c lt e) (hc : CfgOK cfg) {inner : Bool} {low : Option K}
    {ch : Chain K V} {b : BChain} (h : ChainWF cfg inner low ch) (hi : CImg c e ch b) (old old' : Mem)
    (scan : Bool) (hscan : scan = true → ch.size ≤ 2 * cfg.page)
    (hsplit : ∀ l r, tryConsolidate cfg scan ch = some (.split l r) →
      l.size ≤ cfg.page ∧ r.size ≤ cfg.page)
    {smo : SMO K V} (ht : tryConsolidate cfg scan ch = some smo) :
    ∃ bs, bTryConsolidate lt c cfg.minSize old old' scan b = some bs ∧ SImg c e smo bs ∧
      SFrame c (c.page * (if scan then 2 else 1)) old old' bs := by
  have ht0 := ht
  have hpage := he.page
  have hhdr := he.hdr
  have hlim := he.lim
  have hse := h.size_eq
  have hlow := h.low_eq
  -- bounds alone fit
  have hbnd : cfg.hdr + cfg.bnd inner low ch.high ≤ cfg.page := by
    have h1 := hc.bnd_le inner low ch.high
    rcases hc.var with h2 | h2
    · have := hc.len inner; omega
    · have := h2 inner; omega
  unfold tryConsolidate at ht
  cases hd : dcSort [] [] ch with
  | none => rw [hd] at ht; cases ht
  | some an =>
  obtain ⟨arr, nodes⟩ := an
  rw [hd] at ht
  simp only at ht
  cases hq : copySeq nodes.reverse arr with
  | none => rw [hq] at ht; cases ht
  | some seq =>
  obtain ⟨f1, f2, f3, ⟨front, f4, f5, f6⟩, back, f7, f8⟩ := copy_facts he h hd hq
  have hleaf : (!ch.isLeaf) = inner := by rw [h.isLeaf]; simp
  rw [hq, f4, f7, hleaf] at ht
  simp only at ht
  obtain ⟨barr, bnodes, g1, g2, g3⟩ := bSort_sim he hi .nil .nil hd
  obtain ⟨bseq, g4, g5⟩ := bCopySeq_sim he (forall₂_reverse g3) g2 hq
  obtain ⟨bfront, g6, g7⟩ := forall₂_head g3 f4
  obtain ⟨bback, g8, g9⟩ := forall₂_last g3 f7
  have hbin : b.inner = inner := by rw [hi.inner, hleaf]
  have hbsz := hi.size
  have hdo : (!scan && decide ((c.page : Int) < b.size)) =
      (!scan && decide ((cfg.page : Int) < ch.size)) := by rw [hbsz, he.page]
  -- images of the borders
  have hbl : bback.border bback.low = e.opt ch.low := by rw [(border_opt g9).1, f8]
  have hbh : bfront.border bfront.high = e.opt ch.high := by rw [(border_opt g7).2, f5]
  have hnx : bfront.next = ch.nextPid := by rw [g7.next, f6]
  have hwf := (consNode_wf h).1.2.2.first
  have hpre1 : (inner = true ∧ ch.low = none) → ch.pre.length = 1 := by
    rintro ⟨q1, q2⟩
    obtain ⟨r, hr, _⟩ := h.pre_shape.1 (by rw [q1, ← hlow, q2]; rfl)
    rw [hr]; rfl
  have hpre0 : ¬ (inner = true ∧ ch.low = none) → ch.pre.length = 0 := by
    intro q
    have := h.pre_shape.2 (by
      rw [← hlow]
      cases hin : inner with
      | false => rfl
      | true =>
        cases hl : ch.low with
        | none => exact absurd ⟨hin, hl⟩ q
        | some l => rfl)
    rw [this]; rfl
  have hinit : ∀ (start : Nat) (sp : Bool), FillInv (K := K) (V := V) c start sp (VPage.init c old inner)
      (VPage.init c old' inner) [] [] (copyInit cfg)
      { cur := VPage.init c old inner, off := start
        right := if sp then some (VPage.init c old' inner) else none, left := none } := by
    intro start sp
    refine ⟨fun _ => ⟨rfl, rfl, rfl, VHolds.init rfl rfl, ?_⟩, ?_, ?_, ?_, rfl, rfl⟩
    · simp [total]
    · intro h'; simp [copyInit] at h'
    · simp [copyInit, used, total, he.hdr]
    · simp [copyInit, used, total, he.hdr]
  unfold bTryConsolidate
  rw [g1, Option.bind_some]
  simp only [g4, g6, g8, Option.bind_some, hdo, hbin]
  cases hsp : (!scan && decide ((cfg.page : Int) < ch.size)) with
  | false =>
    rw [hsp] at ht
    cases hst : copyAll cfg (cfg.recLen inner) false
        { l := [], lsz := cfg.hdr, switched := false, r := [], rsz := cfg.hdr } seq with
    | none => rw [hst] at ht; cases ht
    | some st =>
    rw [hst] at ht
    obtain ⟨k1, k2⟩ := f3 false st hst
    obtain ⟨k2, k3, k4, k5⟩ := k2 rfl
    rw [k3, List.append_nil] at k1
    have hlsz : st.lsz + cfg.bnd inner ch.low ch.high = ch.size := by
      rw [k5, hse, hlow]; unfold Cfg.bytes; omega
    have hcs : ch.size ≤ (c.page * (if scan then 2 else 1) : Nat) := by
      cases scan with
      | true => have := hscan rfl; simp only [if_true]; omega
      | false =>
        simp only [Bool.not_false, Bool.true_and, decide_eq_false_iff_not] at hsp
        simp only [Bool.false_eq_true, if_false]; omega
    have hstart : c.page * (if scan then 2 else 1) < 65536 := by
      cases scan <;> (simp; omega)
    have hstart2 : c.page ≤ c.page * (if scan then 2 else 1) :=
      Nat.le_mul_of_pos_right _ (by cases scan <;> decide)
    obtain ⟨s, el, er, m1, m2, m3⟩ := fill_sim he hstart (p0 := VPage.init c old inner)
      (p0' := VPage.init c old' inner) ⟨rfl, rfl⟩ g5 f2 (hinit _ false) hst
      (by omega) (by rw [k4]; have := he.room; omega)
    obtain ⟨n1, n2, n3, n4, n5⟩ := m2.left k2
    subst n1
    simp only [List.append_nil, List.nil_append, f1] at m3
    have hll := m2.lenl
    have hl2 := m2.lsz
    have hcin : s.cur.inner = inner := n4.inner
    have hb1 := he.olen ch.low
    have hb2 := he.olen ch.high
    have hbnd' : cfg.bnd inner ch.low ch.high =
        (if inner then 0 else (e.opt ch.low).length) + (e.opt ch.high).length := by
      unfold Cfg.bnd; rw [hb1, hb2]
    have hsum : ((c.hdr + used el + (if inner then 0 else (e.opt ch.low).length) +
        (e.opt ch.high).length : Nat) : Int) = ch.size := by
      rw [← hlsz, hl2, hbnd']; push_cast; omega
    obtain ⟨x, pg, d1, d2, d3, dsz⟩ := finish (low := e.opt ch.low) (high := e.opt ch.high) n4 rfl
      hstart hstart2 (by
        rw [hcin]
        rintro rfl e1
        obtain ⟨r, rs, q1, _⟩ := hwf rfl
        have q2 : st.l = r :: rs := by rw [k1]; exact q1
        rw [q2, e1] at hll
        simp at hll) (by
        rw [hcin]
        by_cases hel : el = []
        · rw [if_pos hel]
          have : used el = 0 := by rw [hel]; rfl
          rw [hlow] at hbnd'
          rw [this, hlow]
          omega
        · rw [if_neg hel]
          omega)
    rw [hcin] at d3 dsz
    have himg : ∀ (sz : Int) (pg' : VPage), pg' = { pg with size := pg'.size, next := ch.nextPid } → (pg'.size : Int) = sz →
        NImg c e (Node.mk inner ch.low ch.high ch.nextPid st.l sz) pg' := by
      intro sz pg' hpg' hsz
      have d3' : Done c (c.page * (if scan then 2 else 1)) (VPage.init c old inner) el inner (e.opt ch.low)
          (e.opt ch.high) pg' := by
        rw [hpg']; exact ⟨d3.cnt, d3.kind, d3.recs, d3.lowI, d3.lowL, d3.high, d3.box, d3.frame⟩
      exact Done.nimg (c := c) (e := e) (n := Node.mk inner ch.low ch.high ch.nextPid st.l sz) d3' hll (by
          intro i hi'
          have hi' : i < st.l.length := hi'
          rw [m3, encRecs_get]
          have q1 : (ch.pre ++ ch.flatBody)[i]? = some st.l[i] := by
            have : ch.pre ++ ch.flatBody = st.l := by rw [k1]; rfl
            rw [this, List.getElem?_eq_getElem hi']
          rw [q1, Option.map_some]
          by_cases q : inner = true ∧ ch.low = none
          · have := hpre1 q
            by_cases hi0 : i = 0
            · simp [q.1, q.2, hi0, this]
            · have : ¬ i < ch.pre.length := by omega
              simp [hi0, this]
          · have := hpre0 q
            have q' : ¬ (inner = true ∧ ch.low = none ∧ i = 0) := fun z => q ⟨z.1, z.2.1⟩
            have : ¬ i < ch.pre.length := by omega
            simp only [q', this, if_false]) hsz (by rw [hpg']) (by
          intro hin
          obtain ⟨r, rs, q1, q2⟩ := hwf hin
          exact ⟨r, rs, by rw [← q1]; exact k1, q2⟩)
    have hpsz : (pg.size : Int) = ch.size := by rw [dsz]; exact hsum
    rw [m1]
    simp only [Option.bind_some, Bool.false_eq_true, if_false, hbl, d1, hbh, d2, Option.map_some]
    rw [f8, f5, f6] at ht
    cases scan with
    | true =>
      simp only [Bool.not_true, Bool.false_and, Bool.false_eq_true, if_false, if_true,
        Option.some.injEq] at ht
      subst ht
      exact ⟨_, rfl, himg (2 * cfg.page)
        { pg with size := 2 * c.page, next := bfront.next } (by simp only; rw [hnx]) (by
        simp only; rw [he.page]; push_cast; rfl), d3.frame, d3.box⟩
    | false =>
      simp only [Bool.not_false, Bool.true_and, Bool.false_eq_true, if_false] at ht ⊢
      rw [hlsz] at ht
      rw [hbsz]
      by_cases hmin : ch.size ≤ cfg.minSize
      · simp only [hmin, decide_true, if_true, Option.some.injEq] at ht ⊢
        subst ht
        exact ⟨_, rfl, himg _ { pg with next := bfront.next } (by simp only; rw [hnx]) hpsz, d3.frame, d3.box⟩
      · simp only [hmin, decide_false, Bool.false_eq_true, if_false, Option.some.injEq] at ht ⊢
        subst ht
        exact ⟨_, rfl, himg _ { pg with next := bfront.next } (by simp only; rw [hnx]) hpsz, d3.frame, d3.box⟩
  | true =>
    rw [hsp] at ht
    have hscf : scan = false := by cases scan with | true => simp at hsp | false => rfl
    subst hscf
    have hbig : ¬ ch.size ≤ cfg.page := by simpa using hsp
    obtain ⟨lr, y, rr, t1, t2, _, _, t3⟩ := (tryConsolidate_spec hc h false).2.2.2 rfl hbig
    obtain ⟨w1, w2, _⟩ := split_wf h t1 t2 0
    cases hst : copyAll cfg (cfg.recLen inner) true
        { l := [], lsz := cfg.hdr, switched := false, r := [], rsz := cfg.hdr } seq with
    | none => rw [hst] at ht; cases ht
    | some st =>
    rw [hst] at ht
    simp only [if_true] at ht
    cases hsw : st.switched with
    | false => rw [hsw] at ht; cases ht
    | true =>
    cases hr : st.r with
    | nil => rw [hsw, hr] at ht; cases ht
    | cons x xs =>
    rw [hsw, hr, f8, f5, f6] at ht
    simp only [Option.some.injEq] at ht
    subst ht
    obtain ⟨z1, z2⟩ := hsplit _ _ ht0
    rw [t3] at ht0
    obtain ⟨u1, u2⟩ := SMO.split.inj (Option.some.inj ht0)
    have v1 : lr = st.l := congrArg Node.recs u1
    have v2 : y :: rr = x :: xs := congrArg Node.recs u2
    obtain ⟨rfl, rfl⟩ := List.cons.inj v2
    subst v1
    obtain ⟨k1, _⟩ := f3 true st hst
    simp only at z1 z2
    have hb1 := he.olen ch.low
    have hb2 := he.olen ch.high
    have hb3 := he.olen (some y.1)
    have hbl' : cfg.bnd inner ch.low (some y.1) =
        (if inner then 0 else (e.opt ch.low).length) + (e.key y.1).length := by
      unfold Cfg.bnd; rw [hb1, hb3]; rfl
    have hbr' : cfg.bnd inner (some y.1) ch.high =
        (if inner then 0 else (e.key y.1).length) + (e.opt ch.high).length := by
      unfold Cfg.bnd; rw [hb2, hb3]; rfl
    obtain ⟨s, el, er, m1, m2, m3⟩ := fill_sim he (start := c.page) (by omega)
      (p0 := VPage.init c old inner)
      (p0' := VPage.init c old' inner) ⟨rfl, rfl⟩ g5 f2 (hinit _ true) hst
      (by omega) (by omega)
    obtain ⟨_, n1, lp, n2, n3, n4, n5⟩ := m2.right hsw
    simp only [List.append_nil, List.nil_append, f1] at m3
    have hll := m2.lenl
    have hlr := m2.lenr
    have hl2 := m2.lsz
    have hr2 := m2.rsz
    have hlpos : 0 < st.l.length := List.length_pos_iff.2 t1
    have hrpos : 0 < er.length := by rw [← hlr, hr]; simp
    have hcin : s.cur.inner = inner := n4.inner
    have hlin : lp.inner = inner := n3.inner
    have hcnt : ¬ s.cur.cnt = 0 := by rw [n4.cnt]; omega
    have hprel : ch.pre.length ≤ 1 := by
      by_cases q : inner = true ∧ ch.low = none
      · exact Nat.le_of_eq (hpre1 q)
      · have := hpre0 q; omega
    have hfl : ch.pre ++ ch.flatBody = st.l ++ st.r := by rw [k1]; rfl
    have hel : ∀ i (hi' : i < st.l.length), el[i]? = some
        (if inner = true ∧ ch.low = none ∧ i = 0 then [] else e.key (st.l[i]).1,
          e.pay (st.l[i]).2) := by
      intro i hi'
      have q0 : el[i]? = (el ++ er)[i]? := (List.getElem?_append_left (by omega)).symm
      rw [q0, m3, encRecs_get, hfl, List.getElem?_append_left hi', List.getElem?_eq_getElem hi',
        Option.map_some]
      by_cases q : inner = true ∧ ch.low = none
      · have := hpre1 q
        by_cases hi0 : i = 0
        · simp [q.1, q.2, hi0, this]
        · have : ¬ i < ch.pre.length := by omega
          simp [hi0, this]
      · have := hpre0 q
        have q' : ¬ (inner = true ∧ ch.low = none ∧ i = 0) := fun z => q ⟨z.1, z.2.1⟩
        have : ¬ i < ch.pre.length := by omega
        simp only [q', this, if_false]
    have her : ∀ i (hi' : i < st.r.length), er[i]? = some
        (e.key (st.r[i]).1, e.pay (st.r[i]).2) := by
      intro i hi'
      have q0 : er[i]? = (el ++ er)[el.length + i]? := by
        rw [List.getElem?_append_right (by omega)]; congr 1; omega
      have q1 : ¬ el.length + i < ch.pre.length := by omega
      rw [q0, m3, encRecs_get, hfl, List.getElem?_append_right (by omega)]
      have q2 : el.length + i - st.l.length = i := by omega
      rw [q2, List.getElem?_eq_getElem hi', Option.map_some]
      simp only [q1, if_false]
    have her0 : er[0]? = some (e.key y.1, e.pay y.2) := by
      rw [her 0 (by omega)]
      simp [hr]
    have hfitR : c.hdr + used er ≤ c.page := by omega
    have hkey : s.cur.key c 0 = e.key y.1 := by
      have q := (n4.recAt (by omega) hfitR hrpos).1.key
      rw [List.getElem?_eq_getElem hrpos] at her0
      rw [Option.some.inj her0] at q
      exact q
    obtain ⟨xl, pl, d1, d2, d3, dl⟩ := finish (low := e.opt ch.low) (high := e.key y.1) n3 rfl
      (by omega) (Nat.le_refl _) (fun _ e1 => by rw [hll, e1] at hlpos; simp at hlpos) (by
        rw [hlin, ite_self]; omega)
    obtain ⟨xr, pr, d4, d5, d6, dr⟩ := finish (low := e.key y.1) (high := e.opt ch.high) n4 rfl
      (by omega) (Nat.le_refl _) (fun _ e1 => by rw [e1] at hrpos; simp at hrpos) (by
        rw [hcin, ite_self]; omega)
    rw [hlin] at d3 dl
    rw [hcin] at d6 dr
    refine ⟨.two { pl with next := s.cur.next } { pr with next := bfront.next }, ?_, ⟨?_, ?_⟩, ?_⟩
    · simp only [Bool.false_eq_true, if_false, Nat.mul_one, if_true]
      simp only [if_true] at m1
      simp only [m1, Option.bind_some, n2, hcnt, if_false, hbl, hbh, d1, hkey, d2, d4, d5,
        Option.map_some]
    · refine Done.nimg (rs := el) (d3.setNext _) hll hel ?_ n4.next w1.2.2.first
      simp only; rw [dl, hl2, hbl']; push_cast; omega
    · refine Done.nimg (rs := er) (d6.setNext _) (by simp only; rw [← hlr, hr]) ?_ ?_ hnx w2.2.2.first
      · intro i hi'
        rw [her i (by rw [hr]; exact hi')]
        simp [hr]
      · simp only; rw [dr, hr2, hbr']; push_cast; omega
    · simp only [Bool.false_eq_true, if_false, Nat.mul_one]
      exact ⟨⟨d3.frame, d3.box⟩, d6.frame, d6.box⟩

end BwTree.Layout
