import Verif.Fix.Img
import Verif.Layout.Cons
import Verif.Tree.Consolidate
import Verif.Tree.ChainOps

/-!
# Consolidation on bytes does what the model does (lemmas, fixed-length layout)
-/

namespace BwTree.Fix

open Layout (Mem FCfg FPage FSplit Enc Framed FHolds forall₂_snoc forall₂_takeWhile forall₂_dropWhile
  forall₂_append forall₂_range' copyAll_mono)

set_option linter.unusedSectionVars false

variable {K V : Type} [LinearOrder K] {cfg : Cfg K} {P : FPar} {e : Enc K V}

theorem NImg.leftmost {n : Node K V} {nd : FNode} (h : NImg P e n nd) :
    (nd.inner && !nd.hasLow) = (n.inner && n.low.isNone) := by
  rw [h.inner, h.low.1]; cases n.low <;> rfl

/-! ## Sorting -/

/-- A delta and an entry of the sort array. -/
def DPair (P : FPar) (e : Enc K V) (d : Delta K V) (b : DType × FRec) : Prop := DImg P e d b.1 b.2

theorem bAdd_sim (he : FEncOK cfg P e) {d : Delta K V} {b : DType × FRec} (h : DPair P e d b) :
    ∀ {arr : List (Delta K V)} {barr : List (DType × FRec)}, List.Forall₂ (DPair P e) arr barr →
      List.Forall₂ (DPair P e) (addByInsertionSort d arr) (bAdd P.lt b barr)
  | _, _, .nil => .cons h .nil
  | x :: xs, y :: ys, .cons hxy hr => by
    have h1 : y.2.key = e.key x.key := hxy.key
    have h2 : b.2.key = e.key d.key := h.key
    unfold addByInsertionSort bAdd
    rw [h1, h2, he.lt, he.lt]
    simp only [decide_eq_true_eq]
    split
    · exact .cons hxy (bAdd_sim he h hr)
    · split
      · exact .cons h (.cons hxy hr)
      · exact .cons hxy hr

theorem bSort_sim (he : FEncOK cfg P e) :
    ∀ {ch : Chain K V} {b : BChain} {arr : List (Delta K V)} {barr : List (DType × FRec)}
      {nodes : List (Node K V)} {bnodes : List FNode} {arr' : List (Delta K V)}
      {nodes' : List (Node K V)}, CImg P e ch b → List.Forall₂ (DPair P e) arr barr →
      List.Forall₂ (NImg P e) nodes bnodes → dcSort arr nodes ch = some (arr', nodes') →
      ∃ barr' bnodes', bSort P.lt barr bnodes b = some (barr', bnodes') ∧
        List.Forall₂ (DPair P e) arr' barr' ∧ List.Forall₂ (NImg P e) nodes' bnodes'
  | .base n, .base nd, arr, barr, nodes, bnodes, _, _, hi, ha, hn, hs => by
    cases hs
    exact ⟨_, _, rfl, ha, forall₂_snoc hn hi⟩
  | .delta d nx, .delta ty r nd b, arr, barr, nodes, bnodes, _, _, hi, ha, hn, hs => by
    obtain ⟨h1, h2, _, h3⟩ := hi
    have hty : ty = d.ty := h1.ty
    unfold dcSort at hs
    unfold bSort
    subst hty
    cases ht : d.ty with
    | merge =>
      simp only [ht] at hs ⊢
      cases hp : d.pay with
      | node n =>
        simp only [hp] at hs
        obtain ⟨nd, e1, e2⟩ := h2 n hp
        subst e1
        simp only
        exact bSort_sim he h3 ha (forall₂_snoc hn e2) hs
      | val v => simp only [hp] at hs; cases hs
      | child p => simp only [hp] at hs; cases hs
      | cell p => simp only [hp] at hs; cases hs
      | none => simp only [hp] at hs; cases hs
    | insert => simp only [ht] at hs ⊢; exact bSort_sim he h3 (bAdd_sim he (b := (_, r)) (ht ▸ h1) ha) hn hs
    | modify => simp only [ht] at hs ⊢; exact bSort_sim he h3 (bAdd_sim he (b := (_, r)) (ht ▸ h1) ha) hn hs
    | delete => simp only [ht] at hs ⊢; exact bSort_sim he h3 (bAdd_sim he (b := (_, r)) (ht ▸ h1) ha) hn hs
  | .removed _, _, _, _, _, _, _, _, _, _, _, hs => by cases hs
  | .base _, .removed _, _, _, _, _, _, _, hi, _, _, _ => hi.elim
  | .base _, .delta .., _, _, _, _, _, _, hi, _, _, _ => hi.elim
  | .delta .., .removed _, _, _, _, _, _, _, hi, _, _, _ => hi.elim
  | .delta .., .base _, _, _, _, _, _, _, hi, _, _, _ => hi.elim

/-! ## The copy sequence -/

/-- Record `i` of the node is this one. -/
def RecImg (P : FPar) (e : Enc K V) (nd : FNode) (r : K × Pay V) (i : Nat) : Prop :=
  nd.pg.key P.c i = e.key r.1 ∧ nd.pg.pay P.c (e.pay r.2).length i = e.pay r.2

/-- A copy of the model and a copy of bytes. -/
def CopyImg (P : FPar) (e : Enc K V) : Copy K V → BCopy → Prop
  | .first r, .node nd i => nd.pg.pay P.c (e.pay r.2).length i = e.pay r.2
  | .node r, .node nd i => RecImg P e nd r i
  | .delta d, .delta b => DPair P e d b
  | _, _ => False

theorem deltas_sim {arr : List (Delta K V)} {barr : List (DType × FRec)}
    (h : List.Forall₂ (DPair P e) arr barr) :
    List.Forall₂ (CopyImg P e) (arr.map .delta) (barr.map .delta) := by
  induction h with
  | nil => exact .nil
  | cons h1 _ ih => exact .cons h1 ih

theorem bMerge_sim (he : FEncOK cfg P e) {nd : FNode} :
    ∀ {rs : List (K × Pay V)} {is : List Nat} {arr : List (Delta K V)}
      {barr : List (DType × FRec)},
      List.Forall₂ (RecImg P e nd) rs is →
      List.Forall₂ (DPair P e) arr barr →
      List.Forall₂ (CopyImg P e) (mergeRecs rs arr).1 (bMerge P.lt P.c nd is barr).1 ∧
        List.Forall₂ (DPair P e) (mergeRecs rs arr).2 (bMerge P.lt P.c nd is barr).2
  | _, _, _, _, .nil, ha => ⟨.nil, ha⟩
  | r :: rs, i :: is, arr, barr, .cons hr hrs, ha => by
    have hk : nd.pg.key P.c i = e.key r.1 := hr.1
    have hpq : ∀ (a : Delta K V) (b : DType × FRec), DPair P e a b →
        decide (a.key < r.1) = P.lt b.2.key (nd.pg.key P.c i) := by
      intro a b h
      rw [hk, h.key, he.lt]
    have h1 := forall₂_takeWhile hpq ha
    have h2 := forall₂_dropWhile hpq ha
    unfold mergeRecs bMerge
    simp only
    revert h2
    generalize arr.dropWhile (fun a => decide (a.key < r.1)) = rest
    generalize barr.dropWhile (fun b => P.lt b.2.key (nd.pg.key P.c i)) = brest
    intro h2
    cases h2 with
    | nil =>
      simp only
      have ih := bMerge_sim he hrs (.nil : List.Forall₂ (DPair P e) [] [])
      exact ⟨forall₂_append (deltas_sim h1) (.cons hr ih.1), ih.2⟩
    | cons hd hrest =>
      rename_i d b l l'
      simp only
      have hc : P.lt (nd.pg.key P.c i) b.2.key = decide (r.1 < d.key) := by rw [hk, hd.key, he.lt]
      rw [hc]
      by_cases hlt : r.1 < d.key
      · simp only [hlt, decide_true, Bool.not_true, Bool.false_eq_true, if_false]
        have ih := bMerge_sim he hrs (.cons hd hrest)
        exact ⟨forall₂_append (deltas_sim h1) (.cons hr ih.1), ih.2⟩
      · simp only [hlt, decide_false, Bool.not_false, if_true]
        have ih := bMerge_sim he hrs hrest
        exact ⟨forall₂_append (deltas_sim h1) (.cons hd ih.1), ih.2⟩

theorem bCopySeq_sim (he : FEncOK cfg P e) :
    ∀ {ns : List (Node K V)} {ps : List FNode} {arr : List (Delta K V)}
      {barr : List (DType × FRec)} {seq : List (Copy K V)}, List.Forall₂ (NImg P e) ns ps →
      List.Forall₂ (DPair P e) arr barr → copySeq ns arr = some seq →
      ∃ bseq, bCopySeq P.lt P.c ps barr = some bseq ∧ List.Forall₂ (CopyImg P e) seq bseq
  | _, _, arr, barr, seq, .nil, ha, hs => by
    cases hs
    exact ⟨_, rfl, deltas_sim ha⟩
  | n :: ns, nd :: ps, arr, barr, seq, .cons hn hns, ha, hs => by
    unfold copySeq at hs
    unfold bCopySeq
    rw [hn.leftmost]
    by_cases hl : (n.inner && n.low.isNone) = true
    · rw [if_pos hl] at hs ⊢
      have hl' : n.inner = true ∧ n.low = none := by simpa using hl
      cases hr : n.recs with
      | nil => simp only [hr] at hs; cases hs
      | cons r rs =>
        simp only [hr] at hs
        have hcnt : nd.pg.cnt = rs.length + 1 := by rw [hn.cnt, hr]; rfl
        rw [if_neg (by omega), hcnt, Nat.add_sub_cancel]
        have hrs : List.Forall₂ (RecImg P e nd) rs
            (List.range' 1 rs.length) := by
          apply forall₂_range'
          intro i hi
          have h1 := hn.keys (i + 1) (by rw [hr]; simpa using hi) (by simp)
          have h2 := hn.pays (i + 1) (by rw [hr]; simpa using hi)
          simp only [hr, List.getElem_cons_succ] at h1 h2
          rw [Nat.add_comm 1]
          exact ⟨h1, h2⟩
        obtain ⟨m1, m2⟩ := bMerge_sim he hrs ha
        rw [Option.map_eq_some_iff] at hs
        obtain ⟨l, h1, h2⟩ := hs
        obtain ⟨bl, h3, h4⟩ := bCopySeq_sim he hns m2 h1
        refine ⟨_, congrArg (Option.map _) h3, ?_⟩
        subst h2
        refine .cons ?_ (forall₂_append m1 h4)
        have := hn.pays 0 (by rw [hr]; simp)
        simp only [hr, List.getElem_cons_zero] at this
        exact this
    · rw [if_neg hl] at hs ⊢
      have hrs : List.Forall₂ (RecImg P e nd) n.recs
          (List.range' 0 nd.pg.cnt) := by
        rw [hn.cnt]
        apply forall₂_range'
        intro i hi
        rw [Nat.zero_add]
        exact ⟨hn.keys i hi fun h => hl (by simp [h.1, h.2.1]), hn.pays i hi⟩
      obtain ⟨m1, m2⟩ := bMerge_sim he hrs ha
      rw [Option.map_eq_some_iff] at hs
      obtain ⟨l, h1, h2⟩ := hs
      obtain ⟨bl, h3, h4⟩ := bCopySeq_sim he hns m2 h1
      refine ⟨_, congrArg (Option.map _) h3, ?_⟩
      subst h2
      exact forall₂_append m1 h4

/-! ## Copying -/

/-- The bytes a copy adds to the new node; the key of the first record of a leftmost index node is
not determined. -/
def Copy.enc (e : Enc K V) : Copy K V → Option (Option Str × Str)
  | .first r => some (none, e.pay r.2)
  | .node r => some (some (e.key r.1), e.pay r.2)
  | .delta d => if d.ty = .delete then none else d.toRec.map fun r => (some (e.key d.key), e.pay r.2)

/-- Key (if determined) and payload are these bytes. -/
def KP (c : FCfg) (a : Option Str × Str) (b : Str × Str) : Prop :=
  (∀ k, a.1 = some k → b.1 = k) ∧ b.1.length = c.klen ∧ b.2 = a.2

theorem CopyImg.val (he : FEncOK cfg P e) {plen : Nat} {x : Copy K V} {b : BCopy}
    (h : CopyImg P e x b) (hw : ∀ kp, Copy.enc e x = some kp → kp.2.length = plen)
    (hg : x.Good) :
    (Copy.enc e x = none ∧ b.val P.c plen = none) ∨
      ∃ kp kp', Copy.enc e x = some kp ∧ b.val P.c plen = some kp' ∧ KP P.c kp kp' := by
  cases x with
  | first r =>
    cases b with
    | delta d => exact h.elim
    | node nd i =>
      have h1 : _ = _ := hw _ rfl
      have h : nd.pg.pay P.c (e.pay r.2).length i = e.pay r.2 := h
      refine Or.inr ⟨_, _, rfl, rfl, (fun k hk => by cases hk), Layout.Mem.length_read _ _ _, ?_⟩
      simp only at h1
      simp only; rw [← h1]; exact h
  | node r =>
    cases b with
    | delta d => exact h.elim
    | node nd i =>
      have h1 : _ = _ := hw _ rfl
      refine Or.inr ⟨_, _, rfl, rfl, fun k hk => ?_, Layout.Mem.length_read _ _ _, ?_⟩
      · cases hk; exact h.1
      · simp only at h1
        simp only; rw [← h1]; exact h.2
  | delta d =>
    cases b with
    | node nd i => exact h.elim
    | delta d' =>
      have hty : d'.1 = d.ty := h.ty
      by_cases hd : d.ty = .delete
      · exact Or.inl ⟨by simp [Copy.enc, hd], by simp [BCopy.val, hty, hd]⟩
      · obtain ⟨r, hr⟩ := Option.isSome_iff_exists.1 (hg hd)
        have henc : Copy.enc e (.delta d) = some (some (e.key d.key), e.pay r.2) := by
          simp [Copy.enc, hd, hr]
        have h1 : _ = _ := hw _ henc
        simp only at h1
        have hk : d'.2.key = e.key d.key := h.key
        refine Or.inr ⟨_, (d'.2.key, d'.2.mem.read P.c.keys plen), henc, by simp [BCopy.val, hty, hd],
          fun k hk' => ?_, ?_, ?_⟩
        · cases hk'; exact hk
        · simp only; rw [hk]; exact he.key _
        · have := h.cell r hd hr
          simp only; rw [← he.blk, ← h1]; exact this

theorem vals_sim (he : FEncOK cfg P e) {plen : Nat} {seq : List (Copy K V)} {bseq : List BCopy}
    (h : List.Forall₂ (CopyImg P e) seq bseq)
    (hw : ∀ x ∈ seq, ∀ kp, Copy.enc e x = some kp → kp.2.length = plen)
    (hg : ∀ x ∈ seq, x.Good) :
    List.Forall₂ (KP P.c) (seq.filterMap (Copy.enc e)) (bseq.filterMap (BCopy.val P.c plen)) := by
  induction h with
  | nil => exact .nil
  | cons h1 _ ih =>
    have ih := ih (fun y hy => hw y (List.mem_cons_of_mem _ hy))
      (fun y hy => hg y (List.mem_cons_of_mem _ hy))
    rcases h1.val he (hw _ (List.mem_cons_self ..)) (hg _ (List.mem_cons_self ..)) with
      ⟨e1, e2⟩ | ⟨kp, kp', e1, e2, e3⟩
    · rw [List.filterMap_cons_none e1, List.filterMap_cons_none e2]; exact ih
    · rw [List.filterMap_cons_some e1, List.filterMap_cons_some e2]; exact .cons e3 ih

/-- The copy loop of the model (`st`) and on bytes (`s`): `el`, `er` are the bytes of the records
copied to the left and to the right. -/
structure FillInv (c : FCfg) (plen start : Nat) (sp : Bool) (old old' : Mem)
    (el er : List (Str × Str)) (st : CopySt K V) (s : FSplit) : Prop where
  left : st.switched = false → er = [] ∧ s.left = none ∧
    s.right = (if sp then some (FPage.init c old') else none) ∧
    FHolds c plen start old el s.cur ∧ s.off = start - el.length * plen
  right : st.switched = true → sp = true ∧ s.right = none ∧ ∃ lp, s.left = some lp ∧
    FHolds c plen start old el lp ∧ FHolds c plen c.page old' er s.cur ∧
    s.off = c.page - er.length * plen
  lsz : st.lsz = (c.hdr + el.length * (c.klen + plen) : Nat)
  rsz : st.rsz = (c.hdr + er.length * (c.klen + plen) : Nat)
  lenl : st.l.length = el.length
  lenr : st.r.length = er.length

theorem put_holds {c : FCfg} (hk : c.keys ≤ c.hdr) {plen start : Nat} {old : Mem}
    {rs : List (Str × Str)} {pg : FPage} (h : FHolds c plen start old rs pg)
    {r : Str × Str} (hr1 : r.1.length = c.klen) (hr2 : r.2.length = plen)
    (hfit : c.hdr + (rs ++ [r]).length * (c.klen + plen) ≤ start) (hn : rs.length + 1 < 65536) :
    ∃ pg', pg.put c (start - rs.length * plen) r.1 r.2 =
        some (pg', start - (rs ++ [r]).length * plen) ∧ FHolds c plen start old (rs ++ [r]) pg' := by
  rw [List.length_append] at hfit ⊢
  have hroom := Layout.room (n := rs.length) hk (start := start) (plen := plen) hfit
  have e2 : (rs.length + 1) * plen = rs.length * plen + plen := Nat.succ_mul _ _
  have hle : r.2.length ≤ start - rs.length * plen := by omega
  have heq : start - rs.length * plen - r.2.length = start - (rs.length + 1) * plen := by omega
  have hs := h.snoc hk hr1 hr2 hfit hn (Or.inl rfl)
  refine ⟨_, ?_, hs⟩
  rw [FPage.put, if_pos hle, heq]
  rfl

theorem FEncOK.count (he : FEncOK cfg P e) (inner : Bool) {n : Nat}
    (h : P.c.hdr + n * (P.c.klen + P.plen inner) ≤ 2 * P.c.page) : n < 65536 := by
  have := he.lim inner
  have h1 : n * (P.c.klen + P.plen inner) < 65536 * (P.c.klen + P.plen inner) := by omega
  exact Nat.lt_of_mul_lt_mul_right h1

theorem FillInv.step (he : FEncOK cfg P e) {inner : Bool} {start : Nat} (hst : start ≤ 2 * P.c.page)
    {sp : Bool} {old old' : Mem} {el er : List (Str × Str)} {st : CopySt K V} {s : FSplit}
    (h : FillInv P.c (P.plen inner) start sp old old' el er st s) {kp : Str × Str}
    (hk1 : kp.1.length = P.c.klen) (hk2 : kp.2.length = P.plen inner)
    {w : Nat} (hw : w = P.c.klen + P.plen inner) (x : K × Pay V)
    (hl : (copyRec cfg w sp st x).lsz ≤ start) (hr : (copyRec cfg w sp st x).rsz ≤ P.c.page) :
    ∃ s' el' er', s.put P.c kp.1 kp.2 = some s' ∧
      FillInv P.c (P.plen inner) start sp old old' el' er' (copyRec cfg w sp st x) s' ∧
      el' ++ er' = el ++ er ++ [kp] := by
  have h1 := h.lsz
  have h2 := h.rsz
  have hsn : ∀ l : List (Str × Str), (l ++ [kp]).length * (P.c.klen + P.plen inner) =
      l.length * (P.c.klen + P.plen inner) + (P.c.klen + P.plen inner) := by
    intro l; rw [List.length_append]; exact Nat.succ_mul _ _
  unfold FSplit.put
  unfold copyRec at hl hr ⊢
  by_cases hs : st.switched = true
  · rw [if_pos hs] at hl hr ⊢
    obtain ⟨g1, g2, lp, g3, g4, g5, g6⟩ := h.right hs
    have hu := hsn er
    simp only at hl hr
    have hfit : P.c.hdr + (er ++ [kp]).length * (P.c.klen + P.plen inner) ≤ P.c.page := by omega
    obtain ⟨pg', k1, k2⟩ := put_holds he.keys g5 hk1 hk2 hfit (by
      have := he.count inner (n := (er ++ [kp]).length) (by omega)
      simpa using this)
    rw [g6, k1]
    refine ⟨⟨pg', P.c.page - (er ++ [kp]).length * P.plen inner, none, some lp⟩, el, er ++ [kp],
      by rw [Option.map_some, g2, g3], ?_, by simp⟩
    refine ⟨fun h' => ?_, fun _ => ⟨g1, rfl, lp, rfl, g4, k2, rfl⟩, h1, ?_, h.lenl, ?_⟩
    · simp only at h'; rw [hs] at h'; cases h'
    · simp only; rw [h2]; omega
    · simp only [List.length_append, h.lenr, List.length_singleton]
  · rw [if_neg hs] at hl hr ⊢
    have hs' : st.switched = false := by simpa using hs
    obtain ⟨g1, g2, g3, g4, g5⟩ := h.left hs'
    have hu := hsn el
    simp only at hl hr
    have hfit : P.c.hdr + (el ++ [kp]).length * (P.c.klen + P.plen inner) ≤ start := by omega
    obtain ⟨pg', k1, k2⟩ := put_holds he.keys g4 hk1 hk2 hfit (by
      have := he.count inner (n := (el ++ [kp]).length) (by omega)
      simpa using this)
    rw [g5, k1]
    subst g1
    have hsz := k2.size
    have hcond : (((cfg.page - cfg.hdr) / 2 : Int) < st.lsz + w) ↔
        (P.c.page - P.c.hdr) / 2 < pg'.size := by
      have := he.room
      rw [hsz, h1, he.page, he.hdr]
      omega
    cases sp with
    | false =>
      refine ⟨⟨pg', start - (el ++ [kp]).length * P.plen inner, none, none⟩, el ++ [kp], [],
        by rw [Option.map_some, g3, g2]; rfl, ?_, by simp⟩
      refine ⟨fun _ => ⟨rfl, rfl, rfl, k2, rfl⟩, fun h' => ?_, ?_, h2, ?_, h.lenr⟩
      · simp at h'
      · simp only; rw [h1]; omega
      · simp only [List.length_append, h.lenl, List.length_singleton]
    | true =>
      by_cases hsw : (P.c.page - P.c.hdr) / 2 < pg'.size
      · refine ⟨⟨FPage.init P.c old', P.c.page, none, some pg'⟩, el ++ [kp], [],
          by rw [Option.map_some, g3]; exact congrArg some (if_pos hsw), ?_, by simp⟩
        refine ⟨fun h' => ?_, fun _ => ⟨rfl, rfl, pg', rfl, k2, FHolds.init, by simp⟩, ?_, h2, ?_,
          h.lenr⟩
        · simp only [Bool.true_and, decide_eq_false_iff_not] at h'
          exact absurd (hcond.2 hsw) h'
        · simp only; rw [h1]; omega
        · simp only [List.length_append, h.lenl, List.length_singleton]
      · refine ⟨⟨pg', start - (el ++ [kp]).length * P.plen inner, some (FPage.init P.c old'), none⟩,
          el ++ [kp], [], by rw [Option.map_some, g3, g2]; exact congrArg some (if_neg hsw), ?_,
          by simp⟩
        refine ⟨fun _ => ⟨rfl, rfl, rfl, k2, rfl⟩, fun h' => ?_, ?_, h2, ?_, h.lenr⟩
        · simp only [Bool.true_and, decide_eq_true_eq] at h'
          exact absurd (hcond.1 h') hsw
        · simp only; rw [h1]; omega
        · simp only [List.length_append, h.lenl, List.length_singleton]

theorem fill_sim (he : FEncOK cfg P e) {inner : Bool} {start : Nat} (hst : start ≤ 2 * P.c.page)
    {sp : Bool} {old old' : Mem} {len : Nat} (hlen : len = P.c.klen + P.plen inner) :
    ∀ {seq : List (Copy K V)} {bseq : List BCopy} {el er : List (Str × Str)}
      {st st' : CopySt K V} {s : FSplit}, List.Forall₂ (CopyImg P e) seq bseq →
      (∀ x ∈ seq, ∀ kp, Copy.enc e x = some kp → kp.2.length = P.plen inner) →
      (∀ x ∈ seq, x.Good) →
      FillInv P.c (P.plen inner) start sp old old' el er st s → copyAll cfg len sp st seq = some st' →
      st'.lsz ≤ start → st'.rsz ≤ P.c.page →
      ∃ s' el' er', FSplit.fill P.c s (bseq.filterMap (BCopy.val P.c (P.plen inner))) = some s' ∧
        FillInv P.c (P.plen inner) start sp old old' el' er' st' s' ∧
        el' ++ er' = el ++ er ++ bseq.filterMap (BCopy.val P.c (P.plen inner))
  | _, _, el, er, st, st', s, .nil, _, _, h, ha, _, _ => by
    cases ha
    exact ⟨s, el, er, rfl, h, by simp⟩
  | x :: seq, b :: bseq, el, er, st, st', s, .cons hx hrest, hw, hg, h, ha, hl, hr => by
    rw [copyAll, Option.bind_eq_some_iff] at ha
    obtain ⟨st1, h1, h2⟩ := ha
    have hm := copyAll_mono h2
    have hw' : ∀ y ∈ seq, ∀ kp, Copy.enc e y = some kp → kp.2.length = P.plen inner :=
      fun y hy => hw y (List.mem_cons_of_mem _ hy)
    have hg' : ∀ y ∈ seq, y.Good := fun y hy => hg y (List.mem_cons_of_mem _ hy)
    have hw0 := hw x (List.mem_cons_self ..)
    have hg0 := hg x (List.mem_cons_self ..)
    -- the model stores a record iff there are bytes to store
    have hst1 : (Copy.enc e x = none → st1 = st) ∧
        (∀ kp, Copy.enc e x = some kp → ∃ r, st1 = copyRec cfg len sp st r) := by
      cases x with
      | first r => cases h1; exact ⟨(fun h => by cases h), fun _ _ => ⟨r, rfl⟩⟩
      | node r =>
        cases h1
        exact ⟨(fun h => by cases h), fun _ _ => ⟨r, by rw [he.klen]; rfl⟩⟩
      | delta d =>
        by_cases hd : d.ty = .delete
        · exact ⟨fun _ => by simpa [copyOne, hd] using h1.symm,
            fun kp hkp => by simp [Copy.enc, hd] at hkp⟩
        · obtain ⟨r, q⟩ := Option.isSome_iff_exists.1 (hg0 hd)
          have e1 : copyOne cfg len sp st (.delta d) =
              (d.toRec).map (copyRec cfg (len + cfg.klen d.key) sp st) := by
            cases ht : d.ty <;> simp_all [copyOne]
          rw [e1, q, he.klen] at h1
          exact ⟨fun h => by simp [Copy.enc, hd, q] at h, fun _ _ => ⟨r, (Option.some.inj h1).symm⟩⟩
    rcases hx.val he hw0 hg0 with ⟨e1, e2⟩ | ⟨kp, kp', e1, e2, e3⟩
    · have := hst1.1 e1
      subst this
      obtain ⟨s2, el2, er2, k4, k5, k6⟩ := fill_sim he hst hlen hrest hw' hg' h h2 hl hr
      rw [List.filterMap_cons_none e2]
      exact ⟨s2, el2, er2, k4, k5, k6⟩
    · obtain ⟨r, hr'⟩ := hst1.2 kp e1
      subst hr'
      obtain ⟨s1, el1, er1, k1, k2, k3⟩ := h.step he hst e3.2.1 (by rw [e3.2.2]; exact hw0 kp e1) hlen r
        (by omega) (by omega)
      obtain ⟨s2, el2, er2, k4, k5, k6⟩ := fill_sim he hst hlen hrest hw' hg' k2 h2 hl hr
      rw [List.filterMap_cons_some e2]
      refine ⟨s2, el2, er2, ?_, k5, ?_⟩
      · rw [FSplit.fill, k1]; exact k4
      · rw [k6, k3]; simp

/-! ## Reading back -/

/-- Keys and payloads that were stored are read back, and lie in the page. -/
theorem holds_read (he : FEncOK cfg P e) {inner : Bool} {q : Nat} (hq : q = 1 ∨ q = 2) {old : Mem}
    {rs : List (Str × Str)} {pg pg' : FPage} (h : FHolds P.c (P.plen inner) (q * P.c.page) old rs pg)
    (hfit : P.c.hdr + rs.length * (P.c.klen + P.plen inner) ≤ q * P.c.page)
    (hmem : pg'.mem = pg.mem) (hlo : (q - 1) * P.c.page < pg'.size) (hhi : pg'.size ≤ q * P.c.page) :
    ∀ i (hi : i < rs.length), pg'.key P.c i = (rs[i]).1 ∧
      pg'.pay P.c (P.plen inner) i = (rs[i]).2 ∧
      P.c.keys + rs.length * P.c.klen ≤ pg'.payAddr P.c (P.plen inner) i ∧
      pg'.payAddr P.c (P.plen inner) i + P.plen inner ≤ q * P.c.page := by
  intro i hi
  obtain ⟨k, hk, hp⟩ := he.pow
  have h1 : (i + 1) * P.plen inner ≤ rs.length * P.plen inner := Nat.mul_le_mul_right _ hi
  have h2 : rs.length * (P.c.klen + P.plen inner) =
      rs.length * P.c.klen + rs.length * P.plen inner := Nat.mul_add _ _ _
  have h3 : (i + 1) * P.plen inner = i * P.plen inner + P.plen inner := Nat.succ_mul _ _
  have h4 : P.plen inner * (i + 1) = (i + 1) * P.plen inner := Nat.mul_comm _ _
  have hkeys := he.keys
  have ha := Layout.payAddr_eq (c := P.c) hp hk (pg := pg') hq hlo hhi (plen := P.plen inner)
    (pos := i) (by omega)
  refine ⟨?_, ?_, ?_, ?_⟩
  · unfold FPage.key; rw [hmem]; exact h.keys i hi
  · unfold FPage.pay; rw [hmem, ha, h4]; exact h.pays i hi
  · omega
  · omega

theorem holds_frame {c : FCfg} {plen start : Nat} {old : Mem} {rs : List (Str × Str)} {pg : FPage}
    (h : FHolds c plen start old rs pg) : Framed c.keys start old pg.mem := by
  rintro a (ha | ha)
  · exact h.head a ha
  · exact h.rest a ha

end BwTree.Fix
