import Verif.Bytes.VarBulk
import Verif.Bytes.VarSim
import Verif.Fix.BulkSim

/-!
# Bulkload on the bytes of variable-length pages does what it does in the model (proofs)
-/

namespace BwTree.Bytes

open Layout
open Fix (encE chE EntOK AllLow forall₂_weaken bulkShares_map bulkShares_mem)

set_option linter.unusedSectionVars false

variable {K V : Type} [LinearOrder K] {cfg : Cfg K} {e : Enc K V} {P : VPar} {mem : PID → Mem}

/-- The constants agree, and no key is longer than the maximum. -/
structure BulkPar (cfg : Cfg K) (e : Enc K V) (P : VPar) : Prop where
  lay : LayPar cfg e P
  keys : ∀ k, cfg.klen k ≤ cfg.maxKey
  pos : 0 < cfg.maxKey

/-- A page holds the node; the records leave room for a highest key. -/
structure VNR (mk : Nat) (P : VPar) (e : Enc K V) (mem : PID → Mem) (p : PID) (n : Node K V)
    (pg : VPage) : Prop where
  img : NImg P.c e n pg
  box : pg.InPage P.c P.c.page
  room : ∀ i, i < pg.cnt → Inside (pg.rmeta P.c i) (P.c.hdr + pg.cnt * metaLen) (P.c.page - mk)
  low : n.low ≠ none → Inside pg.low (P.c.hdr + pg.cnt * metaLen) (P.c.page - mk)
  frame : Framed P.c.hdr P.c.page (mem p) pg.mem
  ne : n.recs ≠ []
  ent : ∀ x ∈ n.recs, EntOK (256 ^ P.pid) n.inner x

theorem VNR.cnt_pos {mk : Nat} {p : PID} {n : Node K V} {pg : VPage} (h : VNR mk P e mem p n pg) :
    0 < pg.cnt := by
  rw [h.img.cnt]; exact List.length_pos_iff.2 h.ne

theorem VNR.meta_le {mk : Nat} {p : PID} {n : Node K V} {pg : VPage} (h : VNR mk P e mem p n pg) :
    P.c.hdr + pg.cnt * metaLen ≤ P.c.page - mk := by
  obtain ⟨h1, h2⟩ := h.room 0 h.cnt_pos
  omega

/-! ## One node -/

theorem encE_len (he : EncOK cfg P.c P.lt e) {inner : Bool} {x : K × Pay V} (h : PayOK inner x.2) :
    (encE e x).1.length + (encE e x).2.length + metaLen = cfg.entLen inner x.1 := by
  have h1 := he.paylen h
  have h2 := he.klen x.1
  have hm : metaLen = 8 := rfl
  unfold Cfg.entLen
  show (e.key x.1).length + (e.pay x.2).length + metaLen = _
  omega

theorem bulkCount_sim (he : EncOK cfg P.c P.lt e) {inner : Bool} : ∀ (es : List (K × Pay V)) (sz : Nat),
    (∀ x ∈ es, PayOK inner x.2) →
      (bulkTake cfg inner sz es).1 = es.take (bulkCount P.bulkCap sz (es.map (encE e))) ∧
      (bulkTake cfg inner sz es).2 = es.drop (bulkCount P.bulkCap sz (es.map (encE e)))
  | [], sz, _ => by simp [bulkTake]
  | x :: xs, sz, h => by
    have hcap : P.bulkCap = cfg.bulkCap := by unfold VPar.bulkCap Cfg.bulkCap; rw [he.page]
    obtain ⟨i1, i2⟩ := bulkCount_sim he xs (sz + cfg.entLen inner x.1)
      fun y hy => h y (List.mem_cons_of_mem _ hy)
    have hl := encE_len he (h x List.mem_cons_self)
    rw [bulkTake, List.map_cons, bulkCount]
    simp only [hl]
    by_cases hc : sz + cfg.entLen inner x.1 > cfg.bulkCap
    · rw [if_pos hc, if_pos (by rw [hcap]; exact hc)]
      simp
    · rw [if_neg hc, if_neg (by rw [hcap]; exact hc)]
      simp [i1, i2]

theorem used_encE (he : EncOK cfg P.c P.lt e) {inner : Bool} : ∀ (es : List (K × Pay V)),
    (∀ x ∈ es, PayOK inner x.2) →
      (es.map (encE e)).length * metaLen + total (es.map (encE e)) = cfg.recsLen inner es
  | [], _ => rfl
  | x :: xs, h => by
    have ih := used_encE he xs fun y hy => h y (List.mem_cons_of_mem _ hy)
    have hl := encE_len he (h x List.mem_cons_self)
    rw [Cfg.recsLen_cons, ← ih, ← hl, List.map_cons, List.length_cons, total, Nat.succ_mul]
    omega

/-- `Node::Bulkload` fills a page with the node of the model. -/
theorem loaded_vnr (hb : BulkPar cfg e P) {inner : Bool} {p : PID} {es rest : List (K × Pay V)}
    {x : K × Pay V} {xs : List (K × Pay V)}
    (ht : bulkTake cfg inner (cfg.hdr + cfg.bulkRes inner) es = (x :: xs, rest))
    (hk : ∀ y ∈ es, EntOK (256 ^ P.pid) inner y) :
    ∃ pg, VPage.bulkload P.c cfg.maxKey P.bulkCap (mem p) inner (es.map (encE e)) =
        some (pg, rest.map (encE e)) ∧
      VNR cfg.maxKey P e mem p { inner := inner, low := some x.1, high := none, next := 0, recs := x :: xs
                                 size := (cfg.bulkSize inner (some x.1) (x :: xs) none : Nat) } pg := by
  have he := hb.lay.enc
  have hpage := he.page
  have hhdr := he.hdr
  have hlim := he.lim
  obtain ⟨c1, c2⟩ := bulkCount_sim he es (cfg.hdr + cfg.bulkRes inner) fun y hy => (hk y hy).1
  obtain ⟨t1, t2, _⟩ := bulkTake_spec (cfg := cfg) inner es (cfg.hdr + cfg.bulkRes inner)
  rw [ht] at c1 c2 t1 t2
  simp only at c1 c2 t1 t2
  have t2 := t2 (by simp)
  have hmem : ∀ z ∈ x :: xs, z ∈ es := fun z hz => t1 ▸ List.mem_append_left _ hz
  have hu := used_encE he (x :: xs) fun y hy => (hk y (hmem y hy)).1
  have hcap : cfg.bulkCap ≤ cfg.page := by unfold Cfg.bulkCap; omega
  have hres : cfg.maxKey ≤ cfg.bulkRes inner := Nat.le_add_right _ _
  have hres2 : P.c.hdr + cfg.maxKey + (if inner then 1 else 0) * cfg.maxKey = cfg.hdr + cfg.bulkRes inner := by
    unfold Cfg.bulkRes
    cases inner <;> simp <;> omega
  have hlen : ((x :: xs).map (encE e)).length < 65536 := by
    have : ((x :: xs).map (encE e)).length * 1 ≤ ((x :: xs).map (encE e)).length * metaLen :=
      Nat.mul_le_mul_left _ (by decide)
    omega
  obtain ⟨p1, h1, h2⟩ := vfill_holds (c := P.c) (start := P.c.page - cfg.maxKey)
    ((x :: xs).map (encE e)) [] (VPage.init P.c (mem p) inner) (VHolds.init rfl rfl)
    (by simp only [List.length_nil, Nat.zero_add, List.nil_append]; omega)
    (by simpa using hlen)
  simp only [total, Nat.sub_zero, List.nil_append] at h1 h2
  have hfit : P.c.hdr + used ((x :: xs).map (encE e)) ≤ P.c.page - cfg.maxKey := by
    show P.c.hdr + (_ * metaLen + total _) ≤ _
    omega
  have hat : ∀ i (hi : i < ((x :: xs).map (encE e)).length), _ := fun i hi =>
    h2.recAt (by omega) hfit hi
  have hcnt : p1.cnt = (x :: xs).length := by rw [h2.cnt, List.length_map]
  have hbox : ∀ i, i < p1.cnt →
      Inside (p1.rmeta P.c i) (P.c.hdr + p1.cnt * metaLen) (P.c.page - cfg.maxKey) := by
    intro i hi
    rw [h2.cnt] at hi ⊢
    obtain ⟨g1, g2, g3, g4⟩ := hat i hi
    have hr := g1.2.1
    refine ⟨?_, ?_⟩
    · rw [g2]
      have : used ((x :: xs).map (encE e)) = ((x :: xs).map (encE e)).length * metaLen +
        total ((x :: xs).map (encE e)) := rfl
      omega
    · rw [g2, hr]; exact g4
  have h0 : 0 < ((x :: xs).map (encE e)).length := by simp
  obtain ⟨g1, g2, g3, g4⟩ := hat 0 h0
  have hb0 := hbox 0 (by rw [h2.cnt]; exact h0)
  have hk0 : (p1.rmeta P.c 0).keyLen.toNat = (e.key x.1).length := g1.1
  have hlowin : Inside { p1.rmeta P.c 0 with recLen := (p1.rmeta P.c 0).keyLen }
      (P.c.hdr + p1.cnt * metaLen) (P.c.page - cfg.maxKey) := by
    refine ⟨hb0.1, ?_⟩
    have := hb0.2
    have := g1.2.1
    have := g1.1
    show (p1.rmeta P.c 0).offset.toNat + (p1.rmeta P.c 0).keyLen.toNat ≤ _
    omega
  have hwide : ∀ {m : Util.Metadata} {a : Nat}, Inside m a (P.c.page - cfg.maxKey) → Inside m a P.c.page :=
    fun h => ⟨h.1, by have := h.2; omega⟩
  refine ⟨{ p1 with low := { p1.rmeta P.c 0 with recLen := (p1.rmeta P.c 0).keyLen }
                    size := p1.size + (if inner then 1 else 0) * (p1.rmeta P.c 0).keyLen.toNat }, ?_, ?_⟩
  · unfold VPage.bulkload
    simp only [hres2]
    rw [← List.map_take, ← c1, ← List.map_drop, ← c2, h1, Option.map_some]
  · refine ⟨⟨h2.inner, hcnt, ?_, ?_, ?_, ?_, h2.next⟩, ⟨fun i hi => hwide (hbox i hi), hwide hlowin, ?_⟩,
      hbox, fun _ => hlowin, ?_, List.cons_ne_nil _ _, fun z hz => hk z (hmem z hz)⟩
    · show ((p1.size + (if inner then 1 else 0) * (p1.rmeta P.c 0).keyLen.toNat : Nat) : Int) = _
      rw [h2.size, hk0, hu]
      simp only [Cfg.bulkSize, he.olen]
      show (_ : Int) = ((cfg.hdr + cfg.recsLen inner (x :: xs) +
        (if inner then (e.key x.1).length else 0) + 0 : Nat) : Int)
      cases inner <;> simp <;> omega
    · intro i hi
      have hi' : i < ((x :: xs).map (encE e)).length := by rw [List.length_map]; exact hi
      have := (hat i hi').1
      rw [List.getElem_map] at this
      show RecAt p1.mem (p1.rmeta P.c i) (if inner = true ∧ some x.1 = none ∧ i = 0 then []
        else e.key ((x :: xs)[i]).1) (e.pay ((x :: xs)[i]).2)
      rw [if_neg (by simp)]
      exact this
    · refine RecAt.mk hk0 hk0 ?_ rfl
      exact g1.split.1
    · show RecAt p1.mem p1.high [] []
      rw [h2.high]
      exact ⟨rfl, rfl, rfl⟩
    · show Inside p1.high _ _
      rw [h2.high]
      have i1 := hb0.1
      have i2 := hb0.2
      refine inside_mk (by omega) (by omega) ?_ (by omega)
      show P.c.hdr + p1.cnt * metaLen ≤ _
      omega
    · intro a ha
      show p1.mem a = _
      rcases ha with ha | ha
      · exact h2.head a ha
      · exact h2.rest a (by omega)

/-- `LinkNext`. -/
theorem vLink_vnr (hb : BulkPar cfg e P) {l r : PID} {ln rn : Node K V} {bl br : VPage}
    (h1 : VNR cfg.maxKey P e mem l ln bl) (h2 : NImg P.c e rn br) :
    VNR cfg.maxKey P e mem l { ln with next := r, high := rn.low, size := ln.size + cfg.olen rn.low }
      (vLink P bl r br) := by
  have he := hb.lay.enc
  have hlim := he.lim
  have hm := h1.meta_le
  have hkey : br.border br.low = e.opt rn.low := h2.low.key
  have hlen : (e.opt rn.low).length ≤ cfg.maxKey := by
    rw [← he.olen]
    cases rn.low with
    | none => exact Nat.zero_le _
    | some k => exact hb.keys k
  have hle : (e.opt rn.low).length ≤ P.c.page := by
    have : 1 * metaLen ≤ bl.cnt * metaLen := Nat.mul_le_mul_right _ h1.cnt_pos
    have hml : metaLen = 8 := rfl
    omega
  have hw : ∀ a, a < P.c.page - cfg.maxKey →
      (bl.mem.write (P.c.page - (e.opt rn.low).length) (e.opt rn.low)) a = bl.mem a :=
    fun a ha => Mem.write_apply_of_lt (by omega)
  have hmeta : ∀ i, i < bl.cnt → (vLink P bl r br).rmeta P.c i = bl.rmeta P.c i := by
    intro i hi
    refine rmeta_congr hi fun a _ ha => ?_
    show (bl.mem.write (P.c.page - (br.border br.low).length) (br.border br.low)) a = _
    rw [hkey]
    exact hw a (by omega)
  obtain ⟨⟨a1, a2, a3, a4, a5, a6, a7⟩, ⟨b1, b2, b3⟩, c1, c2, c3, c4, c5⟩ := h1
  have hmem : (vLink P bl r br).mem =
      bl.mem.write (P.c.page - (e.opt rn.low).length) (e.opt rn.low) := by
    show bl.mem.write (P.c.page - (br.border br.low).length) (br.border br.low) = _
    rw [hkey]
  have hhigh : (vLink P bl r br).high = Util.Metadata.mk' (P.c.page - (e.opt rn.low).length)
      (e.opt rn.low).length (e.opt rn.low).length := by
    show Util.Metadata.mk' (P.c.page - (br.border br.low).length) (br.border br.low).length
      (br.border br.low).length = _
    rw [hkey]
  have hsize : (vLink P bl r br).size = bl.size + (e.opt rn.low).length := by
    show bl.size + (br.border br.low).length = _
    rw [hkey]
  refine ⟨⟨a1, a2, ?_, ?_, ?_, ?_, rfl⟩, ⟨?_, b2, ?_⟩, ?_, c2, ?_, c4, c5⟩
  · show (((vLink P bl r br).size : Nat) : Int) = ln.size + (cfg.olen rn.low : Nat)
    rw [hsize, he.olen, ← a3]; push_cast; rfl
  · intro i hi
    rw [hmeta i (by rw [a2]; exact hi), hmem]
    refine (a4 i hi).congr fun a _ ha => hw a ?_
    have := (c1 i (by rw [a2]; exact hi)).2
    omega
  · show RecAt (vLink P bl r br).mem bl.low (e.opt ln.low) []
    rw [hmem]
    refine a5.congr fun a ha1 ha2 => hw a ?_
    cases hl : ln.low with
    | none =>
      have := a5.2.1
      rw [hl] at this
      have h0 : bl.low.recLen.toNat = 0 := this
      omega
    | some k =>
      have := (c2 (by rw [hl]; exact Option.some_ne_none _)).2
      omega
  · rw [hmem, hhigh]
    exact RecAt.fresh (by omega) (by omega)
  · intro i hi
    have hi : i < bl.cnt := hi
    rw [hmeta i hi]
    exact b1 i hi
  · rw [hhigh]
    refine inside_mk (by omega) (by omega) ?_ (by omega)
    show P.c.hdr + bl.cnt * metaLen ≤ _
    omega
  · intro i hi
    have hi : i < bl.cnt := hi
    rw [hmeta i hi]
    exact c1 i hi
  · rw [hmem]
    refine c3.write ?_ (by omega)
    omega

/-- The lowest key of a leaf is removed. -/
theorem dropLow_vnr (hb : BulkPar cfg e P) {p : PID} {n : Node K V} {pg : VPage}
    (h : VNR cfg.maxKey P e mem p n pg) (hl : n.inner = false) :
    VNR cfg.maxKey P e mem p { n with low := none } { pg with low := Util.Metadata.mk' P.c.page 0 0 } := by
  have hlim := hb.lay.enc.lim
  have hm := h.meta_le
  obtain ⟨⟨a1, a2, a3, a4, a5, a6, a7⟩, ⟨b1, b2, b3⟩, c1, c2, c3, c4, c5⟩ := h
  refine ⟨⟨a1, a2, a3, fun i hi => ?_, ⟨rfl, rfl, rfl⟩, a6, a7⟩, ⟨b1, ?_, b3⟩, c1, fun h => absurd rfl h, c3,
    c4, c5⟩
  · have := a4 i hi
    rw [if_neg (by rw [hl]; simp)] at this ⊢
    exact this
  · refine inside_mk (by omega) (by omega) ?_ (by omega)
    show P.c.hdr + pg.cnt * metaLen ≤ _
    omega

/-- The lowest key of an index node and the key of its first record are removed. -/
theorem dropKey_vnr (hb : BulkPar cfg e P) {p : PID} {n : Node K V} {pg : VPage}
    (h : VNR cfg.maxKey P e mem p n pg) (hl : n.inner = true) :
    VNR cfg.maxKey P e mem p { n with low := none }
      (vDropKey P { pg with low := Util.Metadata.mk' P.c.page 0 0 }) := by
  have hlim := hb.lay.enc.lim
  have hm := h.meta_le
  have hcp := h.cnt_pos
  have hne := List.length_pos_iff.2 h.ne
  obtain ⟨⟨a1, a2, a3, a4, a5, a6, a7⟩, ⟨b1, b2, b3⟩, c1, c2, c3, c4, c5⟩ := h
  have r0 := a4 0 hne
  have i0 := c1 0 hcp
  generalize hkey : (if n.inner = true ∧ n.low = none ∧ (0 : Nat) = 0 then [] else e.key (n.recs[0]).1) = k0 at r0
  obtain ⟨q1, q2, q3⟩ := r0
  have hml : metaLen = 8 := rfl
  have h1cnt : 1 * metaLen ≤ pg.cnt * metaLen := Nat.mul_le_mul_right _ hcp
  generalize hm' : Util.Metadata.mk' ((pg.rmeta P.c 0).offset.toNat + (pg.rmeta P.c 0).keyLen.toNat) 0
    ((pg.rmeta P.c 0).recLen.toNat - (pg.rmeta P.c 0).keyLen.toNat) = m'
  have e1 : m'.offset.toNat = (pg.rmeta P.c 0).offset.toNat + (pg.rmeta P.c 0).keyLen.toNat := by
    rw [← hm']; exact mk'_offset (by have := i0.2; omega)
  have e2 : m'.keyLen.toNat = 0 := by rw [← hm']; rfl
  have e3 : m'.recLen.toNat = (e.pay (n.recs[0]).2).length := by
    rw [← hm', mk'_recLen (by have := i0.2; omega)]; omega
  have hel : (encMeta m').length = 8 := rfl
  have hw : ∀ a, P.c.hdr + 8 ≤ a → (pg.mem.write P.c.hdr (encMeta m')) a = pg.mem a :=
    fun a ha => Mem.write_apply_of_ge (by omega)
  have hpg : vDropKey P { pg with low := Util.Metadata.mk' P.c.page 0 0 } =
      { pg with low := Util.Metadata.mk' P.c.page 0 0, mem := pg.mem.write P.c.hdr (encMeta m') } := by
    unfold vDropKey
    rw [← hm']
    rfl
  have hmeta0 : VPage.rmeta P.c { pg with low := Util.Metadata.mk' P.c.page 0 0, mem := pg.mem.write P.c.hdr (encMeta m') } 0 = m' := by
    show decMeta (fun i => (pg.mem.write P.c.hdr (encMeta m')) (P.c.hdr + 0 * metaLen + i)) = m'
    rw [Nat.zero_mul, Nat.add_zero]
    exact decMeta_write
  have hmetaS : ∀ i, i ≠ 0 → VPage.rmeta P.c { pg with low := Util.Metadata.mk' P.c.page 0 0, mem := pg.mem.write P.c.hdr (encMeta m') } i = pg.rmeta P.c i := by
    intro i hi
    have : 1 * metaLen ≤ i * metaLen := Nat.mul_le_mul_right _ (Nat.pos_of_ne_zero hi)
    exact decMeta_congr fun j _ => hw _ (by omega)
  have hin0 : Inside m' (P.c.hdr + pg.cnt * metaLen) (P.c.page - cfg.maxKey) := by
    obtain ⟨j1, j2⟩ := i0
    refine ⟨by omega, by omega⟩
  have hroom : ∀ i, i < pg.cnt → Inside (VPage.rmeta P.c { pg with low := Util.Metadata.mk' P.c.page 0 0, mem := pg.mem.write P.c.hdr (encMeta m') } i) (P.c.hdr + pg.cnt * metaLen) (P.c.page - cfg.maxKey) := by
    intro i hi
    by_cases h0 : i = 0
    · subst h0; rw [hmeta0]; exact hin0
    · rw [hmetaS i h0]; exact c1 i hi
  rw [hpg]
  refine ⟨⟨a1, a2, a3, fun i hi => ?_, ⟨rfl, rfl, rfl⟩, ?_, a7⟩, ⟨fun i hi => ?_, ?_, b3⟩, hroom,
    fun h => absurd rfl h, ?_, c4, c5⟩
  · by_cases h0 : i = 0
    · subst h0
      rw [hmeta0, if_pos ⟨hl, rfl, rfl⟩]
      refine RecAt.mk e2 (by rw [e3]; exact (Nat.zero_add _).symm) rfl ?_
      rw [List.length_nil, Nat.add_zero]
      have hr := (show RecAt pg.mem (pg.rmeta P.c 0) k0 (e.pay (n.recs[0]).2) from ⟨q1, q2, q3⟩).pay
      rw [e1]
      refine Eq.trans ?_ hr
      exact Mem.read_congr fun a ha _ => hw a (by have := i0.1; omega)
    · rw [hmetaS i h0]
      have h4 := a4 i hi
      rw [if_neg (by rintro ⟨_, _, h⟩; exact h0 h)] at h4 ⊢
      refine h4.congr fun a ha _ => hw a ?_
      have := (c1 i (by rw [a2]; exact hi)).1
      omega
  · refine a6.congr fun a ha1 ha2 => hw a ?_
    have := b3.1
    omega
  · obtain ⟨j1, j2⟩ := hroom i hi
    exact ⟨j1, by omega⟩
  · refine inside_mk (by omega) (by omega) ?_ (by omega)
    show P.c.hdr + pg.cnt * metaLen ≤ _
    omega
  · refine c3.write (Nat.le_refl _) ?_
    omega

/-! ## One layer -/

/-- The tables agree. -/
def VTR (mk : Nat) (P : VPar) (e : Enc K V) (mem : PID → Mem) (T : Tbl K V) (bT : VTbl) : Prop :=
  ∀ p, (T p = none ∧ bT p = none) ∨ ∃ n pg, T p = some n ∧ bT p = some pg ∧ VNR mk P e mem p n pg

theorem VTR.get {mk : Nat} {T : Tbl K V} {bT : VTbl} (h : VTR mk P e mem T bT) {p : PID} {pg : VPage}
    (hp : bT p = some pg) : ∃ n, T p = some n ∧ VNR mk P e mem p n pg := by
  rcases h p with ⟨_, h2⟩ | ⟨n, nd', h1, h2, h3⟩
  · rw [h2] at hp; cases hp
  · rw [h2] at hp; cases hp; exact ⟨n, h1, h3⟩

theorem VTR.put {mk : Nat} {T : Tbl K V} {bT : VTbl} (h : VTR mk P e mem T bT) {p : PID} {n : Node K V}
    {pg : VPage} (hn : VNR mk P e mem p n pg) :
    VTR mk P e mem (upd T p (some n)) (upd bT p (some pg)) := by
  intro q
  by_cases hq : q = p
  · subst hq; rw [upd_same, upd_same]; exact Or.inr ⟨n, pg, rfl, rfl, hn⟩
  · rw [upd_ne _ _ hq, upd_ne _ _ hq]; exact h q

/-- A node of a layer and its bytes. -/
def VLR (mk : Nat) (P : VPar) (e : Enc K V) (mem : PID → Mem) (x : PID × Node K V) (y : PID × VPage) :
    Prop :=
  x.1 = y.1 ∧ x.1 < 256 ^ P.pid ∧ VNR mk P e mem x.1 x.2 y.2 ∧
    ∃ k, x.2.low = some k ∧ y.2.key P.c 0 = e.key k

/-- The node of a page in a layer. -/
theorem linked_vnr (hb : BulkPar cfg e P) {inner : Bool} {p : PID} {pg : VPage} {x : K × Pay V}
    {xs : List (K × Pay V)} (h : VNR cfg.maxKey P e mem p
      { inner := inner, low := some x.1, high := none, next := 0, recs := x :: xs
        size := (cfg.bulkSize inner (some x.1) (x :: xs) none : Nat) } pg)
    {ns : List (PID × Node K V)} {bns : List (PID × VPage)}
    (hns : List.Forall₂ (VLR cfg.maxKey P e mem) ns bns) :
    VNR cfg.maxKey P e mem p
      { inner := inner, low := some x.1, high := ns.head?.bind fun y => y.2.low
        next := (ns.head?.map fun y => y.1).getD 0, recs := x :: xs
        size := (cfg.bulkSize inner (some x.1) (x :: xs) (ns.head?.bind fun y => y.2.low) : Nat) }
      (vLinkTo P pg bns) := by
  cases hns with
  | nil => exact h
  | @cons a b l l' h1 h2 =>
    have h3 := vLink_vnr hb (r := a.1) h h1.2.2.1.img
    rw [vLinkTo, ← h1.1]
    have hs : (cfg.bulkSize inner (some x.1) (x :: xs) none : Int) + (cfg.olen a.2.low : Nat) =
        (cfg.bulkSize inner (some x.1) (x :: xs) a.2.low : Nat) := by
      unfold Cfg.bulkSize
      rw [show cfg.olen (none : Option K) = 0 from rfl]
      push_cast
      omega
    simp only at h3
    rw [hs] at h3
    exact h3

theorem vLayer_sim (hb : BulkPar cfg e P) {inner : Bool} {ids : Nat → PID} :
    ∀ (f i : Nat) (es : List (K × Pay V)) {bns : List (PID × VPage)} {j : Nat},
      (∀ x ∈ es, EntOK (256 ^ P.pid) inner x) →
      vLayer P cfg.maxKey mem inner ids f i (es.map (encE e)) = some (bns, j) →
      ∃ ns, bulkLayer cfg inner ids f i es = some (ns, j) ∧ List.Forall₂ (VLR cfg.maxKey P e mem) ns bns
  | f, i, [], bns, j, _, h => by
    rw [List.map_nil, vLayer] at h
    cases h
    exact ⟨[], by rw [bulkLayer], .nil⟩
  | 0, i, x :: xs, bns, j, _, h => by rw [List.map_cons, vLayer] at h; cases h
  | f + 1, i, x :: xs, bns, j, hk, h => by
    rw [List.map_cons, vLayer, ← List.map_cons] at h
    by_cases hid : ids i < 256 ^ P.pid
    · rw [if_pos hid] at h
      rw [bulkLayer]
      obtain ⟨t1, t2, _⟩ := bulkTake_spec (cfg := cfg) inner (x :: xs) (cfg.hdr + cfg.bulkRes inner)
      cases ht : bulkTake cfg inner (cfg.hdr + cfg.bulkRes inner) (x :: xs) with
      | mk tk rest =>
      rw [ht] at t1 t2
      simp only at t1 t2
      cases tk with
      | nil =>
        obtain ⟨c1, c2⟩ := bulkCount_sim hb.lay.enc (x :: xs) (cfg.hdr + cfg.bulkRes inner)
          fun y hy => (hk y hy).1
        rw [ht] at c1
        have hz : bulkCount P.bulkCap (cfg.hdr + cfg.bulkRes inner) ((x :: xs).map (encE e)) = 0 := by
          cases hc : bulkCount P.bulkCap (cfg.hdr + cfg.bulkRes inner) ((x :: xs).map (encE e)) with
          | zero => rfl
          | succ n => rw [hc] at c1; cases c1
        have hres2 : P.c.hdr + cfg.maxKey + (if inner then 1 else 0) * cfg.maxKey =
            cfg.hdr + cfg.bulkRes inner := by
          have := hb.lay.enc.hdr
          unfold Cfg.bulkRes
          cases inner <;> simp <;> omega
        unfold VPage.bulkload at h
        simp only [hres2, hz, List.take_zero, VPage.fill, Option.map_some, Option.bind_some] at h
        rw [if_pos (show (VPage.init P.c (mem (ids i)) inner).cnt = 0 from rfl)] at h
        cases h
      | cons y ys =>
        obtain ⟨pg, g1, g2⟩ := loaded_vnr (mem := mem) (p := ids i) hb ht hk
        rw [g1, Option.bind_some] at h
        simp only at h
        rw [if_neg (Nat.pos_iff_ne_zero.1 g2.cnt_pos)] at h
        have hmem : ∀ z ∈ rest, z ∈ x :: xs := fun z hz => t1 ▸ List.mem_append_right _ hz
        cases hv : vLayer P cfg.maxKey mem inner ids f (i + 1) (rest.map (encE e)) with
        | none => rw [hv] at h; cases h
        | some r =>
        obtain ⟨bns', j'⟩ := r
        rw [hv, Option.map_some] at h
        cases h
        obtain ⟨ns, h3, h4⟩ := vLayer_sim hb f (i + 1) rest (fun z hz => hk z (hmem z hz)) hv
        have h5 := linked_vnr hb g2 h4
        refine ⟨_, by simp only [h3]; rfl, .cons ⟨rfl, hid, h5, _, rfl, ?_⟩ h4⟩
        exact h5.img.keyAt (i := 0) (by simp) (by simp)
    · rw [if_neg hid] at h; cases h

/-- The tables agree and all nodes have a lowest key. -/
def VTL (mk : Nat) (P : VPar) (e : Enc K V) (mem : PID → Mem) (T : Tbl K V) (bT : VTbl) : Prop :=
  VTR mk P e mem T bT ∧ AllLow T

theorem vPutAll_sim {ns : List (PID × Node K V)} {bns : List (PID × VPage)}
    (hn : List.Forall₂ (VLR cfg.maxKey P e mem) ns bns) : ∀ {T : Tbl K V} {bT : VTbl}, VTL cfg.maxKey P e mem T bT →
      VTL cfg.maxKey P e mem (T.putAll ns) (bT.putAll bns) := by
  induction hn with
  | nil => exact fun h => h
  | cons h1 _ ih =>
    intro T bT h
    refine ih ?_
    rw [← h1.1]
    obtain ⟨k, hk, _⟩ := h1.2.2.2
    exact ⟨h.1.put h1.2.2.1, h.2.put (by rw [hk]; exact Option.some_ne_none _)⟩

/-! ## Partial trees -/

/-- Partial trees agree. -/
structure VPR (P : VPar) (e : Enc K V) (p : Part K V) (b : VPart) : Prop where
  height : b.height = p.height
  used : b.used = p.used
  nodes : b.nodes = p.nodes.map (chE e)
  ent : ∀ x ∈ p.nodes, EntOK (256 ^ P.pid) true x

theorem vEntBytes_chE (hp : BulkPar cfg e P) {ns : List (K × Pay V)}
    (h : ∀ x ∈ ns, EntOK (256 ^ P.pid) true x) :
    (ns.map (chE e)).map (vEntBytes P) = ns.map (encE e) := by
  rw [List.map_map]
  refine List.map_congr_left fun x hx => ?_
  obtain ⟨q, hq⟩ := (h x hx).1
  obtain ⟨k, pay⟩ := x
  have hq : pay = .child q := hq
  subst hq
  show (e.key k, pidBytes P.pid q) = (e.key k, e.pid q)
  rw [hp.lay.pids]

theorem vEnts_sim : ∀ {ns : List (PID × Node K V)} {bns : List (PID × VPage)},
    List.Forall₂ (VLR cfg.maxKey P e mem) ns bns →
      vEnts P bns = (ns.filterMap nodeEntry).map (chE e) ∧
      ∀ x ∈ ns.filterMap nodeEntry, EntOK (256 ^ P.pid) true x
  | _, _, .nil => ⟨rfl, fun x hx => by simp at hx⟩
  | _, _, .cons (a := a) (b := b) (l₁ := l) (l₂ := l') h1 h2 => by
    obtain ⟨g1, g2, g3, k, g4, g5⟩ := h1
    obtain ⟨i1, i2⟩ := vEnts_sim h2
    have hn : nodeEntry a = some (k, .child a.1) := by unfold nodeEntry; rw [g4]; rfl
    rw [List.filterMap_cons_some hn]
    refine ⟨?_, fun x hx => ?_⟩
    · show (b.2.key P.c 0, b.1) :: vEnts P l' = _
      rw [i1, g5, ← g1]; rfl
    · rcases List.mem_cons.1 hx with rfl | hx
      · exact ⟨⟨a.1, rfl⟩, fun q hq => by cases hq; exact g2⟩
      · exact i2 x hx

theorem vLayer_one (hp : BulkPar cfg e P) {ids : Nat → PID} {p : Part K V} {b : VPart} {T : Tbl K V}
    {bT : VTbl} (h1 : VPR P e p b) (h2 : VTL cfg.maxKey P e mem T bT) {b' : VPart} {bT' : VTbl}
    (h : VPart.layer P cfg.maxKey mem ids (b, bT) = some (b', bT')) :
    ∃ p' T', Part.layer cfg ids (p, T) = some (p', T') ∧ VPR P e p' b' ∧ VTL cfg.maxKey P e mem T' bT' := by
  unfold VPart.layer at h
  simp only [h1.nodes, vEntBytes_chE hp h1.ent, List.length_map, h1.used] at h
  cases hb : vLayer P cfg.maxKey mem true ids p.nodes.length p.used (p.nodes.map (encE e)) with
  | none => rw [hb] at h; cases h
  | some r =>
    obtain ⟨bns, j⟩ := r
    rw [hb, Option.map_some] at h
    cases h
    obtain ⟨ns, h3, h4⟩ := vLayer_sim hp _ _ _ h1.ent hb
    obtain ⟨h5, h6⟩ := vEnts_sim h4
    refine ⟨⟨p.height + 1, ns.filterMap nodeEntry, j⟩, T.putAll ns, by unfold Part.layer; simp only [h3],
      ⟨congrArg (· + 1) h1.height, rfl, h5, h6⟩,
      vPutAll_sim h4 h2⟩

theorem vInnerCap_eq (hp : BulkPar cfg e P) : P.innerCap 8 = cfg.innerCap := by
  have h1 := hp.lay.pid
  have h2 := hp.pos
  have hml : metaLen = 8 := rfl
  unfold VPar.innerCap Cfg.innerCap
  rw [if_neg (by omega), hp.lay.enc.page, hp.lay.enc.hdr, h1, hml, Nat.add_assoc, Nat.add_comm P.pid 8]

theorem vGrow_sim (hp : BulkPar cfg e P) {ids : Nat → PID} :
    ∀ (f : Nat) {p : Part K V} {b : VPart} {T : Tbl K V} {bT : VTbl}, VPR P e p b →
      VTL cfg.maxKey P e mem T bT → ∀ {b' : VPart} {bT' : VTbl}, VPart.grow P cfg.maxKey 8 mem ids f (b, bT) = some (b', bT') →
      ∃ p' T', Part.grow cfg ids f (p, T) = some (p', T') ∧ VPR P e p' b' ∧ VTL cfg.maxKey P e mem T' bT' := by
  intro f
  induction f with
  | zero =>
    intro p b T bT h1 h2 b' bT' h
    unfold VPart.grow at h
    unfold Part.grow
    simp only [h1.nodes, List.length_map, vInnerCap_eq hp] at h
    by_cases hc : p.nodes.length ≤ cfg.innerCap
    · rw [if_pos hc] at h ⊢
      cases h
      exact ⟨_, _, rfl, h1, h2⟩
    · rw [if_neg hc] at h; cases h
  | succ f ih =>
    intro p b T bT h1 h2 b' bT' h
    unfold VPart.grow at h
    unfold Part.grow
    simp only [h1.nodes, List.length_map, vInnerCap_eq hp] at h
    by_cases hc : p.nodes.length ≤ cfg.innerCap
    · rw [if_pos hc] at h ⊢
      cases h
      exact ⟨_, _, rfl, h1, h2⟩
    · rw [if_neg hc] at h ⊢
      cases hl : VPart.layer P cfg.maxKey mem ids (b, bT) with
      | none => rw [hl] at h; cases h
      | some y =>
        rw [hl, Option.bind_some] at h
        obtain ⟨p', T', g1, g2, g3⟩ := vLayer_one hp h1 h2 hl
        obtain ⟨p'', T'', g4, g5⟩ := ih g2 g3 h
        exact ⟨p'', T'', by simp only [g1, Option.bind_some, g4], g5⟩

theorem vRaise_sim (hp : BulkPar cfg e P) {ids : Nat → PID} :
    ∀ (f : Nat) {p : Part K V} {b : VPart} {T : Tbl K V} {bT : VTbl}, VPR P e p b →
      VTL cfg.maxKey P e mem T bT → ∀ {b' : VPart} {bT' : VTbl}, VPart.raise P cfg.maxKey mem ids f (b, bT) = some (b', bT') →
      ∃ p' T', Part.raise cfg ids f (p, T) = some (p', T') ∧ VPR P e p' b' ∧ VTL cfg.maxKey P e mem T' bT' := by
  intro f
  induction f with
  | zero =>
    intro p b T bT h1 h2 b' bT' h
    cases h
    exact ⟨_, _, rfl, h1, h2⟩
  | succ f ih =>
    intro p b T bT h1 h2 b' bT' h
    unfold VPart.raise at h
    unfold Part.raise
    cases hl : VPart.layer P cfg.maxKey mem ids (b, bT) with
    | none => rw [hl] at h; cases h
    | some y =>
      rw [hl, Option.bind_some] at h
      obtain ⟨p', T', g1, g2, g3⟩ := vLayer_one hp h1 h2 hl
      obtain ⟨p'', T'', g4, g5⟩ := ih g2 g3 h
      exact ⟨p'', T'', by rw [g1, Option.bind_some, g4], g5⟩

theorem vTop_sim (hp : BulkPar cfg e P) {ids : Nat → PID} :
    ∀ (f : Nat) {p : Part K V} {b : VPart} {T : Tbl K V} {bT : VTbl}, VPR P e p b →
      VTL cfg.maxKey P e mem T bT → ∀ {b' : VPart} {bT' : VTbl}, vBulkTop P cfg.maxKey mem ids f (b, bT) = some (b', bT') →
      ∃ p' T', bulkTop cfg ids f (p, T) = some (p', T') ∧ VPR P e p' b' ∧ VTL cfg.maxKey P e mem T' bT' := by
  intro f
  induction f with
  | zero =>
    intro p b T bT h1 h2 b' bT' h
    unfold vBulkTop at h
    unfold bulkTop
    simp only [h1.nodes, List.length_map] at h
    by_cases hc : p.nodes.length ≤ 1
    · rw [if_pos hc] at h ⊢
      cases h
      exact ⟨_, _, rfl, h1, h2⟩
    · rw [if_neg hc] at h; cases h
  | succ f ih =>
    intro p b T bT h1 h2 b' bT' h
    unfold vBulkTop at h
    unfold bulkTop
    simp only [h1.nodes, List.length_map] at h
    by_cases hc : p.nodes.length ≤ 1
    · rw [if_pos hc] at h ⊢
      cases h
      exact ⟨_, _, rfl, h1, h2⟩
    · rw [if_neg hc] at h ⊢
      cases hl : VPart.layer P cfg.maxKey mem ids (b, bT) with
      | none => rw [hl] at h; cases h
      | some y =>
        rw [hl, Option.bind_some] at h
        obtain ⟨p', T', g1, g2, g3⟩ := vLayer_one hp h1 h2 hl
        obtain ⟨p'', T'', g4, g5⟩ := ih g2 g3 h
        exact ⟨p'', T'', by simp only [g1, Option.bind_some, g4], g5⟩

theorem vPart_sim (hp : BulkPar cfg e P) {ids : Nat → PID} {es : List (K × Pay V)}
    (hk : ∀ x ∈ es, EntOK (256 ^ P.pid) false x) {T : Tbl K V} {bT : VTbl} (h2 : VTL cfg.maxKey P e mem T bT)
    {b' : VPart} {bT' : VTbl} (h : vBulkPart P cfg.maxKey 8 mem ids bT (es.map (encE e)) = some (b', bT')) :
    ∃ p' T', bulkPart cfg ids T es = some (p', T') ∧ VPR P e p' b' ∧ VTL cfg.maxKey P e mem T' bT' := by
  unfold vBulkPart at h
  unfold bulkPart
  rw [List.length_map] at h
  cases hb : vLayer P cfg.maxKey mem false ids es.length 0 (es.map (encE e)) with
  | none => rw [hb] at h; cases h
  | some r =>
    obtain ⟨bns, j⟩ := r
    rw [hb, Option.bind_some] at h
    obtain ⟨ns, h3, h4⟩ := vLayer_sim hp _ _ _ hk hb
    obtain ⟨h5, h6⟩ := vEnts_sim h4
    simp only [h3]
    exact vGrow_sim hp _ ⟨rfl, rfl, h5, h6⟩ (vPutAll_sim h4 h2) h

theorem vParts_sim (hp : BulkPar cfg e P) {ids : Nat → Nat → PID} :
    ∀ (ss : List (List (K × Pay V))) (t : Nat) {T : Tbl K V} {bT : VTbl} {bs : List VPart} {bT' : VTbl},
      (∀ s ∈ ss, ∀ x ∈ s, EntOK (256 ^ P.pid) false x) → VTL cfg.maxKey P e mem T bT →
      vBulkParts P cfg.maxKey 8 mem ids t bT (ss.map (·.map (encE e))) = some (bs, bT') →
      ∃ ps T', bulkParts cfg ids t T ss = some (ps, T') ∧ List.Forall₂ (VPR P e) ps bs ∧
        VTL cfg.maxKey P e mem T' bT'
  | [], t, T, bT, bs, bT', _, h2, h => by
    cases h
    exact ⟨_, _, rfl, .nil, h2⟩
  | s :: ss, t, T, bT, bs, bT', hk, h2, h => by
    rw [List.map_cons, vBulkParts] at h
    rw [bulkParts]
    cases hb : vBulkPart P cfg.maxKey 8 mem (ids t) bT (s.map (encE e)) with
    | none => rw [hb] at h; cases h
    | some r =>
      obtain ⟨b1, bT1⟩ := r
      rw [hb, Option.bind_some] at h
      cases hc : vBulkParts P cfg.maxKey 8 mem ids (t + 1) bT1 (ss.map (·.map (encE e))) with
      | none => simp only [hc] at h; cases h
      | some r2 =>
        obtain ⟨bs2, bT2⟩ := r2
        simp only [hc, Option.map_some] at h
        cases h
        obtain ⟨p1, T1, g1, g2, g3⟩ := vPart_sim hp (hk s List.mem_cons_self) h2 hb
        obtain ⟨ps, T', g4, g5, g6⟩ := vParts_sim hp ss (t + 1)
          (fun s' hs => hk s' (List.mem_cons_of_mem _ hs)) g3 hc
        exact ⟨p1 :: ps, T', by simp only [g1, g4, Option.map_some], .cons g2 g5, g6⟩

/-! ## Links -/

theorem vChildAt_sim (hp : BulkPar cfg e P) {p : PID} {n : Node K V} {nd : VPage}
    (h : VNR cfg.maxKey P e mem p n nd) (hin : n.inner = true) (i : Nat) (hi : i < n.recs.length) :
    (n.recs[i]).2 = .child (vChildAt P nd i) := by
  obtain ⟨h1, h2⟩ := h.ent _ (List.getElem_mem hi)
  rw [hin] at h1
  obtain ⟨q, hq⟩ := h1
  have hpay := (h.img.recs i hi).pay
  rw [hq] at hpay ⊢
  have h3 : e.pay (.child q : Pay V) = pidBytes P.pid q := hp.lay.pids q
  rw [h3, pidBytes_length] at hpay
  unfold vChildAt VPage.pay
  simp only
  rw [hpay, pidOf_bytes _ _ (h2 q hq)]

theorem vLast_child (hp : BulkPar cfg e P) {p : PID} {n : Node K V} {nd : VPage}
    (h : VNR cfg.maxKey P e mem p n nd) (hin : n.inner = true) :
    ∃ k, n.recs.getLast? = some (k, .child (vChildAt P nd (nd.cnt - 1))) := by
  have hne : 0 < n.recs.length := List.length_pos_of_ne_nil h.ne
  have h1 := vChildAt_sim hp h hin (n.recs.length - 1) (by omega)
  rw [h.img.cnt, List.getLast?_eq_getElem?, List.getElem?_eq_getElem (by omega)]
  exact ⟨_, congrArg some (Prod.ext rfl h1)⟩

theorem vFirst_child (hp : BulkPar cfg e P) {p : PID} {n : Node K V} {nd : VPage}
    (h : VNR cfg.maxKey P e mem p n nd) (hin : n.inner = true) :
    ∃ k, n.recs.head? = some (k, .child (vChildAt P nd 0)) := by
  have hne : 0 < n.recs.length := List.length_pos_of_ne_nil h.ne
  have h1 := vChildAt_sim hp h hin 0 hne
  rw [List.head?_eq_getElem?, List.getElem?_eq_getElem hne]
  exact ⟨_, congrArg some (Prod.ext rfl h1)⟩

theorem vLinkBorder_sim (hp : BulkPar cfg e P) : ∀ (f : Nat) {T : Tbl K V} {bT bT' : VTbl} {l r : PID},
    VTL cfg.maxKey P e mem T bT → vLinkBorder P f bT l r = some bT' →
      ∃ T', linkBorder cfg f T l r = some T' ∧ VTL cfg.maxKey P e mem T' bT'
  | 0, T, bT, bT', l, r, _, h => by cases h
  | f + 1, T, bT, bT', l, r, ⟨ht, hl⟩, h => by
    rw [vLinkBorder] at h
    rw [linkBorder]
    cases hbl : bT l with
    | none => rw [hbl] at h; cases h
    | some bl =>
    cases hbr : bT r with
    | none => rw [hbl, hbr] at h; cases h
    | some br =>
    rw [hbl, hbr, Option.bind_some, Option.bind_some] at h
    obtain ⟨ln, g1, g2⟩ := ht.get hbl
    obtain ⟨rn, g3, g4⟩ := ht.get hbr
    simp only [g1, g3]
    have hin := g2.img.inner
    have hput := ht.put (vLink_vnr hp (r := r) g2 g4.img)
    have hlow : AllLow (upd T l (some { ln with next := r, high := rn.low, size := ln.size + cfg.olen rn.low })) := hl.put (hl l ln g1)
    simp only at h
    rw [hin] at h
    cases hi : ln.inner with
    | false =>
      rw [hi, if_pos rfl] at h
      rw [if_pos rfl]
      rw [hi] at hput hlow
      cases h
      exact ⟨_, rfl, hput, hlow⟩
    | true =>
      rw [hi, if_neg (by decide)] at h
      rw [if_neg (by decide)]
      obtain ⟨k1, c1⟩ := vLast_child hp g2 hi
      simp only [c1]
      have hne : 0 < rn.recs.length := List.length_pos_of_ne_nil g4.ne
      cases hri : rn.inner with
      | true =>
        rw [g4.img.inner, hri, if_neg (by decide)] at h
        obtain ⟨k2, c2⟩ := vFirst_child hp g4 hri
        simp only [c2]
        rw [hi] at hput hlow
        exact vLinkBorder_sim hp f ⟨hput, hlow⟩ h
      | false => rw [g4.img.inner, hri, if_pos rfl] at h; cases h

theorem vRemoveLeftmost_sim (hp : BulkPar cfg e P) : ∀ (f : Nat) {T : Tbl K V} {bT bT' : VTbl} {p : PID},
    VTR cfg.maxKey P e mem T bT → vRemoveLeftmost P f bT p = some bT' →
      ∃ T', removeLeftmost f T p = some T' ∧ VTR cfg.maxKey P e mem T' bT'
  | 0, T, bT, bT', p, _, h => by cases h
  | f + 1, T, bT, bT', p, ht, h => by
    rw [vRemoveLeftmost] at h
    rw [removeLeftmost]
    cases hb : bT p with
    | none => rw [hb] at h; cases h
    | some nd =>
    rw [hb, Option.bind_some] at h
    obtain ⟨n, g1, g2⟩ := ht.get hb
    simp only [g1]
    simp only at h
    rw [g2.img.inner] at h
    cases hi : n.inner with
    | false =>
      have hput := ht.put (dropLow_vnr hp g2 hi)
      rw [hi, if_pos rfl] at h
      rw [if_pos rfl]
      rw [hi] at hput
      cases h
      have hin := g2.img.inner
      rw [hi] at hin
      rw [hin] at hput
      exact ⟨_, rfl, hput⟩
    | true =>
      have h3 := dropKey_vnr hp g2 hi
      have hput := ht.put h3
      rw [hi, if_neg (by decide)] at h
      rw [if_neg (by decide)]
      obtain ⟨k1, c1⟩ := vFirst_child hp h3 hi
      have hin := g2.img.inner
      rw [hi] at hin
      simp only at c1
      simp only [c1]
      rw [hi] at hput
      rw [hin] at hput c1
      exact vRemoveLeftmost_sim hp f hput h

theorem vEntryPid_sim (x : Option (K × Pay V)) : vEntryPid (x.map (chE e)) = entryPid x := by
  cases x with
  | none => rfl
  | some y =>
    obtain ⟨k, p⟩ := y
    cases p <;> rfl

theorem vJoin_sim (hp : BulkPar cfg e P) {ids : Nat → Nat → PID} {height : Nat} {ps : List (Part K V)}
    {bs : List VPart} (hps : List.Forall₂ (VPR P e) ps bs) :
    ∀ (t : Nat) (prev : PID) {T : Tbl K V} {bT : VTbl} {bns : List (Str × PID)} {bT' : VTbl},
      VTL cfg.maxKey P e mem T bT → vBulkJoin P cfg.maxKey mem ids height t prev bT bs = some (bns, bT') →
      ∃ ns T', bulkJoin cfg ids height t prev T ps = some (ns, T') ∧ bns = ns.map (chE e) ∧
        (∀ x ∈ ns, EntOK (256 ^ P.pid) true x) ∧ VTL cfg.maxKey P e mem T' bT' := by
  induction hps with
  | nil =>
    intro t prev T bT bns bT' h2 h
    cases h
    exact ⟨[], T, rfl, rfl, fun x hx => by simp at hx, h2⟩
  | @cons p b ps bs h1 _ ih =>
    intro t prev T bT bns bT' h2 h
    rw [vBulkJoin] at h
    rw [bulkJoin]
    cases hr : VPart.raise P cfg.maxKey mem (ids t) (height - b.height) (b, bT) with
    | none => rw [hr] at h; cases h
    | some y =>
    obtain ⟨b1, bT1⟩ := y
    rw [hr, Option.bind_some] at h
    rw [h1.height] at hr
    obtain ⟨p1, T1, g1, g2, g3⟩ := vRaise_sim hp _ h1 h2 hr
    simp only [g1]
    simp only [g2.nodes, List.head?_map, List.getLast?_map, vEntryPid_sim] at h
    have hlink : ∀ {bT2 : VTbl}, (if prev = 0 then some bT1
        else vLinkBorder P height bT1 prev (entryPid p1.nodes.head?)) = some bT2 →
        ∃ T2, (if prev = 0 then some T1
          else linkBorder cfg height T1 prev (entryPid p1.nodes.head?)) = some T2 ∧ VTL cfg.maxKey P e mem T2 bT2 := by
      intro bT2 h
      by_cases h0 : prev = 0
      · rw [if_pos h0] at h ⊢
        cases h
        exact ⟨_, rfl, g3⟩
      · rw [if_neg h0] at h ⊢
        exact vLinkBorder_sim hp _ g3 h
    cases hl : (if prev = 0 then some bT1
        else vLinkBorder P height bT1 prev (entryPid p1.nodes.head?)) with
    | none => rw [hl] at h; cases h
    | some bT2 =>
    obtain ⟨T2, g4, g5⟩ := hlink hl
    rw [hl, Option.bind_some] at h
    rw [g4]
    cases hj : vBulkJoin P cfg.maxKey mem ids height (t + 1) (entryPid p1.nodes.getLast?) bT2 bs with
    | none => rw [hj] at h; cases h
    | some z =>
    obtain ⟨bns3, bT3⟩ := z
    rw [hj, Option.map_some] at h
    cases h
    obtain ⟨ns, T', g6, g7, g8, g9⟩ := ih _ _ g5 hj
    refine ⟨p1.nodes ++ ns, T', by simp only [g6, Option.map_some], ?_, fun x hx => ?_, g9⟩
    · rw [g7, List.map_append]
    · rcases List.mem_append.1 hx with hx | hx
      · exact g2.ent x hx
      · exact g8 x hx

/-! ## The whole function -/

theorem vFoldr_height : ∀ {ps : List (Part K V)} {bs : List VPart}, List.Forall₂ (VPR P e) ps bs →
    bs.foldr (fun p h => max p.height h) 1 = ps.foldr (fun p h => max p.height h) 1 := by
  intro ps bs h
  induction h with
  | nil => rfl
  | cons h1 _ ih => rw [List.foldr_cons, List.foldr_cons, ih, h1.height]

/-- `Bulkload` on bytes makes the pages of `Bulkload` in the model. -/
theorem vBulkload_sim (hp : BulkPar cfg e P) {ids : Nat → Nat → PID} {threads : Nat}
    {es : List (K × V)} {bT : VTbl} {root : PID}
    (h : vBulkload P cfg.maxKey 8 mem ids threads (es.map fun x => (e.key x.1, e.val x.2)) = some (bT, root)) :
    ∃ T, bulkload cfg ids threads es = some (T, root) ∧ VTR cfg.maxKey P e mem T bT := by
  have hes : (es.map fun x => (e.key x.1, e.val x.2)) =
      (es.map fun x => (x.1, Pay.val x.2)).map (encE e) := by
    rw [List.map_map]; rfl
  unfold vBulkload at h
  unfold bulkload
  rw [hes, bulkShares_map] at h
  have hk : ∀ s ∈ bulkShares threads (es.map fun x => (x.1, Pay.val x.2)), ∀ x ∈ s,
      EntOK (256 ^ P.pid) false x := by
    intro s hs x hx
    obtain ⟨y, _, rfl⟩ := List.mem_map.1 (bulkShares_mem _ _ s hs x hx)
    exact ⟨⟨y.2, rfl⟩, fun q hq => by cases hq⟩
  generalize bulkShares threads (es.map fun x => (x.1, Pay.val x.2)) = ss at h hk ⊢
  simp only [List.length_map] at h ⊢
  cases h1 : vBulkParts P cfg.maxKey 8 mem ids 0 (fun _ => none) (ss.map (·.map (encE e))) with
  | none => rw [h1] at h; cases h
  | some x =>
  obtain ⟨bs, bT1⟩ := x
  rw [h1, Option.bind_some] at h
  obtain ⟨ps, T1, g1, g2, g3⟩ := vParts_sim hp ss 0 (T := fun _ => none) hk
    ⟨fun p => Or.inl ⟨rfl, rfl⟩, fun p n hp => by cases hp⟩ h1
  simp only [g1]
  simp only [vFoldr_height g2] at h
  generalize ps.foldr (fun p h => max p.height h) 1 = height at h ⊢
  cases h2 : vBulkJoin P cfg.maxKey mem ids height 0 0 bT1 bs with
  | none => rw [h2] at h; cases h
  | some y =>
  obtain ⟨bns, bT2⟩ := y
  rw [h2, Option.bind_some] at h
  obtain ⟨ns, T2, g4, g5, g6, g7⟩ := vJoin_sim hp g2 0 0 g3 h2
  simp only [g4]
  subst g5
  simp only [List.length_map] at h
  cases h3 : vBulkTop P cfg.maxKey mem (ids ss.length) ns.length (⟨height, ns.map (chE e), 0⟩, bT2) with
  | none => rw [h3] at h; cases h
  | some z =>
  obtain ⟨b, bT3⟩ := z
  rw [h3, Option.bind_some] at h
  obtain ⟨p, T3, g8, g9, g10⟩ := vTop_sim hp ns.length (p := ⟨height, ns, 0⟩) ⟨rfl, rfl, rfl, g6⟩ g7 h3
  simp only [g8]
  simp only [g9.nodes, List.head?_map, vEntryPid_sim, g9.height] at h
  cases h4 : vRemoveLeftmost P p.height bT3 (entryPid p.nodes.head?) with
  | none => rw [h4] at h; cases h
  | some bT4 =>
  rw [h4, Option.map_some] at h
  obtain ⟨T4, g11, g12⟩ := vRemoveLeftmost_sim hp _ g10.1 h4
  obtain ⟨rfl, rfl⟩ := Prod.mk.inj (Option.some.inj h)
  exact ⟨T4, by rw [g11]; rfl, g12⟩

end BwTree.Bytes
