import Verif.Fix.Bulk
import Verif.Fix.FixSim

/-!
# Bulkload on bytes does what it does in the model (proofs)
-/

namespace BwTree.Fix

open Layout (Mem FPage Enc Framed FHolds)
open Bytes (pidBytes pidOf pidOf_bytes)

set_option linter.unusedSectionVars false

variable {K V : Type} [LinearOrder K] {cfg : Cfg K} {e : Enc K V} {P : FPar} {mem : PID → Mem}

/-- The bytes of an entry. -/
def encE (e : Enc K V) (x : K × Pay V) : Str × Str := (e.key x.1, e.pay x.2)

/-- A `NodeEntry`. -/
def chE (e : Enc K V) (x : K × Pay V) : Str × PID :=
  (e.key x.1, match x.2 with | .child q => q | .val _ => 0)

/-- An entry of a layer: of the right kind, and a page ID fits. -/
def EntOK (N : Nat) (inner : Bool) (x : K × Pay V) : Prop :=
  PayOK inner x.2 ∧ ∀ q, x.2 = .child q → q < N

/-- A page holds the node and only its records have been written. -/
structure NR (P : FPar) (e : Enc K V) (mem : PID → Mem) (p : PID) (n : Node K V) (nd : FNode) :
    Prop where
  img : NoI P e n nd
  frame : Framed P.c.keys P.c.page (mem p) nd.pg.mem
  ne : n.recs ≠ []
  ent : ∀ x ∈ n.recs, EntOK (256 ^ P.pid) n.inner x

/-- The tables agree. -/
def TR (P : FPar) (e : Enc K V) (mem : PID → Mem) (T : Tbl K V) (bT : BTbl) : Prop :=
  ∀ p, (T p = none ∧ bT p = none) ∨ ∃ n nd, T p = some n ∧ bT p = some nd ∧ NR P e mem p n nd

theorem TR.get {T : Tbl K V} {bT : BTbl} (h : TR P e mem T bT) {p : PID} {nd : FNode}
    (hp : bT p = some nd) : ∃ n, T p = some n ∧ NR P e mem p n nd := by
  rcases h p with ⟨_, h2⟩ | ⟨n, nd', h1, h2, h3⟩
  · rw [h2] at hp; cases hp
  · rw [h2] at hp; cases hp; exact ⟨n, h1, h3⟩

theorem TR.put {T : Tbl K V} {bT : BTbl} (h : TR P e mem T bT) {p : PID} {n : Node K V} {nd : FNode}
    (hn : NR P e mem p n nd) : TR P e mem (upd T p (some n)) (upd bT p (some nd)) := by
  intro q
  by_cases hq : q = p
  · subst hq; rw [upd_same, upd_same]; exact Or.inr ⟨n, nd, rfl, rfl, hn⟩
  · rw [upd_ne _ _ hq, upd_ne _ _ hq]; exact h q

/-! ## One layer -/

theorem FEncOK.entLen (he : FEncOK cfg P e) (inner : Bool) (k : K) :
    cfg.entLen inner k = cfg.recLen inner := by
  rw [Cfg.entLen, he.klen, Nat.add_zero]

theorem FEncOK.bulkRes (he : FEncOK cfg P e) (inner : Bool) : cfg.bulkRes inner = 0 := by
  rw [Cfg.bulkRes, he.maxKey, ite_self]

theorem FEncOK.recsLen (he : FEncOK cfg P e) (inner : Bool) (l : List (K × Pay V)) :
    cfg.recsLen inner l = cfg.recLen inner * l.length := by
  induction l with
  | nil => rfl
  | cons a l ih => rw [Cfg.recsLen_cons, ih, he.entLen, List.length_cons, Nat.mul_add]; omega

theorem FEncOK.olen (he : FEncOK cfg P e) (k : Option K) : cfg.olen k = 0 := by
  cases k with
  | none => rfl
  | some k => exact he.klen k

theorem FEncOK.bulkSize (he : FEncOK cfg P e) (inner : Bool) (low high : Option K)
    (l : List (K × Pay V)) :
    cfg.bulkSize inner low l high = cfg.hdr + cfg.recLen inner * l.length := by
  rw [Cfg.bulkSize, he.recsLen, he.olen, he.olen, ite_self]; rfl

theorem bTake_sim (he : FEncOK cfg P e) {inner : Bool} {old : Mem} :
    ∀ (es done : List (K × Pay V)) (pg : FPage),
      FHolds P.c (P.plen inner) P.c.page old (done.map (encE e)) pg →
      (∀ x ∈ es, PayOK inner x.2) →
      ∃ pg', bTake P (P.plen inner) pg (P.c.page - done.length * P.plen inner) (es.map (encE e)) =
          some (pg', (bulkTake cfg inner
            (cfg.hdr + cfg.recLen inner * done.length) es).2.map (encE e)) ∧
        FHolds P.c (P.plen inner) P.c.page old ((done ++ (bulkTake cfg inner
            (cfg.hdr + cfg.recLen inner * done.length) es).1).map (encE e)) pg'
  | [], done, pg, h, _ => ⟨pg, rfl, by simpa [bulkTake] using h⟩
  | x :: xs, done, pg, h, hk => by
    have hlen := he.recLen inner
    have hcap : P.bulkCap = cfg.bulkCap := by unfold FPar.bulkCap Cfg.bulkCap; rw [he.page]
    have hsz : pg.size = cfg.hdr + cfg.recLen inner * done.length := by
      rw [h.size, List.length_map, he.hdr, hlen, Nat.mul_comm]
    rw [List.map_cons, bTake, bulkTake, hcap, hsz, ← hlen, he.entLen]
    by_cases hc : cfg.hdr + cfg.recLen inner * done.length + cfg.recLen inner > cfg.bulkCap
    · rw [if_pos hc, if_pos hc]
      exact ⟨pg, rfl, by simpa using h⟩
    · rw [if_neg hc, if_neg hc]
      have hx : (encE e x).1.length = P.c.klen := he.key _
      have hx2 : (encE e x).2.length = P.plen inner := he.paylen (hk x List.mem_cons_self)
      have hle : cfg.bulkCap ≤ P.c.page := by unfold Cfg.bulkCap; rw [he.page]; omega
      have e1 : (done.length + 1) * (P.c.klen + P.plen inner) =
          cfg.recLen inner * done.length + cfg.recLen inner := by
        rw [hlen, Nat.succ_mul, Nat.mul_comm]
      have hfit : P.c.hdr + (done.length + 1) * (P.c.klen + P.plen inner) ≤ P.c.page := by
        rw [e1, ← he.hdr]; omega
      have hn : done.length + 1 < 65536 := by
        have := he.lim inner
        refine Nat.lt_of_mul_lt_mul_right (a := P.c.klen + P.plen inner) ?_
        omega
      have hroom := Layout.room he.keys hfit
      have e2 : (done.length + 1) * P.plen inner = done.length * P.plen inner + P.plen inner :=
        Nat.succ_mul _ _
      have hle2 : (encE e x).2.length ≤ P.c.page - done.length * P.plen inner := by omega
      have heq : P.c.page - done.length * P.plen inner - (encE e x).2.length =
          P.c.page - (done.length + 1) * P.plen inner := by omega
      have hs := h.snoc he.keys hx hx2 (by rw [List.length_map]; exact hfit)
        (by rw [List.length_map]; exact hn) (Or.inr rfl)
      simp only [List.length_map] at hs
      obtain ⟨pg', h1, h2⟩ := bTake_sim he xs (done ++ [x]) _ (by
        rw [List.map_append]; exact hs) (fun y hy => hk y (List.mem_cons_of_mem _ hy))
      have e3 : (done ++ [x]).length = done.length + 1 := by simp
      have e4 : cfg.hdr + cfg.recLen inner * (done.length + 1) =
          cfg.hdr + cfg.recLen inner * done.length + cfg.recLen inner := by
        rw [Nat.mul_succ]; omega
      rw [e3, e4] at h1 h2
      refine ⟨pg', ?_, ?_⟩
      · unfold FPage.bput
        rw [if_pos hle2, Option.bind_some, heq]
        exact h1
      · simpa using h2

/-- The node of a filled page. -/
theorem loaded_nr (he : FEncOK cfg P e) {inner : Bool} {p : PID} {pg : FPage} {x : K × Pay V}
    {xs : List (K × Pay V)}
    (h : FHolds P.c (P.plen inner) P.c.page (mem p) ((x :: xs).map (encE e)) pg)
    (hfit : cfg.hdr + cfg.recLen inner * (x :: xs).length ≤ cfg.bulkCap)
    (hk : ∀ y ∈ x :: xs, EntOK (256 ^ P.pid) inner y) {ns : List (PID × Node K V)}
    {bns : List (PID × FNode)}
    (hns : List.Forall₂ (fun a b => a.1 = b.1 ∧ ∃ k, a.2.low = some k ∧ b.2.low = e.key k) ns bns) :
    NR P e mem p { inner := inner, low := some x.1, high := ns.head?.bind fun y => y.2.low
                   next := (ns.head?.map fun y => y.1).getD 0, recs := x :: xs
                   size := ((cfg.hdr + cfg.recLen inner * (x :: xs).length : Nat) : Int) }
        ((FNode.loaded P inner pg).linkTo bns) ∧
      ((FNode.loaded P inner pg).linkTo bns).low = e.key x.1 := by
  have hlen := he.recLen inner
  have hle : cfg.bulkCap ≤ P.c.page := by unfold Cfg.bulkCap; rw [he.page]; omega
  have hsz : pg.size = cfg.hdr + cfg.recLen inner * (x :: xs).length := by
    rw [h.size, List.length_map, he.hdr, hlen, Nat.mul_comm]
  have hfit' : P.c.hdr + ((x :: xs).map (encE e)).length * (P.c.klen + P.plen inner) ≤ 1 * P.c.page := by
    rw [List.length_map, ← hlen, ← he.hdr, Nat.mul_comm]; omega
  have hpos := he.pos
  have hhdr := he.hdr
  have h' : FHolds P.c (P.plen inner) (1 * P.c.page) (mem p) ((x :: xs).map (encE e)) pg := by
    rw [Nat.one_mul]; exact h
  have hlow : pg.key P.c 0 = e.key x.1 := h.keys 0 (by simp)
  have hpg : ((FNode.loaded P inner pg).linkTo bns).pg = pg := by cases bns <;> rfl
  have hin : ((FNode.loaded P inner pg).linkTo bns).inner = inner := by cases bns <;> rfl
  have hhl : ((FNode.loaded P inner pg).linkTo bns).hasLow = true := by cases bns <;> rfl
  have hll : ((FNode.loaded P inner pg).linkTo bns).low = e.key x.1 := by
    cases bns <;> exact hlow
  refine ⟨?_, hll⟩
  obtain ⟨k1, k2, k3⟩ := nimg_of he (q := 1) (Or.inl rfl) (old := mem p)
    (rs := (x :: xs).map (encE e)) (pg := pg)
    (n := { inner := inner, low := some x.1, high := ns.head?.bind fun y => y.2.low
            next := (ns.head?.map fun y => y.1).getD 0, recs := x :: xs
            size := ((cfg.hdr + cfg.recLen inner * (x :: xs).length : Nat) : Int) })
    (nd := (FNode.loaded P inner pg).linkTo bns) h' hfit' (by rw [hpg]) (by rw [hpg])
    (by rw [hpg, hsz]; omega) (by rw [hpg, hsz]; omega) (by simp)
    (fun i hi => by
      have hi : i < (x :: xs).length := hi
      refine ⟨encE e ((x :: xs)[i]), by rw [List.getElem?_map, List.getElem?_eq_getElem hi]; rfl, ?_⟩
      refine ⟨fun k hk' => ?_, he.key _, rfl⟩
      simp only [reduceCtorEq, false_and, and_false, if_false] at hk'
      exact Option.some.inj hk')
    (fun r hr => (hk r hr).1) hin (by rw [hpg, hsz])
    (by rw [hhl, hll]; exact ⟨rfl, fun y hy => by cases hy; rfl⟩)
    (by
      cases hns with
      | nil => exact ⟨rfl, fun y hy => by cases hy⟩
      | cons h1 _ =>
        obtain ⟨_, k, h2, h3⟩ := h1
        refine ⟨?_, fun y hy => ?_⟩
        · show true = _; simp [h2]
        · have hy : _ = some y := hy
          simp only [List.head?_cons, Option.bind_some, h2] at hy
          cases hy; exact h3)
    (by
      cases hns with
      | nil => rfl
      | cons h1 _ => exact h1.1.symm)
  rw [Nat.one_mul] at k2 k3
  exact ⟨⟨k1, k3⟩, k2, List.cons_ne_nil _ _, hk⟩

theorem forall₂_weaken {α β : Type} {R S : α → β → Prop} (hi : ∀ a b, R a b → S a b) {l : List α}
    {l' : List β} (h : List.Forall₂ R l l') : List.Forall₂ S l l' := by
  induction h with
  | nil => exact .nil
  | cons h1 _ ih => exact .cons (hi _ _ h1) ih

/-- A node of a layer and its bytes. -/
def LR (P : FPar) (e : Enc K V) (mem : PID → Mem) (x : PID × Node K V) (y : PID × FNode) : Prop :=
  x.1 = y.1 ∧ x.1 < 256 ^ P.pid ∧ NR P e mem x.1 x.2 y.2 ∧ ∃ k, x.2.low = some k ∧ y.2.low = e.key k

theorem bLayer_sim (he : FEncOK cfg P e) {inner : Bool} {ids : Nat → PID} :
    ∀ (f i : Nat) (es : List (K × Pay V)) {bns : List (PID × FNode)} {j : Nat},
      (∀ x ∈ es, EntOK (256 ^ P.pid) inner x) →
      bLayer P mem inner ids f i (es.map (encE e)) = some (bns, j) →
      ∃ ns, bulkLayer cfg inner ids f i es = some (ns, j) ∧ List.Forall₂ (LR P e mem) ns bns
  | f, i, [], bns, j, _, h => by
    rw [List.map_nil, bLayer] at h
    cases h
    exact ⟨[], by rw [bulkLayer], .nil⟩
  | 0, i, x :: xs, bns, j, _, h => by rw [List.map_cons, bLayer] at h; cases h
  | f + 1, i, x :: xs, bns, j, hk, h => by
    rw [List.map_cons, bLayer, ← List.map_cons] at h
    by_cases hid : ids i < 256 ^ P.pid
    · rw [if_pos hid] at h
      obtain ⟨pg, h1, h2⟩ := bTake_sim he (inner := inner) (old := mem (ids i)) (x :: xs) []
        (FPage.init P.c (mem (ids i))) FHolds.init (fun y hy => (hk y hy).1)
      simp only [List.length_nil, Nat.zero_mul, Nat.mul_zero, Nat.sub_zero, Nat.add_zero,
        List.nil_append] at h1 h2
      rw [h1, Option.bind_some] at h
      obtain ⟨t1, t2, _⟩ := bulkTake_spec (cfg := cfg) inner (x :: xs) cfg.hdr
      rw [bulkLayer, he.bulkRes, Nat.add_zero]
      cases ht : bulkTake cfg inner cfg.hdr (x :: xs) with
      | mk tk rest =>
      rw [ht] at h h2 t1 t2
      simp only at h h2 t1 t2
      cases tk with
      | nil =>
        have : pg.cnt = 0 := h2.cnt
        rw [if_pos this] at h; cases h
      | cons y ys =>
        have hc : pg.cnt ≠ 0 := by rw [h2.cnt]; simp
        rw [if_neg hc] at h
        have hmem : ∀ z ∈ rest, z ∈ x :: xs := fun z hz => t1 ▸ List.mem_append_right _ hz
        have hmem' : ∀ z ∈ y :: ys, z ∈ x :: xs := fun z hz => t1 ▸ List.mem_append_left _ hz
        cases hb : bLayer P mem inner ids f (i + 1) (rest.map (encE e)) with
        | none => rw [hb] at h; cases h
        | some r =>
        obtain ⟨bns', j'⟩ := r
        rw [hb, Option.map_some] at h
        cases h
        obtain ⟨ns, h3, h4⟩ := bLayer_sim he f (i + 1) rest (fun z hz => hk z (hmem z hz)) hb
        have hcap := t2 (by simp)
        rw [he.recsLen] at hcap
        obtain ⟨h5, h6⟩ := loaded_nr he (p := ids i) h2 hcap
          (fun z hz => hk z (hmem' z hz)) (forall₂_weaken (fun a b hab => ⟨hab.1, hab.2.2.2⟩) h4)
        refine ⟨_, by simp only [h3]; rfl, .cons ⟨rfl, hid, ?_, _, rfl, h6⟩ h4⟩
        show NR P e mem (ids i) _ _
        simp only [he.bulkSize]
        exact h5
    · rw [if_neg hid] at h; cases h

/-- All nodes have a lowest key. -/
def AllLow (T : Tbl K V) : Prop := ∀ p n, T p = some n → n.low ≠ none

theorem AllLow.put {T : Tbl K V} (h : AllLow T) {p : PID} {n : Node K V} (hn : n.low ≠ none) :
    AllLow (upd T p (some n)) := by
  intro q x hq
  by_cases e : q = p
  · subst e; rw [upd_same] at hq; cases hq; exact hn
  · rw [upd_ne _ _ e] at hq; exact h q x hq

/-- The tables agree and all nodes have a lowest key. -/
def TL (P : FPar) (e : Enc K V) (mem : PID → Mem) (T : Tbl K V) (bT : BTbl) : Prop :=
  TR P e mem T bT ∧ AllLow T

theorem putAll_sim {ns : List (PID × Node K V)} {bns : List (PID × FNode)}
    (hn : List.Forall₂ (LR P e mem) ns bns) : ∀ {T : Tbl K V} {bT : BTbl}, TL P e mem T bT →
      TL P e mem (T.putAll ns) (bT.putAll bns) := by
  induction hn with
  | nil => exact fun h => h
  | cons h1 _ ih =>
    intro T bT h
    refine ih ?_
    rw [← h1.1]
    obtain ⟨k, hk, _⟩ := h1.2.2.2
    exact ⟨h.1.put h1.2.2.1, h.2.put (by rw [hk]; exact Option.some_ne_none _)⟩

/-! ## Partial trees -/

/-- Partial trees agree. -/
structure PR (P : FPar) (e : Enc K V) (p : Part K V) (b : BPart) : Prop where
  height : b.height = p.height
  used : b.used = p.used
  nodes : b.nodes = p.nodes.map (chE e)
  ent : ∀ x ∈ p.nodes, EntOK (256 ^ P.pid) true x

theorem entBytes_chE (hp : FixPar cfg e P) {ns : List (K × Pay V)}
    (h : ∀ x ∈ ns, EntOK (256 ^ P.pid) true x) :
    (ns.map (chE e)).map (entBytes P) = ns.map (encE e) := by
  rw [List.map_map]
  refine List.map_congr_left fun x hx => ?_
  obtain ⟨q, hq⟩ := (h x hx).1
  obtain ⟨k, pay⟩ := x
  have hq : pay = .child q := hq
  subst hq
  show (e.key k, pidBytes P.pid q) = (e.key k, e.pid q)
  rw [hp.pids]

theorem nodeEnts_sim : ∀ {ns : List (PID × Node K V)} {bns : List (PID × FNode)},
    List.Forall₂ (LR P e mem) ns bns →
      nodeEnts bns = (ns.filterMap nodeEntry).map (chE e) ∧
      ∀ x ∈ ns.filterMap nodeEntry, EntOK (256 ^ P.pid) true x
  | _, _, .nil => ⟨rfl, fun x hx => by simp at hx⟩
  | _, _, .cons (a := a) (b := b) (l₁ := l) (l₂ := l') h1 h2 => by
    obtain ⟨g1, g2, g3, k, g4, g5⟩ := h1
    obtain ⟨i1, i2⟩ := nodeEnts_sim h2
    have hn : nodeEntry a = some (k, .child a.1) := by unfold nodeEntry; rw [g4]; rfl
    rw [List.filterMap_cons_some hn]
    refine ⟨?_, fun x hx => ?_⟩
    · show (b.2.low, b.1) :: nodeEnts l' = _
      rw [i1, g5, ← g1]; rfl
    · rcases List.mem_cons.1 hx with rfl | hx
      · exact ⟨⟨a.1, rfl⟩, fun q hq => by cases hq; exact g2⟩
      · exact i2 x hx

theorem layer_sim (hp : FixPar cfg e P) {ids : Nat → PID} {p : Part K V} {b : BPart} {T : Tbl K V}
    {bT : BTbl} (h1 : PR P e p b) (h2 : TL P e mem T bT) {b' : BPart} {bT' : BTbl}
    (h : BPart.layer P mem ids (b, bT) = some (b', bT')) :
    ∃ p' T', Part.layer cfg ids (p, T) = some (p', T') ∧ PR P e p' b' ∧ TL P e mem T' bT' := by
  unfold BPart.layer at h
  simp only [h1.nodes, entBytes_chE hp h1.ent, List.length_map, h1.used] at h
  cases hb : bLayer P mem true ids p.nodes.length p.used (p.nodes.map (encE e)) with
  | none => rw [hb] at h; cases h
  | some r =>
    obtain ⟨bns, j⟩ := r
    rw [hb, Option.map_some] at h
    cases h
    obtain ⟨ns, h3, h4⟩ := bLayer_sim hp.enc _ _ _ h1.ent hb
    obtain ⟨h5, h6⟩ := nodeEnts_sim h4
    refine ⟨⟨p.height + 1, ns.filterMap nodeEntry, j⟩, T.putAll ns, by unfold Part.layer; simp only [h3],
      ⟨congrArg (· + 1) h1.height, rfl, h5, h6⟩,
      putAll_sim h4 h2⟩

theorem innerCap_eq (hp : FixPar cfg e P) (h8 : P.pid = 8) : P.innerCap = cfg.innerCap := by
  unfold FPar.innerCap Cfg.innerCap
  rw [if_pos hp.enc.maxKey, hp.enc.page, hp.enc.hdr, hp.enc.idxLen, h8]
  congr 1

theorem grow_sim (hp : FixPar cfg e P) (h8 : P.pid = 8) {ids : Nat → PID} :
    ∀ (f : Nat) {p : Part K V} {b : BPart} {T : Tbl K V} {bT : BTbl}, PR P e p b →
      TL P e mem T bT → ∀ {b' : BPart} {bT' : BTbl}, BPart.grow P mem ids f (b, bT) = some (b', bT') →
      ∃ p' T', Part.grow cfg ids f (p, T) = some (p', T') ∧ PR P e p' b' ∧ TL P e mem T' bT' := by
  intro f
  induction f with
  | zero =>
    intro p b T bT h1 h2 b' bT' h
    unfold BPart.grow at h
    unfold Part.grow
    simp only [h1.nodes, List.length_map, innerCap_eq hp h8] at h
    by_cases hc : p.nodes.length ≤ cfg.innerCap
    · rw [if_pos hc] at h ⊢
      cases h
      exact ⟨_, _, rfl, h1, h2⟩
    · rw [if_neg hc] at h; cases h
  | succ f ih =>
    intro p b T bT h1 h2 b' bT' h
    unfold BPart.grow at h
    unfold Part.grow
    simp only [h1.nodes, List.length_map, innerCap_eq hp h8] at h
    by_cases hc : p.nodes.length ≤ cfg.innerCap
    · rw [if_pos hc] at h ⊢
      cases h
      exact ⟨_, _, rfl, h1, h2⟩
    · rw [if_neg hc] at h ⊢
      cases hl : BPart.layer P mem ids (b, bT) with
      | none => rw [hl] at h; cases h
      | some y =>
        rw [hl, Option.bind_some] at h
        obtain ⟨p', T', g1, g2, g3⟩ := layer_sim hp h1 h2 hl
        obtain ⟨p'', T'', g4, g5⟩ := ih g2 g3 h
        exact ⟨p'', T'', by simp only [g1, Option.bind_some, g4], g5⟩

theorem raise_sim (hp : FixPar cfg e P) {ids : Nat → PID} :
    ∀ (f : Nat) {p : Part K V} {b : BPart} {T : Tbl K V} {bT : BTbl}, PR P e p b →
      TL P e mem T bT → ∀ {b' : BPart} {bT' : BTbl}, BPart.raise P mem ids f (b, bT) = some (b', bT') →
      ∃ p' T', Part.raise cfg ids f (p, T) = some (p', T') ∧ PR P e p' b' ∧ TL P e mem T' bT' := by
  intro f
  induction f with
  | zero =>
    intro p b T bT h1 h2 b' bT' h
    cases h
    exact ⟨_, _, rfl, h1, h2⟩
  | succ f ih =>
    intro p b T bT h1 h2 b' bT' h
    unfold BPart.raise at h
    unfold Part.raise
    cases hl : BPart.layer P mem ids (b, bT) with
    | none => rw [hl] at h; cases h
    | some y =>
      rw [hl, Option.bind_some] at h
      obtain ⟨p', T', g1, g2, g3⟩ := layer_sim hp h1 h2 hl
      obtain ⟨p'', T'', g4, g5⟩ := ih g2 g3 h
      exact ⟨p'', T'', by rw [g1, Option.bind_some, g4], g5⟩

theorem top_sim (hp : FixPar cfg e P) {ids : Nat → PID} :
    ∀ (f : Nat) {p : Part K V} {b : BPart} {T : Tbl K V} {bT : BTbl}, PR P e p b →
      TL P e mem T bT → ∀ {b' : BPart} {bT' : BTbl}, bBulkTop P mem ids f (b, bT) = some (b', bT') →
      ∃ p' T', bulkTop cfg ids f (p, T) = some (p', T') ∧ PR P e p' b' ∧ TL P e mem T' bT' := by
  intro f
  induction f with
  | zero =>
    intro p b T bT h1 h2 b' bT' h
    unfold bBulkTop at h
    unfold bulkTop
    simp only [h1.nodes, List.length_map] at h
    by_cases hc : p.nodes.length ≤ 1
    · rw [if_pos hc] at h ⊢
      cases h
      exact ⟨_, _, rfl, h1, h2⟩
    · rw [if_neg hc] at h; cases h
  | succ f ih =>
    intro p b T bT h1 h2 b' bT' h
    unfold bBulkTop at h
    unfold bulkTop
    simp only [h1.nodes, List.length_map] at h
    by_cases hc : p.nodes.length ≤ 1
    · rw [if_pos hc] at h ⊢
      cases h
      exact ⟨_, _, rfl, h1, h2⟩
    · rw [if_neg hc] at h ⊢
      cases hl : BPart.layer P mem ids (b, bT) with
      | none => rw [hl] at h; cases h
      | some y =>
        rw [hl, Option.bind_some] at h
        obtain ⟨p', T', g1, g2, g3⟩ := layer_sim hp h1 h2 hl
        obtain ⟨p'', T'', g4, g5⟩ := ih g2 g3 h
        exact ⟨p'', T'', by simp only [g1, Option.bind_some, g4], g5⟩

theorem part_sim (hp : FixPar cfg e P) (h8 : P.pid = 8) {ids : Nat → PID} {es : List (K × Pay V)}
    (hk : ∀ x ∈ es, EntOK (256 ^ P.pid) false x) {T : Tbl K V} {bT : BTbl} (h2 : TL P e mem T bT)
    {b' : BPart} {bT' : BTbl} (h : bBulkPart P mem ids bT (es.map (encE e)) = some (b', bT')) :
    ∃ p' T', bulkPart cfg ids T es = some (p', T') ∧ PR P e p' b' ∧ TL P e mem T' bT' := by
  unfold bBulkPart at h
  unfold bulkPart
  rw [List.length_map] at h
  cases hb : bLayer P mem false ids es.length 0 (es.map (encE e)) with
  | none => rw [hb] at h; cases h
  | some r =>
    obtain ⟨bns, j⟩ := r
    rw [hb, Option.bind_some] at h
    obtain ⟨ns, h3, h4⟩ := bLayer_sim hp.enc _ _ _ hk hb
    obtain ⟨h5, h6⟩ := nodeEnts_sim h4
    simp only [h3]
    exact grow_sim hp h8 _ ⟨rfl, rfl, h5, h6⟩ (putAll_sim h4 h2) h

theorem parts_sim (hp : FixPar cfg e P) (h8 : P.pid = 8) {ids : Nat → Nat → PID} :
    ∀ (ss : List (List (K × Pay V))) (t : Nat) {T : Tbl K V} {bT : BTbl} {bs : List BPart} {bT' : BTbl},
      (∀ s ∈ ss, ∀ x ∈ s, EntOK (256 ^ P.pid) false x) → TL P e mem T bT →
      bBulkParts P mem ids t bT (ss.map (·.map (encE e))) = some (bs, bT') →
      ∃ ps T', bulkParts cfg ids t T ss = some (ps, T') ∧ List.Forall₂ (PR P e) ps bs ∧
        TL P e mem T' bT'
  | [], t, T, bT, bs, bT', _, h2, h => by
    cases h
    exact ⟨_, _, rfl, .nil, h2⟩
  | s :: ss, t, T, bT, bs, bT', hk, h2, h => by
    rw [List.map_cons, bBulkParts] at h
    rw [bulkParts]
    cases hb : bBulkPart P mem (ids t) bT (s.map (encE e)) with
    | none => rw [hb] at h; cases h
    | some r =>
      obtain ⟨b1, bT1⟩ := r
      rw [hb, Option.bind_some] at h
      cases hc : bBulkParts P mem ids (t + 1) bT1 (ss.map (·.map (encE e))) with
      | none => simp only [hc] at h; cases h
      | some r2 =>
        obtain ⟨bs2, bT2⟩ := r2
        simp only [hc, Option.map_some] at h
        cases h
        obtain ⟨p1, T1, g1, g2, g3⟩ := part_sim hp h8 (hk s List.mem_cons_self) h2 hb
        obtain ⟨ps, T', g4, g5, g6⟩ := parts_sim hp h8 ss (t + 1)
          (fun s' hs => hk s' (List.mem_cons_of_mem _ hs)) g3 hc
        exact ⟨p1 :: ps, T', by simp only [g1, g4, Option.map_some], .cons g2 g5, g6⟩

/-! ## Links -/

theorem childAt_sim (hp : FixPar cfg e P) {p : PID} {n : Node K V} {nd : FNode}
    (h : NR P e mem p n nd) (hin : n.inner = true) (i : Nat) (hi : i < n.recs.length) :
    (n.recs[i]).2 = .child (nd.childAt P i) := by
  obtain ⟨h1, h2⟩ := h.ent _ (List.getElem_mem hi)
  rw [hin] at h1
  obtain ⟨q, hq⟩ := h1
  have hpay := h.img.1.pays i hi
  rw [hq] at hpay ⊢
  have h3 : e.pay (.child q : Pay V) = pidBytes P.pid q := hp.pids q
  rw [h3, Bytes.pidBytes_length] at hpay
  unfold FNode.childAt
  rw [hpay, pidOf_bytes _ _ (h2 q hq)]

theorem last_child (hp : FixPar cfg e P) {p : PID} {n : Node K V} {nd : FNode}
    (h : NR P e mem p n nd) (hin : n.inner = true) :
    ∃ k, n.recs.getLast? = some (k, .child (nd.childAt P (nd.pg.cnt - 1))) := by
  have hne : 0 < n.recs.length := List.length_pos_of_ne_nil h.ne
  have h1 := childAt_sim hp h hin (n.recs.length - 1) (by omega)
  rw [h.img.1.cnt, List.getLast?_eq_getElem?, List.getElem?_eq_getElem (by omega)]
  exact ⟨_, congrArg some (Prod.ext rfl h1)⟩

theorem first_child (hp : FixPar cfg e P) {p : PID} {n : Node K V} {nd : FNode}
    (h : NR P e mem p n nd) (hin : n.inner = true) :
    ∃ k, n.recs.head? = some (k, .child (nd.childAt P 0)) := by
  have hne : 0 < n.recs.length := List.length_pos_of_ne_nil h.ne
  have h1 := childAt_sim hp h hin 0 hne
  rw [List.head?_eq_getElem?, List.getElem?_eq_getElem hne]
  exact ⟨_, congrArg some (Prod.ext rfl h1)⟩

theorem linkNext_nr (he : FEncOK cfg P e) {l r : PID} {ln rn : Node K V} {bl br : FNode} (h1 : NR P e mem l ln bl)
    (h2 : NR P e mem r rn br) (hlow : rn.low ≠ none) :
    NR P e mem l { ln with next := r, high := rn.low, size := ln.size + cfg.olen rn.low }
      (bl.linkNext r br) := by
  rw [he.olen, show ln.size + ((0 : Nat) : Int) = ln.size from Int.add_zero _]
  obtain ⟨⟨⟨a1, a2, a3, a4, a5, a6, a7, a8⟩, a9⟩, a10, a11, a12⟩ := h1
  refine ⟨⟨⟨a1, a2, a3, a4, a5, a6, ?_, rfl⟩, a9⟩, a10, a11, a12⟩
  obtain ⟨b1, b2⟩ := h2.img.1.low
  refine ⟨?_, b2⟩
  show true = rn.low.isSome
  cases hr : rn.low with
  | none => exact absurd hr hlow
  | some k => rfl

theorem linkBorder_sim (hp : FixPar cfg e P) : ∀ (f : Nat) {T : Tbl K V} {bT bT' : BTbl} {l r : PID},
    TL P e mem T bT → bLinkBorder P f bT l r = some bT' →
      ∃ T', linkBorder cfg f T l r = some T' ∧ TL P e mem T' bT'
  | 0, T, bT, bT', l, r, _, h => by cases h
  | f + 1, T, bT, bT', l, r, ⟨ht, hl⟩, h => by
    rw [bLinkBorder] at h
    rw [linkBorder]
    cases hbl : bT l with
    | none => rw [hbl] at h; cases h
    | some bl =>
    cases hbr : bT r with
    | none => rw [hbl, hbr] at h; cases h
    | some br =>
    rw [hbl, hbr, Option.bind_some, Option.bind_some] at h
    obtain ⟨ln, g1, g2⟩ := ht.get hbl
    obtain ⟨rn, g3, g4⟩ := ht.get hbr
    simp only [g1, g3]
    have hin := g2.img.1.inner
    have hput := ht.put (linkNext_nr hp.enc g2 g4 (hl _ _ g3))
    have hlow : AllLow (upd T l (some { ln with next := r, high := rn.low, size := ln.size + cfg.olen rn.low })) := hl.put (hl l ln g1)
    simp only at h
    rw [hin] at h
    cases hi : ln.inner with
    | false =>
      rw [hi, if_pos rfl] at h
      rw [if_pos rfl]
      rw [hi] at hput hlow
      cases h
      exact ⟨_, rfl, hput, hlow⟩
    | true =>
      rw [hi, if_neg (by decide)] at h
      rw [if_neg (by decide)]
      obtain ⟨k1, c1⟩ := last_child hp g2 hi
      simp only [c1]
      have hne : 0 < rn.recs.length := List.length_pos_of_ne_nil g4.ne
      cases hri : rn.inner with
      | true =>
        rw [g4.img.1.inner, hri, if_neg (by decide)] at h
        obtain ⟨k2, c2⟩ := first_child hp g4 hri
        simp only [c2]
        rw [hi] at hput hlow
        exact linkBorder_sim hp f ⟨hput, hlow⟩ h
      | false => rw [g4.img.1.inner, hri, if_pos rfl] at h; cases h

theorem removeLeftmost_sim (hp : FixPar cfg e P) : ∀ (f : Nat) {T : Tbl K V} {bT bT' : BTbl} {p : PID},
    TR P e mem T bT → bRemoveLeftmost P f bT p = some bT' →
      ∃ T', removeLeftmost f T p = some T' ∧ TR P e mem T' bT'
  | 0, T, bT, bT', p, _, h => by cases h
  | f + 1, T, bT, bT', p, ht, h => by
    rw [bRemoveLeftmost] at h
    rw [removeLeftmost]
    cases hb : bT p with
    | none => rw [hb] at h; cases h
    | some nd =>
    rw [hb, Option.bind_some] at h
    obtain ⟨n, g1, g2⟩ := ht.get hb
    simp only [g1]
    have hput : TR P e mem (upd T p (some { n with low := none }))
        (upd bT p (some { nd with hasLow := false })) := by
      refine ht.put ?_
      obtain ⟨⟨⟨a1, a2, a3, a4, a5, a6, a7, a8⟩, a9⟩, a10, a11, a12⟩ := g2
      refine ⟨⟨⟨a1, a2, a3, fun i hi hne => ?_, a5, ⟨rfl, fun x hx => by cases hx⟩, a7, a8⟩, a9⟩, a10,
        a11, a12⟩
      exact a4 i hi fun ⟨b1, b2, b3⟩ => hne ⟨b1, rfl, b3⟩
    simp only at h
    rw [g2.img.1.inner] at h hput
    cases hi : n.inner with
    | false =>
      rw [hi, if_pos rfl] at h
      rw [if_pos rfl]
      rw [hi] at hput
      cases h
      exact ⟨_, rfl, hput⟩
    | true =>
      rw [hi, if_neg (by decide)] at h
      rw [if_neg (by decide)]
      obtain ⟨k1, c1⟩ := first_child hp g2 hi
      simp only [c1]
      rw [hi] at hput
      exact removeLeftmost_sim hp f hput h

theorem entryPid_sim (x : Option (K × Pay V)) : bEntryPid (x.map (chE e)) = entryPid x := by
  cases x with
  | none => rfl
  | some y =>
    obtain ⟨k, p⟩ := y
    cases p <;> rfl

theorem join_sim (hp : FixPar cfg e P) {ids : Nat → Nat → PID} {height : Nat} {ps : List (Part K V)}
    {bs : List BPart} (hps : List.Forall₂ (PR P e) ps bs) :
    ∀ (t : Nat) (prev : PID) {T : Tbl K V} {bT : BTbl} {bns : List (Str × PID)} {bT' : BTbl},
      TL P e mem T bT → bBulkJoin P mem ids height t prev bT bs = some (bns, bT') →
      ∃ ns T', bulkJoin cfg ids height t prev T ps = some (ns, T') ∧ bns = ns.map (chE e) ∧
        (∀ x ∈ ns, EntOK (256 ^ P.pid) true x) ∧ TL P e mem T' bT' := by
  induction hps with
  | nil =>
    intro t prev T bT bns bT' h2 h
    cases h
    exact ⟨[], T, rfl, rfl, fun x hx => by simp at hx, h2⟩
  | @cons p b ps bs h1 _ ih =>
    intro t prev T bT bns bT' h2 h
    rw [bBulkJoin] at h
    rw [bulkJoin]
    cases hr : BPart.raise P mem (ids t) (height - b.height) (b, bT) with
    | none => rw [hr] at h; cases h
    | some y =>
    obtain ⟨b1, bT1⟩ := y
    rw [hr, Option.bind_some] at h
    rw [h1.height] at hr
    obtain ⟨p1, T1, g1, g2, g3⟩ := raise_sim hp _ h1 h2 hr
    simp only [g1]
    simp only [g2.nodes, List.head?_map, List.getLast?_map, entryPid_sim] at h
    have hlink : ∀ {bT2 : BTbl}, (if prev = 0 then some bT1
        else bLinkBorder P height bT1 prev (entryPid p1.nodes.head?)) = some bT2 →
        ∃ T2, (if prev = 0 then some T1
          else linkBorder cfg height T1 prev (entryPid p1.nodes.head?)) = some T2 ∧ TL P e mem T2 bT2 := by
      intro bT2 h
      by_cases h0 : prev = 0
      · rw [if_pos h0] at h ⊢
        cases h
        exact ⟨_, rfl, g3⟩
      · rw [if_neg h0] at h ⊢
        exact linkBorder_sim hp _ g3 h
    cases hl : (if prev = 0 then some bT1
        else bLinkBorder P height bT1 prev (entryPid p1.nodes.head?)) with
    | none => rw [hl] at h; cases h
    | some bT2 =>
    obtain ⟨T2, g4, g5⟩ := hlink hl
    rw [hl, Option.bind_some] at h
    rw [g4]
    cases hj : bBulkJoin P mem ids height (t + 1) (entryPid p1.nodes.getLast?) bT2 bs with
    | none => rw [hj] at h; cases h
    | some z =>
    obtain ⟨bns3, bT3⟩ := z
    rw [hj, Option.map_some] at h
    cases h
    obtain ⟨ns, T', g6, g7, g8, g9⟩ := ih _ _ g5 hj
    refine ⟨p1.nodes ++ ns, T', by simp only [g6, Option.map_some], ?_, fun x hx => ?_, g9⟩
    · rw [g7, List.map_append]
    · rcases List.mem_append.1 hx with hx | hx
      · exact g2.ent x hx
      · exact g8 x hx

/-! ## The whole function -/

theorem shares_map {α β : Type} (f : α → β) (n t : Nat) : ∀ (k i : Nat) (es : List α),
    shares n t k i (es.map f) = (shares n t k i es).map (·.map f)
  | 0, _, _ => rfl
  | k + 1, i, es => by
    rw [shares, shares, List.map_cons, ← List.map_take, ← List.map_drop, shares_map f n t k]

theorem bulkShares_map {α β : Type} (f : α → β) (t : Nat) (es : List α) :
    bulkShares t (es.map f) = (bulkShares t es).map (·.map f) := by
  unfold bulkShares
  rw [List.length_map]
  split
  · rfl
  · exact shares_map f _ _ _ _ es

theorem foldr_height : ∀ {ps : List (Part K V)} {bs : List BPart}, List.Forall₂ (PR P e) ps bs →
    bs.foldr (fun p h => max p.height h) 1 = ps.foldr (fun p h => max p.height h) 1 := by
  intro ps bs h
  induction h with
  | nil => rfl
  | cons h1 _ ih => rw [List.foldr_cons, List.foldr_cons, ih, h1.height]

theorem shares_mem {α : Type} (n t : Nat) : ∀ (k i : Nat) (es : List α), ∀ s ∈ shares n t k i es,
    ∀ x ∈ s, x ∈ es
  | 0, _, _, s, hs, _, _ => by simp [shares] at hs
  | k + 1, i, es, s, hs, x, hx => by
    rw [shares] at hs
    rcases List.mem_cons.1 hs with rfl | hs
    · exact List.mem_of_mem_take hx
    · exact List.mem_of_mem_drop (shares_mem n t k (i + 1) _ s hs x hx)

theorem bulkShares_mem {α : Type} (t : Nat) (es : List α) : ∀ s ∈ bulkShares t es, ∀ x ∈ s, x ∈ es := by
  unfold bulkShares
  split
  · intro s hs x hx
    rw [List.mem_singleton.1 hs] at hx
    exact hx
  · exact shares_mem _ _ _ _ es

/-- `Bulkload` on bytes makes the pages of `Bulkload` in the model. -/
theorem bulkload_sim (hp : FixPar cfg e P) (h8 : P.pid = 8) {ids : Nat → Nat → PID} {threads : Nat}
    {es : List (K × V)} {bT : BTbl} {root : PID}
    (h : bBulkload P mem ids threads (es.map fun x => (e.key x.1, e.val x.2)) = some (bT, root)) :
    ∃ T, bulkload cfg ids threads es = some (T, root) ∧ TR P e mem T bT := by
  have hes : (es.map fun x => (e.key x.1, e.val x.2)) =
      (es.map fun x => (x.1, Pay.val x.2)).map (encE e) := by
    rw [List.map_map]; rfl
  unfold bBulkload at h
  unfold bulkload
  rw [hes, bulkShares_map] at h
  have hk : ∀ s ∈ bulkShares threads (es.map fun x => (x.1, Pay.val x.2)), ∀ x ∈ s,
      EntOK (256 ^ P.pid) false x := by
    intro s hs x hx
    obtain ⟨y, _, rfl⟩ := List.mem_map.1 (bulkShares_mem _ _ s hs x hx)
    exact ⟨⟨y.2, rfl⟩, fun q hq => by cases hq⟩
  generalize bulkShares threads (es.map fun x => (x.1, Pay.val x.2)) = ss at h hk ⊢
  simp only [List.length_map] at h ⊢
  cases h1 : bBulkParts P mem ids 0 (fun _ => none) (ss.map (·.map (encE e))) with
  | none => rw [h1] at h; cases h
  | some x =>
  obtain ⟨bs, bT1⟩ := x
  rw [h1, Option.bind_some] at h
  obtain ⟨ps, T1, g1, g2, g3⟩ := parts_sim hp h8 ss 0 (T := fun _ => none) hk
    ⟨fun p => Or.inl ⟨rfl, rfl⟩, fun p n hp => by cases hp⟩ h1
  simp only [g1]
  simp only [foldr_height g2] at h
  generalize ps.foldr (fun p h => max p.height h) 1 = height at h ⊢
  cases h2 : bBulkJoin P mem ids height 0 0 bT1 bs with
  | none => rw [h2] at h; cases h
  | some y =>
  obtain ⟨bns, bT2⟩ := y
  rw [h2, Option.bind_some] at h
  obtain ⟨ns, T2, g4, g5, g6, g7⟩ := join_sim hp g2 0 0 g3 h2
  simp only [g4]
  subst g5
  simp only [List.length_map] at h
  cases h3 : bBulkTop P mem (ids ss.length) ns.length (⟨height, ns.map (chE e), 0⟩, bT2) with
  | none => rw [h3] at h; cases h
  | some z =>
  obtain ⟨b, bT3⟩ := z
  rw [h3, Option.bind_some] at h
  obtain ⟨p, T3, g8, g9, g10⟩ := top_sim hp ns.length (p := ⟨height, ns, 0⟩) ⟨rfl, rfl, rfl, g6⟩ g7 h3
  simp only [g8]
  simp only [g9.nodes, List.head?_map, entryPid_sim, g9.height] at h
  cases h4 : bRemoveLeftmost P p.height bT3 (entryPid p.nodes.head?) with
  | none => rw [h4] at h; cases h
  | some bT4 =>
  rw [h4, Option.map_some] at h
  obtain ⟨T4, g11, g12⟩ := removeLeftmost_sim hp _ g10.1 h4
  obtain ⟨rfl, rfl⟩ := Prod.mk.inj (Option.some.inj h)
  exact ⟨T4, by rw [g11]; rfl, g12⟩

end BwTree.Fix
