import Verif.Fix.BulkSim

/-!
# Bulkload on bytes ends whenever it does in the model (proofs)
-/

namespace BwTree.Fix

open Layout (Mem FPage Enc Framed FHolds)
open Bytes (pidBytes pidOf pidOf_bytes)

set_option linter.unusedSectionVars false

variable {K V : Type} [LinearOrder K] {cfg : Cfg K} {e : Enc K V} {P : FPar} {mem : PID → Mem}

/-! ## Pages are never taken back -/

/-- Every page of `T` is a page of `U`. -/
def Le (T U : Tbl K V) : Prop := ∀ p, T p ≠ none → U p ≠ none

/-- All pages are below `N`. -/
def Small (N : Nat) (T : Tbl K V) : Prop := ∀ p, T p ≠ none → p < N

theorem Le.refl (T : Tbl K V) : Le T T := fun _ h => h

theorem Le.trans {T U W : Tbl K V} (h : Le T U) (h' : Le U W) : Le T W := fun p hp => h' p (h p hp)

theorem le_upd (T : Tbl K V) (p : PID) (n : Node K V) : Le T (upd T p (some n)) := by
  intro q hq
  by_cases e : q = p
  · subst e; rw [upd_same]; exact Option.some_ne_none _
  · rw [upd_ne _ _ e]; exact hq

theorem Small.le {N : Nat} {T U : Tbl K V} (h : Small N U) (hl : Le T U) : Small N T :=
  fun p hp => h p (hl p hp)

theorem putAll_le : ∀ (ns : List (PID × Node K V)) (T : Tbl K V),
    Le T (T.putAll ns) ∧ ∀ x ∈ ns, T.putAll ns x.1 ≠ none
  | [], T => ⟨Le.refl T, fun x hx => by cases hx⟩
  | y :: ns, T => by
    obtain ⟨h1, h2⟩ := putAll_le ns (upd T y.1 (some y.2))
    rw [Tbl.putAll]
    refine ⟨(le_upd T _ _).trans h1, fun x hx => ?_⟩
    rcases List.mem_cons.1 hx with rfl | hx
    · exact h1 _ (by rw [upd_same]; exact Option.some_ne_none _)
    · exact h2 x hx

theorem layer_inv {ids : Nat → PID} {p p' : Part K V} {T T' : Tbl K V}
    (h : Part.layer cfg ids (p, T) = some (p', T')) :
    ∃ ns j, bulkLayer cfg true ids p.nodes.length p.used p.nodes = some (ns, j) ∧ T' = T.putAll ns := by
  unfold Part.layer at h
  cases hb : bulkLayer cfg true ids p.nodes.length p.used p.nodes with
  | none => simp only [hb] at h; cases h
  | some r =>
    obtain ⟨ns, j⟩ := r
    simp only [hb] at h
    cases h
    exact ⟨ns, j, rfl, rfl⟩

theorem layer_le {ids : Nat → PID} {p p' : Part K V} {T T' : Tbl K V}
    (h : Part.layer cfg ids (p, T) = some (p', T')) : Le T T' := by
  obtain ⟨ns, j, _, rfl⟩ := layer_inv h
  exact (putAll_le ns T).1

theorem bind_inv {α β : Type} {x : Option α} {f : α → Option β} {b : β} (h : x.bind f = some b) :
    ∃ a, x = some a ∧ f a = some b := Option.bind_eq_some_iff.1 h

theorem grow_le {ids : Nat → PID} : ∀ (f : Nat) {p p' : Part K V} {T T' : Tbl K V},
    Part.grow cfg ids f (p, T) = some (p', T') → Le T T'
  | f, p, p', T, T', h => by
    unfold Part.grow at h
    by_cases hc : p.nodes.length ≤ cfg.innerCap
    · rw [if_pos hc] at h; cases h; exact Le.refl _
    · rw [if_neg hc] at h
      cases f with
      | zero => cases h
      | succ f =>
        obtain ⟨⟨q, U⟩, h1, h2⟩ := bind_inv h
        exact (layer_le h1).trans (grow_le f h2)

theorem raise_le {ids : Nat → PID} : ∀ (f : Nat) {p p' : Part K V} {T T' : Tbl K V},
    Part.raise cfg ids f (p, T) = some (p', T') → Le T T'
  | 0, p, p', T, T', h => by cases h; exact Le.refl _
  | f + 1, p, p', T, T', h => by
    obtain ⟨⟨q, U⟩, h1, h2⟩ := bind_inv h
    exact (layer_le h1).trans (raise_le f h2)

theorem top_le {ids : Nat → PID} : ∀ (f : Nat) {p p' : Part K V} {T T' : Tbl K V},
    bulkTop cfg ids f (p, T) = some (p', T') → Le T T'
  | f, p, p', T, T', h => by
    unfold bulkTop at h
    by_cases hc : p.nodes.length ≤ 1
    · rw [if_pos hc] at h; cases h; exact Le.refl _
    · rw [if_neg hc] at h
      cases f with
      | zero => cases h
      | succ f =>
        obtain ⟨⟨q, U⟩, h1, h2⟩ := bind_inv h
        exact (layer_le h1).trans (top_le f h2)

theorem part_inv {ids : Nat → PID} {es : List (K × Pay V)} {p' : Part K V} {T T' : Tbl K V}
    (h : bulkPart cfg ids T es = some (p', T')) :
    ∃ ns j, bulkLayer cfg false ids es.length 0 es = some (ns, j) ∧
      Part.grow cfg ids es.length (⟨1, ns.filterMap nodeEntry, j⟩, T.putAll ns) = some (p', T') := by
  unfold bulkPart at h
  cases hb : bulkLayer cfg false ids es.length 0 es with
  | none => simp only [hb] at h; cases h
  | some r =>
    obtain ⟨ns, j⟩ := r
    simp only [hb] at h
    exact ⟨ns, j, rfl, h⟩

theorem part_le {ids : Nat → PID} {es : List (K × Pay V)} {p' : Part K V} {T T' : Tbl K V}
    (h : bulkPart cfg ids T es = some (p', T')) : Le T T' := by
  obtain ⟨ns, j, _, h⟩ := part_inv h
  exact (putAll_le ns T).1.trans (grow_le _ h)

theorem parts_inv {ids : Nat → Nat → PID} {s : List (K × Pay V)} {ss : List (List (K × Pay V))} {t : Nat}
    {T T' : Tbl K V} {ps : List (Part K V)} (h : bulkParts cfg ids t T (s :: ss) = some (ps, T')) :
    ∃ p U ps', bulkPart cfg (ids t) T s = some (p, U) ∧ bulkParts cfg ids (t + 1) U ss = some (ps', T') ∧
      ps = p :: ps' := by
  rw [bulkParts] at h
  cases hb : bulkPart cfg (ids t) T s with
  | none => simp only [hb] at h; cases h
  | some r =>
    obtain ⟨p, U⟩ := r
    simp only [hb] at h
    obtain ⟨⟨ps', T2⟩, h1, h2⟩ := Option.map_eq_some_iff.1 h
    cases h2
    exact ⟨p, U, ps', rfl, h1, rfl⟩

theorem parts_le {ids : Nat → Nat → PID} : ∀ (ss : List (List (K × Pay V))) {t : Nat} {T T' : Tbl K V}
    {ps : List (Part K V)}, bulkParts cfg ids t T ss = some (ps, T') → Le T T'
  | [], t, T, T', ps, h => by cases h; exact Le.refl _
  | s :: ss, t, T, T', ps, h => by
    obtain ⟨p, U, ps', h1, h2, _⟩ := parts_inv h
    exact (part_le h1).trans (parts_le ss h2)

theorem link_le : ∀ (f : Nat) {T T' : Tbl K V} {l r : PID}, linkBorder cfg f T l r = some T' → Le T T'
  | 0, T, T', l, r, h => by cases h
  | f + 1, T, T', l, r, h => by
    rw [linkBorder] at h
    cases hl : T l with
    | none => simp only [hl] at h; cases h
    | some ln =>
    cases hr : T r with
    | none => simp only [hl, hr] at h; cases h
    | some rn =>
    simp only [hl, hr] at h
    split at h
    · cases h; exact le_upd T l _
    · split at h
      · exact (le_upd T l _).trans (link_le f h)
      · cases h

theorem remove_le : ∀ (f : Nat) {T T' : Tbl K V} {p : PID}, removeLeftmost f T p = some T' → Le T T'
  | 0, T, T', p, h => by cases h
  | f + 1, T, T', p, h => by
    rw [removeLeftmost] at h
    cases hp : T p with
    | none => simp only [hp] at h; cases h
    | some n =>
    simp only [hp] at h
    split at h
    · cases h; exact le_upd T p _
    · split at h
      · exact (le_upd T p _).trans (remove_le f h)
      · cases h

theorem join_inv {ids : Nat → Nat → PID} {height t : Nat} {prev : PID} {T T' : Tbl K V} {p : Part K V}
    {ps : List (Part K V)} {ns : List (K × Pay V)}
    (h : bulkJoin cfg ids height t prev T (p :: ps) = some (ns, T')) :
    ∃ p' U W ns', Part.raise cfg (ids t) (height - p.height) (p, T) = some (p', U) ∧
      (if prev = 0 then some U else linkBorder cfg height U prev (entryPid p'.nodes.head?)) = some W ∧
      bulkJoin cfg ids height (t + 1) (entryPid p'.nodes.getLast?) W ps = some (ns', T') ∧
      ns = p'.nodes ++ ns' := by
  rw [bulkJoin] at h
  cases hb : Part.raise cfg (ids t) (height - p.height) (p, T) with
  | none => simp only [hb] at h; cases h
  | some r =>
    obtain ⟨p', U⟩ := r
    simp only [hb] at h
    cases hw : (if prev = 0 then some U else linkBorder cfg height U prev (entryPid p'.nodes.head?)) with
    | none => simp only [hw] at h; cases h
    | some W =>
      simp only [hw] at h
      obtain ⟨⟨ns', T2⟩, h1, h2⟩ := Option.map_eq_some_iff.1 h
      cases h2
      exact ⟨p', U, W, ns', rfl, hw, h1, rfl⟩

theorem join_le {ids : Nat → Nat → PID} {height : Nat} : ∀ (ps : List (Part K V)) {t : Nat} {prev : PID}
    {T T' : Tbl K V} {ns : List (K × Pay V)}, bulkJoin cfg ids height t prev T ps = some (ns, T') → Le T T'
  | [], t, prev, T, T', ns, h => by cases h; exact Le.refl _
  | p :: ps, t, prev, T, T', ns, h => by
    obtain ⟨p', U, W, ns', h1, h2, h3, _⟩ := join_inv h
    refine (raise_le _ h1).trans (Le.trans ?_ (join_le ps h3))
    by_cases hp : prev = 0
    · rw [if_pos hp] at h2; cases h2; exact Le.refl _
    · rw [if_neg hp] at h2; exact link_le _ h2

/-! ## The byte-level functions end -/

theorem bLayer_ends (he : FEncOK cfg P e) {inner : Bool} {ids : Nat → PID} :
    ∀ (f i : Nat) (es : List (K × Pay V)) {ns : List (PID × Node K V)} {j : Nat},
      (∀ x ∈ es, EntOK (256 ^ P.pid) inner x) → bulkLayer cfg inner ids f i es = some (ns, j) →
      (∀ x ∈ ns, x.1 < 256 ^ P.pid) →
      ∃ bns, bLayer P mem inner ids f i (es.map (encE e)) = some (bns, j)
  | f, i, [], ns, j, _, h, _ => by
    rw [bulkLayer] at h
    cases h
    exact ⟨[], by rw [List.map_nil, bLayer]⟩
  | 0, i, x :: xs, ns, j, _, h, _ => by rw [bulkLayer] at h; cases h
  | f + 1, i, x :: xs, ns, j, hk, h, hs => by
    rw [bulkLayer] at h
    rw [he.bulkRes, Nat.add_zero] at h
    obtain ⟨t1, _⟩ := bulkTake_spec (cfg := cfg) inner (x :: xs) cfg.hdr
    obtain ⟨pg, h1, h2⟩ := bTake_sim he (inner := inner) (old := mem (ids i)) (x :: xs) []
      (FPage.init P.c (mem (ids i))) FHolds.init (fun y hy => (hk y hy).1)
    simp only [List.length_nil, Nat.zero_mul, Nat.mul_zero, Nat.sub_zero, Nat.add_zero,
      List.nil_append] at h1 h2
    cases ht : bulkTake cfg inner cfg.hdr (x :: xs) with
    | mk tk rest =>
    rw [ht] at h h1 h2 t1
    simp only at h h1 h2 t1
    cases tk with
    | nil => cases h
    | cons y ys =>
      simp only at h
      cases hb : bulkLayer cfg inner ids f (i + 1) rest with
      | none => rw [hb] at h; cases h
      | some r =>
        obtain ⟨ns', j'⟩ := r
        rw [hb] at h
        cases h
        obtain ⟨bns, g⟩ := bLayer_ends he f (i + 1) rest
          (fun z hz => hk z (t1 ▸ List.mem_append_right _ hz)) hb
          (fun z hz => hs z (List.mem_cons_of_mem _ hz))
        have hid : ids i < 256 ^ P.pid := hs _ (List.mem_cons_self ..)
        have hc : pg.cnt ≠ 0 := by rw [h2.cnt]; simp
        refine ⟨(ids i, (FNode.loaded P inner pg).linkTo bns) :: bns, ?_⟩
        rw [List.map_cons, bLayer, ← List.map_cons, if_pos hid, h1, Option.bind_some, if_neg hc, g,
          Option.map_some]

theorem layer_ends (hp : FixPar cfg e P) {ids : Nat → PID} {p p' : Part K V} {b : BPart}
    {T T' : Tbl K V} {bT : BTbl} (h1 : PR P e p b) (h2 : TL P e mem T bT)
    (h : Part.layer cfg ids (p, T) = some (p', T')) (hs : Small (256 ^ P.pid) T') :
    ∃ b' bT', BPart.layer P mem ids (b, bT) = some (b', bT') ∧ PR P e p' b' ∧ TL P e mem T' bT' := by
  obtain ⟨ns, j, g1, rfl⟩ := layer_inv h
  obtain ⟨bns, g2⟩ := bLayer_ends (mem := mem) hp.enc _ _ _ h1.ent g1
    fun x hx => hs _ ((putAll_le ns T).2 x hx)
  have hb : BPart.layer P mem ids (b, bT) = some (⟨b.height + 1, nodeEnts bns, j⟩, bT.putAll bns) := by
    unfold BPart.layer
    simp only [h1.nodes, entBytes_chE hp h1.ent, List.length_map, h1.used, g2, Option.map_some]
  obtain ⟨p2, T2, q1, q2, q3⟩ := layer_sim hp h1 h2 hb
  cases q1.symm.trans h
  exact ⟨_, _, hb, q2, q3⟩

theorem grow_ends (hp : FixPar cfg e P) (h8 : P.pid = 8) {ids : Nat → PID} :
    ∀ (f : Nat) {p p' : Part K V} {b : BPart} {T T' : Tbl K V} {bT : BTbl}, PR P e p b →
      TL P e mem T bT → Part.grow cfg ids f (p, T) = some (p', T') → Small (256 ^ P.pid) T' →
      ∃ b' bT', BPart.grow P mem ids f (b, bT) = some (b', bT') ∧ PR P e p' b' ∧ TL P e mem T' bT'
  | f, p, p', b, T, T', bT, h1, h2, h, hs => by
    have hlen : b.nodes.length = p.nodes.length := by rw [h1.nodes, List.length_map]
    unfold Part.grow at h
    unfold BPart.grow
    rw [hlen, innerCap_eq hp h8]
    by_cases hc : p.nodes.length ≤ cfg.innerCap
    · rw [if_pos hc] at h ⊢; cases h; exact ⟨_, _, rfl, h1, h2⟩
    · rw [if_neg hc] at h ⊢
      cases f with
      | zero => cases h
      | succ f =>
        obtain ⟨⟨q, U⟩, g1, g2⟩ := bind_inv h
        obtain ⟨b1, bU, k1, k2, k3⟩ := layer_ends hp h1 h2 g1 (hs.le (grow_le f g2))
        obtain ⟨b2, bT2, k4, k5⟩ := grow_ends hp h8 f k2 k3 g2 hs
        exact ⟨b2, bT2, by simp only [k1, Option.bind_some, k4], k5⟩

theorem raise_ends (hp : FixPar cfg e P) {ids : Nat → PID} :
    ∀ (f : Nat) {p p' : Part K V} {b : BPart} {T T' : Tbl K V} {bT : BTbl}, PR P e p b →
      TL P e mem T bT → Part.raise cfg ids f (p, T) = some (p', T') → Small (256 ^ P.pid) T' →
      ∃ b' bT', BPart.raise P mem ids f (b, bT) = some (b', bT') ∧ PR P e p' b' ∧ TL P e mem T' bT'
  | 0, p, p', b, T, T', bT, h1, h2, h, _ => by cases h; exact ⟨_, _, rfl, h1, h2⟩
  | f + 1, p, p', b, T, T', bT, h1, h2, h, hs => by
    obtain ⟨⟨q, U⟩, g1, g2⟩ := bind_inv h
    obtain ⟨b1, bU, k1, k2, k3⟩ := layer_ends hp h1 h2 g1 (hs.le (raise_le f g2))
    obtain ⟨b2, bT2, k4, k5⟩ := raise_ends hp f k2 k3 g2 hs
    exact ⟨b2, bT2, by rw [BPart.raise, k1, Option.bind_some, k4], k5⟩

theorem top_ends (hp : FixPar cfg e P) {ids : Nat → PID} :
    ∀ (f : Nat) {p p' : Part K V} {b : BPart} {T T' : Tbl K V} {bT : BTbl}, PR P e p b →
      TL P e mem T bT → bulkTop cfg ids f (p, T) = some (p', T') → Small (256 ^ P.pid) T' →
      ∃ b' bT', bBulkTop P mem ids f (b, bT) = some (b', bT') ∧ PR P e p' b' ∧ TL P e mem T' bT'
  | f, p, p', b, T, T', bT, h1, h2, h, hs => by
    have hlen : b.nodes.length = p.nodes.length := by rw [h1.nodes, List.length_map]
    unfold bulkTop at h
    unfold bBulkTop
    rw [hlen]
    by_cases hc : p.nodes.length ≤ 1
    · rw [if_pos hc] at h ⊢; cases h; exact ⟨_, _, rfl, h1, h2⟩
    · rw [if_neg hc] at h ⊢
      cases f with
      | zero => cases h
      | succ f =>
        obtain ⟨⟨q, U⟩, g1, g2⟩ := bind_inv h
        obtain ⟨b1, bU, k1, k2, k3⟩ := layer_ends hp h1 h2 g1 (hs.le (top_le f g2))
        obtain ⟨b2, bT2, k4, k5⟩ := top_ends hp f k2 k3 g2 hs
        exact ⟨b2, bT2, by simp only [k1, Option.bind_some, k4], k5⟩

theorem part_ends (hp : FixPar cfg e P) (h8 : P.pid = 8) {ids : Nat → PID} {es : List (K × Pay V)}
    (hk : ∀ x ∈ es, EntOK (256 ^ P.pid) false x) {T T' : Tbl K V} {bT : BTbl} (h2 : TL P e mem T bT)
    {p' : Part K V} (h : bulkPart cfg ids T es = some (p', T')) (hs : Small (256 ^ P.pid) T') :
    ∃ b' bT', bBulkPart P mem ids bT (es.map (encE e)) = some (b', bT') ∧ PR P e p' b' ∧
      TL P e mem T' bT' := by
  obtain ⟨ns, j, g1, g2⟩ := part_inv h
  obtain ⟨bns, g3⟩ := bLayer_ends (mem := mem) hp.enc _ _ _ hk g1
    fun x hx => hs _ (grow_le _ g2 _ ((putAll_le ns T).2 x hx))
  obtain ⟨ns', g1', h4⟩ := bLayer_sim hp.enc _ _ _ hk g3
  cases g1'.symm.trans g1
  obtain ⟨h5, h6⟩ := nodeEnts_sim h4
  obtain ⟨b', bT', k1, k2⟩ := grow_ends hp h8 es.length (b := ⟨1, nodeEnts bns, j⟩)
    ⟨rfl, rfl, h5, h6⟩ (putAll_sim h4 h2) g2 hs
  refine ⟨b', bT', ?_, k2⟩
  unfold bBulkPart
  rw [List.length_map, g3, Option.bind_some]
  exact k1

theorem parts_ends (hp : FixPar cfg e P) (h8 : P.pid = 8) {ids : Nat → Nat → PID} :
    ∀ (ss : List (List (K × Pay V))) (t : Nat) {T T' : Tbl K V} {bT : BTbl} {ps : List (Part K V)},
      (∀ s ∈ ss, ∀ x ∈ s, EntOK (256 ^ P.pid) false x) → TL P e mem T bT →
      bulkParts cfg ids t T ss = some (ps, T') → Small (256 ^ P.pid) T' →
      ∃ bs bT', bBulkParts P mem ids t bT (ss.map (·.map (encE e))) = some (bs, bT') ∧
        List.Forall₂ (PR P e) ps bs ∧ TL P e mem T' bT'
  | [], t, T, T', bT, ps, _, h2, h, _ => by cases h; exact ⟨[], bT, rfl, .nil, h2⟩
  | s :: ss, t, T, T', bT, ps, hk, h2, h, hs => by
    obtain ⟨p, U, ps', g1, g2, rfl⟩ := parts_inv h
    obtain ⟨b, bU, k1, k2, k3⟩ := part_ends hp h8 (hk s (List.mem_cons_self ..)) h2 g1
      (hs.le (parts_le ss g2))
    obtain ⟨bs, bT', k4, k5, k6⟩ := parts_ends hp h8 ss (t + 1)
      (fun s' hs' => hk s' (List.mem_cons_of_mem _ hs')) k3 g2 hs
    refine ⟨b :: bs, bT', ?_, .cons k2 k5, k6⟩
    rw [List.map_cons, bBulkParts, k1, Option.bind_some, k4, Option.map_some]

theorem TR.get' {T : Tbl K V} {bT : BTbl} (h : TR P e mem T bT) {p : PID} {n : Node K V}
    (hp : T p = some n) : ∃ nd, bT p = some nd ∧ NR P e mem p n nd := by
  rcases h p with ⟨h1, _⟩ | ⟨n', nd, h1, h2, h3⟩
  · rw [h1] at hp; cases hp
  · rw [h1] at hp; cases hp; exact ⟨nd, h2, h3⟩

theorem link_ends (hp : FixPar cfg e P) : ∀ (f : Nat) {T T' : Tbl K V} {bT : BTbl} {l r : PID},
    TL P e mem T bT → linkBorder cfg f T l r = some T' →
      ∃ bT', bLinkBorder P f bT l r = some bT' ∧ TL P e mem T' bT'
  | 0, T, T', bT, l, r, _, h => by cases h
  | f + 1, T, T', bT, l, r, hT, h => by
    suffices h' : ∃ bT', bLinkBorder P (f + 1) bT l r = some bT' by
      obtain ⟨bT', h'⟩ := h'
      obtain ⟨T2, q1, q2⟩ := linkBorder_sim hp (f + 1) hT h'
      cases q1.symm.trans h
      exact ⟨bT', h', q2⟩
    obtain ⟨ht, hl⟩ := hT
    rw [linkBorder] at h
    rw [bLinkBorder]
    cases hbl : T l with
    | none => simp only [hbl] at h; cases h
    | some ln =>
    cases hbr : T r with
    | none => simp only [hbl, hbr] at h; cases h
    | some rn =>
    simp only [hbl, hbr] at h
    obtain ⟨bl, g1, g2⟩ := ht.get' hbl
    obtain ⟨br, g3, g4⟩ := ht.get' hbr
    rw [g1, g3, Option.bind_some, Option.bind_some]
    have hput := ht.put (linkNext_nr hp.enc g2 g4 (hl _ _ hbr))
    have hlow : AllLow (upd T l (some { ln with next := r, high := rn.low, size := ln.size + cfg.olen rn.low })) := hl.put (hl l ln hbl)
    simp only
    rw [g2.img.1.inner]
    cases hi : ln.inner with
    | false => exact ⟨_, if_pos rfl⟩
    | true =>
      rw [hi, if_neg (by decide)] at h
      rw [if_neg (by decide)]
      obtain ⟨k1, c1⟩ := last_child hp g2 hi
      simp only [c1] at h
      have hri : rn.inner = true := by
        cases hri : rn.inner with
        | true => rfl
        | false =>
          cases hh : rn.recs with
          | nil => exact absurd hh g4.ne
          | cons x xs =>
            have h1 := (g4.ent x (hh ▸ List.mem_cons_self ..)).1
            rw [hri] at h1
            obtain ⟨v, hv⟩ := h1
            obtain ⟨k, pay⟩ := x
            have hv : pay = .val v := hv
            subst hv
            simp only [hh, List.head?_cons] at h
            cases h
      obtain ⟨k2, c2⟩ := first_child hp g4 hri
      simp only [c2] at h
      rw [g4.img.1.inner, hri, if_neg (by decide)]
      rw [hi] at hput hlow
      obtain ⟨bT', q, _⟩ := link_ends hp f ⟨hput, hlow⟩ h
      exact ⟨bT', q⟩

theorem remove_ends (hp : FixPar cfg e P) : ∀ (f : Nat) {T T' : Tbl K V} {bT : BTbl} {p : PID},
    TR P e mem T bT → removeLeftmost f T p = some T' → ∃ bT', bRemoveLeftmost P f bT p = some bT'
  | 0, T, T', bT, p, _, h => by cases h
  | f + 1, T, T', bT, p, ht, h => by
    rw [removeLeftmost] at h
    cases hn : T p with
    | none => simp only [hn] at h; cases h
    | some n =>
    simp only [hn] at h
    obtain ⟨nd, g1, g2⟩ := ht.get' hn
    have hput : TR P e mem (upd T p (some { n with low := none }))
        (upd bT p (some { nd with hasLow := false })) := by
      refine ht.put ?_
      obtain ⟨⟨⟨a1, a2, a3, a4, a5, a6, a7, a8⟩, a9⟩, a10, a11, a12⟩ := g2
      refine ⟨⟨⟨a1, a2, a3, fun i hi hne => ?_, a5, ⟨rfl, fun x hx => by cases hx⟩, a7, a8⟩, a9⟩, a10,
        a11, a12⟩
      exact a4 i hi fun ⟨b1, b2, b3⟩ => hne ⟨b1, rfl, b3⟩
    rw [bRemoveLeftmost, g1, Option.bind_some]
    simp only
    rw [g2.img.1.inner] at hput ⊢
    cases hi : n.inner with
    | false => exact ⟨_, if_pos rfl⟩
    | true =>
      rw [hi, if_neg (by decide)] at h
      rw [if_neg (by decide)]
      obtain ⟨k2, c2⟩ := first_child hp g2 hi
      simp only [c2] at h
      rw [hi] at hput
      exact remove_ends hp f hput h

theorem join_ends (hp : FixPar cfg e P) {ids : Nat → Nat → PID} {height : Nat} {ps : List (Part K V)}
    {bs : List BPart} (hps : List.Forall₂ (PR P e) ps bs) :
    ∀ (t : Nat) (prev : PID) {T T' : Tbl K V} {bT : BTbl} {ns : List (K × Pay V)},
      TL P e mem T bT → bulkJoin cfg ids height t prev T ps = some (ns, T') → Small (256 ^ P.pid) T' →
      ∃ bT', bBulkJoin P mem ids height t prev bT bs = some (ns.map (chE e), bT') := by
  induction hps with
  | nil => intro t prev T T' bT ns h2 h _; cases h; exact ⟨bT, rfl⟩
  | @cons p b ps bs h1 _ ih =>
    intro t prev T T' bT ns h2 h hs
    obtain ⟨p', U, W, ns', g1, g2, g3, rfl⟩ := join_inv h
    have hU : Le U W := by
      by_cases hp : prev = 0
      · rw [if_pos hp] at g2; cases g2; exact Le.refl _
      · rw [if_neg hp] at g2; exact link_le _ g2
    obtain ⟨b', bU, k1, k2, k3⟩ := raise_ends hp _ h1 h2 g1 (hs.le (hU.trans (join_le ps g3)))
    obtain ⟨bW, k4, k5⟩ : ∃ bW, (if prev = 0 then some bU else
        bLinkBorder P height bU prev (bEntryPid b'.nodes.head?)) = some bW ∧ TL P e mem W bW := by
      by_cases hpr : prev = 0
      · rw [if_pos hpr] at g2 ⊢
        cases g2
        exact ⟨bU, rfl, k3⟩
      · rw [if_neg hpr] at g2 ⊢
        rw [k2.nodes, List.head?_map, entryPid_sim]
        exact link_ends hp _ k3 g2
    obtain ⟨bT', k6⟩ := ih (t + 1) (entryPid p'.nodes.getLast?) k5 g3 hs
    refine ⟨bT', ?_⟩
    rw [bBulkJoin, h1.height, k1, Option.bind_some]
    simp only
    rw [k4, Option.bind_some, k2.nodes, List.getLast?_map, entryPid_sim, k6, Option.map_some,
      List.map_append]

/-- If `Bulkload` ends in the model and its page IDs fit in their bytes, it ends on bytes. -/
theorem bulkload_ends (hp : FixPar cfg e P) (h8 : P.pid = 8) {ids : Nat → Nat → PID} {threads : Nat}
    {es : List (K × V)} {T : Tbl K V} {root : PID} (h : bulkload cfg ids threads es = some (T, root))
    (hs : ∀ p n, T p = some n → p < 256 ^ P.pid) :
    ∃ bT, bBulkload P mem ids threads (es.map fun x => (e.key x.1, e.val x.2)) = some (bT, root) := by
  have hsm : Small (256 ^ P.pid) T := fun p hne => by
    obtain ⟨n, hn⟩ := Option.ne_none_iff_exists'.1 hne
    exact hs p n hn
  have hes : (es.map fun x => (e.key x.1, e.val x.2)) =
      (es.map fun x => (x.1, Pay.val x.2)).map (encE e) := by
    rw [List.map_map]; rfl
  unfold bulkload at h
  unfold bBulkload
  rw [hes, bulkShares_map]
  have hk : ∀ s ∈ bulkShares threads (es.map fun x => (x.1, Pay.val x.2)), ∀ x ∈ s,
      EntOK (256 ^ P.pid) false x := by
    intro s hs x hx
    obtain ⟨y, _, rfl⟩ := List.mem_map.1 (bulkShares_mem _ _ s hs x hx)
    exact ⟨⟨y.2, rfl⟩, fun q hq => by cases hq⟩
  generalize bulkShares threads (es.map fun x => (x.1, Pay.val x.2)) = ss at h hk ⊢
  simp only [List.length_map] at h ⊢
  cases h1 : bulkParts cfg ids 0 (fun _ => none) ss with
  | none => simp only [h1] at h; cases h
  | some x =>
  obtain ⟨ps, T1⟩ := x
  simp only [h1] at h
  generalize hh : ps.foldr (fun p h => max p.height h) 1 = height at h
  cases h2 : bulkJoin cfg ids height 0 0 T1 ps with
  | none => simp only [h2] at h; cases h
  | some y =>
  obtain ⟨ns, T2⟩ := y
  simp only [h2] at h
  cases h3 : bulkTop cfg (ids ss.length) ns.length (⟨height, ns, 0⟩, T2) with
  | none => simp only [h3] at h; cases h
  | some z =>
  obtain ⟨p, T3⟩ := z
  simp only [h3] at h
  obtain ⟨T4, h4, h5⟩ := Option.map_eq_some_iff.1 h
  cases h5
  have s3 := hsm.le (remove_le _ h4)
  have s2 := s3.le (top_le _ h3)
  have s1 := s2.le (join_le _ h2)
  obtain ⟨bs, bT1, g1, g2, g3⟩ := parts_ends (mem := mem) hp h8 ss 0 (T := fun _ => none)
    (bT := fun _ => none) hk ⟨fun p => Or.inl ⟨rfl, rfl⟩, fun p n hp => by cases hp⟩ h1 s1
  obtain ⟨bT2, g4⟩ := join_ends hp g2 0 0 g3 h2 s2
  obtain ⟨ns', T2', g5, g6, g7, g8⟩ := join_sim hp g2 0 0 g3 g4
  cases g5.symm.trans h2
  obtain ⟨b, bT3, g9, g10, g11⟩ := top_ends hp ns.length (p := ⟨height, ns, 0⟩)
    (b := ⟨height, ns.map (chE e), 0⟩) ⟨rfl, rfl, rfl, g7⟩ g8 h3 s3
  obtain ⟨bT4, g12⟩ := remove_ends hp _ g11.1 h4
  refine ⟨bT4, ?_⟩
  rw [g1, Option.bind_some]
  simp only
  rw [foldr_height g2, hh, g4, Option.bind_some]
  simp only [List.length_map]
  rw [g9, Option.bind_some, g10.nodes, List.head?_map, entryPid_sim, g10.height]
  simp only [g12, Option.map_some]

end BwTree.Fix
