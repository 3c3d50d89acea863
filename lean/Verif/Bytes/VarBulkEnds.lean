import Verif.Bytes.VarBulkSim
import Verif.Fix.BulkEnds

/-!
# Bulkload on variable-length bytes ends whenever it does in the model (proofs)
-/

namespace BwTree.Bytes

open Layout
open Fix (encE chE EntOK AllLow bulkShares_map bulkShares_mem Le Small putAll_le layer_inv bind_inv
  grow_le raise_le top_le part_inv part_le parts_inv parts_le link_le remove_le join_inv join_le)

set_option linter.unusedSectionVars false

variable {K V : Type} [LinearOrder K] {cfg : Cfg K} {e : Enc K V} {P : VPar} {mem : PID → Mem}

theorem vLayer_all (hb : BulkPar cfg e P) {inner : Bool} {ids : Nat → PID} :
    ∀ (f i : Nat) (es : List (K × Pay V)) {ns : List (PID × Node K V)} {j : Nat},
      (∀ x ∈ es, EntOK (256 ^ P.pid) inner x) → bulkLayer cfg inner ids f i es = some (ns, j) →
      (∀ x ∈ ns, x.1 < 256 ^ P.pid) →
      ∃ bns, vLayer P cfg.maxKey mem inner ids f i (es.map (encE e)) = some (bns, j)
  | f, i, [], ns, j, _, h, _ => by
    rw [bulkLayer] at h
    cases h
    exact ⟨[], by rw [List.map_nil, vLayer]⟩
  | 0, i, x :: xs, ns, j, _, h, _ => by rw [bulkLayer] at h; cases h
  | f + 1, i, x :: xs, ns, j, hk, h, hs => by
    rw [bulkLayer] at h
    obtain ⟨t1, _⟩ := bulkTake_spec (cfg := cfg) inner (x :: xs) (cfg.hdr + cfg.bulkRes inner)
    cases ht : bulkTake cfg inner (cfg.hdr + cfg.bulkRes inner) (x :: xs) with
    | mk tk rest =>
    rw [ht] at h t1
    simp only at h t1
    cases tk with
    | nil => cases h
    | cons y ys =>
      simp only at h
      cases hl : bulkLayer cfg inner ids f (i + 1) rest with
      | none => rw [hl] at h; cases h
      | some r =>
        obtain ⟨ns', j'⟩ := r
        rw [hl] at h
        cases h
        obtain ⟨pg, h1, h2⟩ := loaded_vnr (mem := mem) (p := ids i) hb ht hk
        obtain ⟨bns, g⟩ := vLayer_all hb f (i + 1) rest
          (fun z hz => hk z (t1 ▸ List.mem_append_right _ hz)) hl
          (fun z hz => hs z (List.mem_cons_of_mem _ hz))
        have hid : ids i < 256 ^ P.pid := hs _ (List.mem_cons_self ..)
        have hc : pg.cnt ≠ 0 := Nat.pos_iff_ne_zero.1 h2.cnt_pos
        refine ⟨(ids i, vLinkTo P pg bns) :: bns, ?_⟩
        rw [List.map_cons, vLayer, ← List.map_cons, if_pos hid, h1, Option.bind_some, if_neg hc, g,
          Option.map_some]

theorem vLayer_ends (hp : BulkPar cfg e P) {ids : Nat → PID} {p p' : Part K V} {b : VPart}
    {T T' : Tbl K V} {bT : VTbl} (h1 : VPR P e p b) (h2 : VTL cfg.maxKey P e mem T bT)
    (h : Part.layer cfg ids (p, T) = some (p', T')) (hs : Small (256 ^ P.pid) T') :
    ∃ b' bT', VPart.layer P cfg.maxKey mem ids (b, bT) = some (b', bT') ∧ VPR P e p' b' ∧ VTL cfg.maxKey P e mem T' bT' := by
  obtain ⟨ns, j, g1, rfl⟩ := layer_inv h
  obtain ⟨bns, g2⟩ := vLayer_all (mem := mem) hp _ _ _ h1.ent g1
    fun x hx => hs _ ((putAll_le ns T).2 x hx)
  have hb : VPart.layer P cfg.maxKey mem ids (b, bT) = some (⟨b.height + 1, vEnts P bns, j⟩, bT.putAll bns) := by
    unfold VPart.layer
    simp only [h1.nodes, vEntBytes_chE hp h1.ent, List.length_map, h1.used, g2, Option.map_some]
  obtain ⟨p2, T2, q1, q2, q3⟩ := vLayer_one hp h1 h2 hb
  cases q1.symm.trans h
  exact ⟨_, _, hb, q2, q3⟩

theorem vGrow_ends (hp : BulkPar cfg e P) {ids : Nat → PID} :
    ∀ (f : Nat) {p p' : Part K V} {b : VPart} {T T' : Tbl K V} {bT : VTbl}, VPR P e p b →
      VTL cfg.maxKey P e mem T bT → Part.grow cfg ids f (p, T) = some (p', T') → Small (256 ^ P.pid) T' →
      ∃ b' bT', VPart.grow P cfg.maxKey 8 mem ids f (b, bT) = some (b', bT') ∧ VPR P e p' b' ∧ VTL cfg.maxKey P e mem T' bT'
  | f, p, p', b, T, T', bT, h1, h2, h, hs => by
    have hlen : b.nodes.length = p.nodes.length := by rw [h1.nodes, List.length_map]
    unfold Part.grow at h
    unfold VPart.grow
    rw [hlen, vInnerCap_eq hp]
    by_cases hc : p.nodes.length ≤ cfg.innerCap
    · rw [if_pos hc] at h ⊢; cases h; exact ⟨_, _, rfl, h1, h2⟩
    · rw [if_neg hc] at h ⊢
      cases f with
      | zero => cases h
      | succ f =>
        obtain ⟨⟨q, U⟩, g1, g2⟩ := bind_inv h
        obtain ⟨b1, bU, k1, k2, k3⟩ := vLayer_ends hp h1 h2 g1 (hs.le (grow_le f g2))
        obtain ⟨b2, bT2, k4, k5⟩ := vGrow_ends hp f k2 k3 g2 hs
        exact ⟨b2, bT2, by simp only [k1, Option.bind_some, k4], k5⟩

theorem vRaise_ends (hp : BulkPar cfg e P) {ids : Nat → PID} :
    ∀ (f : Nat) {p p' : Part K V} {b : VPart} {T T' : Tbl K V} {bT : VTbl}, VPR P e p b →
      VTL cfg.maxKey P e mem T bT → Part.raise cfg ids f (p, T) = some (p', T') → Small (256 ^ P.pid) T' →
      ∃ b' bT', VPart.raise P cfg.maxKey mem ids f (b, bT) = some (b', bT') ∧ VPR P e p' b' ∧ VTL cfg.maxKey P e mem T' bT'
  | 0, p, p', b, T, T', bT, h1, h2, h, _ => by cases h; exact ⟨_, _, rfl, h1, h2⟩
  | f + 1, p, p', b, T, T', bT, h1, h2, h, hs => by
    obtain ⟨⟨q, U⟩, g1, g2⟩ := bind_inv h
    obtain ⟨b1, bU, k1, k2, k3⟩ := vLayer_ends hp h1 h2 g1 (hs.le (raise_le f g2))
    obtain ⟨b2, bT2, k4, k5⟩ := vRaise_ends hp f k2 k3 g2 hs
    exact ⟨b2, bT2, by rw [VPart.raise, k1, Option.bind_some, k4], k5⟩

theorem vTop_ends (hp : BulkPar cfg e P) {ids : Nat → PID} :
    ∀ (f : Nat) {p p' : Part K V} {b : VPart} {T T' : Tbl K V} {bT : VTbl}, VPR P e p b →
      VTL cfg.maxKey P e mem T bT → bulkTop cfg ids f (p, T) = some (p', T') → Small (256 ^ P.pid) T' →
      ∃ b' bT', vBulkTop P cfg.maxKey mem ids f (b, bT) = some (b', bT') ∧ VPR P e p' b' ∧ VTL cfg.maxKey P e mem T' bT'
  | f, p, p', b, T, T', bT, h1, h2, h, hs => by
    have hlen : b.nodes.length = p.nodes.length := by rw [h1.nodes, List.length_map]
    unfold bulkTop at h
    unfold vBulkTop
    rw [hlen]
    by_cases hc : p.nodes.length ≤ 1
    · rw [if_pos hc] at h ⊢; cases h; exact ⟨_, _, rfl, h1, h2⟩
    · rw [if_neg hc] at h ⊢
      cases f with
      | zero => cases h
      | succ f =>
        obtain ⟨⟨q, U⟩, g1, g2⟩ := bind_inv h
        obtain ⟨b1, bU, k1, k2, k3⟩ := vLayer_ends hp h1 h2 g1 (hs.le (top_le f g2))
        obtain ⟨b2, bT2, k4, k5⟩ := vTop_ends hp f k2 k3 g2 hs
        exact ⟨b2, bT2, by simp only [k1, Option.bind_some, k4], k5⟩

theorem vPart_ends (hp : BulkPar cfg e P) {ids : Nat → PID} {es : List (K × Pay V)}
    (hk : ∀ x ∈ es, EntOK (256 ^ P.pid) false x) {T T' : Tbl K V} {bT : VTbl} (h2 : VTL cfg.maxKey P e mem T bT)
    {p' : Part K V} (h : bulkPart cfg ids T es = some (p', T')) (hs : Small (256 ^ P.pid) T') :
    ∃ b' bT', vBulkPart P cfg.maxKey 8 mem ids bT (es.map (encE e)) = some (b', bT') ∧ VPR P e p' b' ∧
      VTL cfg.maxKey P e mem T' bT' := by
  obtain ⟨ns, j, g1, g2⟩ := part_inv h
  obtain ⟨bns, g3⟩ := vLayer_all (mem := mem) hp _ _ _ hk g1
    fun x hx => hs _ (grow_le _ g2 _ ((putAll_le ns T).2 x hx))
  obtain ⟨ns', g1', h4⟩ := vLayer_sim hp _ _ _ hk g3
  cases g1'.symm.trans g1
  obtain ⟨h5, h6⟩ := vEnts_sim h4
  obtain ⟨b', bT', k1, k2⟩ := vGrow_ends hp es.length (b := ⟨1, vEnts P bns, j⟩)
    ⟨rfl, rfl, h5, h6⟩ (vPutAll_sim h4 h2) g2 hs
  refine ⟨b', bT', ?_, k2⟩
  unfold vBulkPart
  rw [List.length_map, g3, Option.bind_some]
  exact k1

theorem vParts_ends (hp : BulkPar cfg e P) {ids : Nat → Nat → PID} :
    ∀ (ss : List (List (K × Pay V))) (t : Nat) {T T' : Tbl K V} {bT : VTbl} {ps : List (Part K V)},
      (∀ s ∈ ss, ∀ x ∈ s, EntOK (256 ^ P.pid) false x) → VTL cfg.maxKey P e mem T bT →
      bulkParts cfg ids t T ss = some (ps, T') → Small (256 ^ P.pid) T' →
      ∃ bs bT', vBulkParts P cfg.maxKey 8 mem ids t bT (ss.map (·.map (encE e))) = some (bs, bT') ∧
        List.Forall₂ (VPR P e) ps bs ∧ VTL cfg.maxKey P e mem T' bT'
  | [], t, T, T', bT, ps, _, h2, h, _ => by cases h; exact ⟨[], bT, rfl, .nil, h2⟩
  | s :: ss, t, T, T', bT, ps, hk, h2, h, hs => by
    obtain ⟨p, U, ps', g1, g2, rfl⟩ := parts_inv h
    obtain ⟨b, bU, k1, k2, k3⟩ := vPart_ends hp (hk s (List.mem_cons_self ..)) h2 g1
      (hs.le (parts_le ss g2))
    obtain ⟨bs, bT', k4, k5, k6⟩ := vParts_ends hp ss (t + 1)
      (fun s' hs' => hk s' (List.mem_cons_of_mem _ hs')) k3 g2 hs
    refine ⟨b :: bs, bT', ?_, .cons k2 k5, k6⟩
    rw [List.map_cons, vBulkParts, k1, Option.bind_some, k4, Option.map_some]

theorem VTR.get' {T : Tbl K V} {bT : VTbl} (h : VTR cfg.maxKey P e mem T bT) {p : PID} {n : Node K V}
    (hp : T p = some n) : ∃ nd, bT p = some nd ∧ VNR cfg.maxKey P e mem p n nd := by
  rcases h p with ⟨h1, _⟩ | ⟨n', nd, h1, h2, h3⟩
  · rw [h1] at hp; cases hp
  · rw [h1] at hp; cases hp; exact ⟨nd, h2, h3⟩

theorem vLink_ends (hp : BulkPar cfg e P) : ∀ (f : Nat) {T T' : Tbl K V} {bT : VTbl} {l r : PID},
    VTL cfg.maxKey P e mem T bT → linkBorder cfg f T l r = some T' →
      ∃ bT', vLinkBorder P f bT l r = some bT' ∧ VTL cfg.maxKey P e mem T' bT'
  | 0, T, T', bT, l, r, _, h => by cases h
  | f + 1, T, T', bT, l, r, hT, h => by
    suffices h' : ∃ bT', vLinkBorder P (f + 1) bT l r = some bT' by
      obtain ⟨bT', h'⟩ := h'
      obtain ⟨T2, q1, q2⟩ := vLinkBorder_sim hp (f + 1) hT h'
      cases q1.symm.trans h
      exact ⟨bT', h', q2⟩
    obtain ⟨ht, hl⟩ := hT
    rw [linkBorder] at h
    rw [vLinkBorder]
    cases hbl : T l with
    | none => simp only [hbl] at h; cases h
    | some ln =>
    cases hbr : T r with
    | none => simp only [hbl, hbr] at h; cases h
    | some rn =>
    simp only [hbl, hbr] at h
    obtain ⟨bl, g1, g2⟩ := ht.get' hbl
    obtain ⟨br, g3, g4⟩ := ht.get' hbr
    rw [g1, g3, Option.bind_some, Option.bind_some]
    have hput := ht.put (vLink_vnr hp (r := r) g2 g4.img)
    have hlow : AllLow (upd T l (some { ln with next := r, high := rn.low, size := ln.size + cfg.olen rn.low })) := hl.put (hl l ln hbl)
    simp only
    rw [g2.img.inner]
    cases hi : ln.inner with
    | false => exact ⟨_, if_pos rfl⟩
    | true =>
      rw [hi, if_neg (by decide)] at h
      rw [if_neg (by decide)]
      obtain ⟨k1, c1⟩ := vLast_child hp g2 hi
      simp only [c1] at h
      have hri : rn.inner = true := by
        cases hri : rn.inner with
        | true => rfl
        | false =>
          cases hh : rn.recs with
          | nil => exact absurd hh g4.ne
          | cons x xs =>
            have h1 := (g4.ent x (hh ▸ List.mem_cons_self ..)).1
            rw [hri] at h1
            obtain ⟨v, hv⟩ := h1
            obtain ⟨k, pay⟩ := x
            have hv : pay = .val v := hv
            subst hv
            simp only [hh, List.head?_cons] at h
            cases h
      obtain ⟨k2, c2⟩ := vFirst_child hp g4 hri
      simp only [c2] at h
      rw [g4.img.inner, hri, if_neg (by decide)]
      rw [hi] at hput hlow
      obtain ⟨bT', q, _⟩ := vLink_ends hp f ⟨hput, hlow⟩ h
      exact ⟨bT', q⟩

theorem vRemove_ends (hp : BulkPar cfg e P) : ∀ (f : Nat) {T T' : Tbl K V} {bT : VTbl} {p : PID},
    VTR cfg.maxKey P e mem T bT → removeLeftmost f T p = some T' →
      ∃ bT', vRemoveLeftmost P f bT p = some bT'
  | 0, T, T', bT, p, _, h => by cases h
  | f + 1, T, T', bT, p, ht, h => by
    rw [removeLeftmost] at h
    cases hn : T p with
    | none => simp only [hn] at h; cases h
    | some n =>
    simp only [hn] at h
    obtain ⟨nd, g1, g2⟩ := ht.get' hn
    rw [vRemoveLeftmost, g1, Option.bind_some]
    simp only
    rw [g2.img.inner]
    cases hi : n.inner with
    | false => exact ⟨_, if_pos rfl⟩
    | true =>
      rw [hi, if_neg (by decide)] at h
      rw [if_neg (by decide)]
      have h3 := dropKey_vnr hp g2 hi
      have hput := ht.put h3
      obtain ⟨k2, c2⟩ := vFirst_child hp h3 hi
      have hin := g2.img.inner
      rw [hi] at hin
      simp only at c2
      simp only [c2] at h
      rw [hi] at hput
      rw [hin] at hput h
      exact vRemove_ends hp f hput h

theorem vJoin_ends (hp : BulkPar cfg e P) {ids : Nat → Nat → PID} {height : Nat} {ps : List (Part K V)}
    {bs : List VPart} (hps : List.Forall₂ (VPR P e) ps bs) :
    ∀ (t : Nat) (prev : PID) {T T' : Tbl K V} {bT : VTbl} {ns : List (K × Pay V)},
      VTL cfg.maxKey P e mem T bT → bulkJoin cfg ids height t prev T ps = some (ns, T') → Small (256 ^ P.pid) T' →
      ∃ bT', vBulkJoin P cfg.maxKey mem ids height t prev bT bs = some (ns.map (chE e), bT') := by
  induction hps with
  | nil => intro t prev T T' bT ns h2 h _; cases h; exact ⟨bT, rfl⟩
  | @cons p b ps bs h1 _ ih =>
    intro t prev T T' bT ns h2 h hs
    obtain ⟨p', U, W, ns', g1, g2, g3, rfl⟩ := join_inv h
    have hU : Le U W := by
      by_cases hp : prev = 0
      · rw [if_pos hp] at g2; cases g2; exact Le.refl _
      · rw [if_neg hp] at g2; exact link_le _ g2
    obtain ⟨b', bU, k1, k2, k3⟩ := vRaise_ends hp _ h1 h2 g1 (hs.le (hU.trans (join_le ps g3)))
    obtain ⟨bW, k4, k5⟩ : ∃ bW, (if prev = 0 then some bU else
        vLinkBorder P height bU prev (vEntryPid b'.nodes.head?)) = some bW ∧ VTL cfg.maxKey P e mem W bW := by
      by_cases hpr : prev = 0
      · rw [if_pos hpr] at g2 ⊢
        cases g2
        exact ⟨bU, rfl, k3⟩
      · rw [if_neg hpr] at g2 ⊢
        rw [k2.nodes, List.head?_map, vEntryPid_sim]
        exact vLink_ends hp _ k3 g2
    obtain ⟨bT', k6⟩ := ih (t + 1) (entryPid p'.nodes.getLast?) k5 g3 hs
    refine ⟨bT', ?_⟩
    rw [vBulkJoin, h1.height, k1, Option.bind_some]
    simp only
    rw [k4, Option.bind_some, k2.nodes, List.getLast?_map, vEntryPid_sim, k6, Option.map_some,
      List.map_append]

/-- If `Bulkload` ends in the model and its page IDs fit in their bytes, it ends on bytes. -/
theorem vBulkload_ends (hp : BulkPar cfg e P) {ids : Nat → Nat → PID} {threads : Nat}
    {es : List (K × V)} {T : Tbl K V} {root : PID} (h : bulkload cfg ids threads es = some (T, root))
    (hs : ∀ p n, T p = some n → p < 256 ^ P.pid) :
    ∃ bT, vBulkload P cfg.maxKey 8 mem ids threads (es.map fun x => (e.key x.1, e.val x.2)) = some (bT, root) := by
  have hsm : Small (256 ^ P.pid) T := fun p hne => by
    obtain ⟨n, hn⟩ := Option.ne_none_iff_exists'.1 hne
    exact hs p n hn
  have hes : (es.map fun x => (e.key x.1, e.val x.2)) =
      (es.map fun x => (x.1, Pay.val x.2)).map (encE e) := by
    rw [List.map_map]; rfl
  unfold bulkload at h
  unfold vBulkload
  rw [hes, bulkShares_map]
  have hk : ∀ s ∈ bulkShares threads (es.map fun x => (x.1, Pay.val x.2)), ∀ x ∈ s,
      EntOK (256 ^ P.pid) false x := by
    intro s hs x hx
    obtain ⟨y, _, rfl⟩ := List.mem_map.1 (bulkShares_mem _ _ s hs x hx)
    exact ⟨⟨y.2, rfl⟩, fun q hq => by cases hq⟩
  generalize bulkShares threads (es.map fun x => (x.1, Pay.val x.2)) = ss at h hk ⊢
  simp only [List.length_map] at h ⊢
  cases h1 : bulkParts cfg ids 0 (fun _ => none) ss with
  | none => simp only [h1] at h; cases h
  | some x =>
  obtain ⟨ps, T1⟩ := x
  simp only [h1] at h
  generalize hh : ps.foldr (fun p h => max p.height h) 1 = height at h
  cases h2 : bulkJoin cfg ids height 0 0 T1 ps with
  | none => simp only [h2] at h; cases h
  | some y =>
  obtain ⟨ns, T2⟩ := y
  simp only [h2] at h
  cases h3 : bulkTop cfg (ids ss.length) ns.length (⟨height, ns, 0⟩, T2) with
  | none => simp only [h3] at h; cases h
  | some z =>
  obtain ⟨p, T3⟩ := z
  simp only [h3] at h
  obtain ⟨T4, h4, h5⟩ := Option.map_eq_some_iff.1 h
  cases h5
  have s3 := hsm.le (remove_le _ h4)
  have s2 := s3.le (top_le _ h3)
  have s1 := s2.le (join_le _ h2)
  obtain ⟨bs, bT1, g1, g2, g3⟩ := vParts_ends (mem := mem) hp ss 0 (T := fun _ => none)
    (bT := fun _ => none) hk ⟨fun p => Or.inl ⟨rfl, rfl⟩, fun p n hp => by cases hp⟩ h1 s1
  obtain ⟨bT2, g4⟩ := vJoin_ends hp g2 0 0 g3 h2 s2
  obtain ⟨ns', T2', g5, g6, g7, g8⟩ := vJoin_sim hp g2 0 0 g3 g4
  cases g5.symm.trans h2
  obtain ⟨b, bT3, g9, g10, g11⟩ := vTop_ends hp ns.length (p := ⟨height, ns, 0⟩)
    (b := ⟨height, ns.map (chE e), 0⟩) ⟨rfl, rfl, rfl, g7⟩ g8 h3 s3
  obtain ⟨bT4, g12⟩ := vRemove_ends hp _ g11.1 h4
  refine ⟨bT4, ?_⟩
  rw [g1, Option.bind_some]
  simp only
  rw [vFoldr_height g2, hh, g4, Option.bind_some]
  simp only [List.length_map]
  rw [g9, Option.bind_some, g10.nodes, List.head?_map, vEntryPid_sim, g10.height]
  simp only [g12, Option.map_some]

end BwTree.Bytes
