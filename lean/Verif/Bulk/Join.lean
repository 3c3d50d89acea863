import Verif.Bulk.Levels

/-!
# Linking partial trees and the whole bulkload (proof side)
-/

namespace BwTree

set_option linter.unusedSectionVars false

variable {K V : Type} [LinearOrder K] {cfg : Cfg K}

/-! ## Layers side by side -/

/-- Layers of two trees of the same height, side by side. -/
def sideBySide (A B : List (List (Grp K V))) : List (List (Grp K V)) := List.zipWith (· ++ ·) A B

theorem entsOf_append (A B : List (Grp K V)) : entsOf (A ++ B) = entsOf A ++ entsOf B :=
  List.map_append

theorem LayerOK.append {b : Bool} {A B : List (Grp K V)} (h1 : LayerOK cfg b A)
    (h2 : LayerOK cfg b B) : LayerOK cfg b (A ++ B) := by
  refine ⟨fun e => h1.ne (List.append_eq_nil_iff.mp e).1, fun g hg => ?_⟩
  rcases List.mem_append.mp hg with h | h
  · exact h1.fits g h
  · exact h2.fits g h

theorem LvOK.side : ∀ {A B : List (List (Grp K V))} {e1 e2 : List (K × Pay V)},
    A.length = B.length → LvOK cfg e1 A → LvOK cfg e2 B → LvOK cfg (e1 ++ e2) (sideBySide A B)
  | [], _, _, _, _, h1, _ => h1.elim
  | _ :: _, [], _, _, h, _, _ => by cases h
  | [a], [b], _, _, _, h1, h2 =>
    ⟨h1.1.append h2.1, by rw [List.flatMap_append, h1.2, h2.2]⟩
  | [_], _ :: _ :: _, _, _, h, _, _ => by simp at h
  | _ :: _ :: _, [_], _, _, h, _, _ => by simp at h
  | a :: a' :: A, b :: b' :: B, _, _, h, h1, h2 => by
    refine ⟨h1.1.append h2.1, ?_, LvOK.side (A := a' :: A) (B := b' :: B) (by simpa using h) h1.2.2 h2.2.2⟩
    rw [List.flatMap_append, h1.2.1, h2.2.1, ← entsOf_append]

theorem lvPids_side : ∀ {A B : List (List (Grp K V))} {q : PID}, q ∈ lvPids (sideBySide A B) →
    q ∈ lvPids A ∨ q ∈ lvPids B
  | [], _, _, h => by simp [sideBySide, lvPids] at h
  | _ :: _, [], _, h => by simp [sideBySide, lvPids] at h
  | a :: A, b :: B, q, h => by
    have h : q ∈ lvPids ((a ++ b) :: sideBySide A B) := h
    rw [lvPids_cons, List.map_append] at h
    rcases List.mem_append.mp h with h | h
    · rcases List.mem_append.mp h with h | h
      · exact Or.inl (by rw [lvPids_cons]; exact List.mem_append_left _ h)
      · exact Or.inr (by rw [lvPids_cons]; exact List.mem_append_left _ h)
    · rcases lvPids_side h with h | h
      · exact Or.inl (by rw [lvPids_cons]; exact List.mem_append_right _ h)
      · exact Or.inr (by rw [lvPids_cons]; exact List.mem_append_right _ h)

theorem lvPids_side_perm : ∀ {A B : List (List (Grp K V))}, A.length = B.length →
    (lvPids (sideBySide A B)).Perm (lvPids A ++ lvPids B)
  | [], [], _ => List.Perm.refl _
  | [], _ :: _, h => by cases h
  | _ :: _, [], h => by cases h
  | a :: A, b :: B, h => by
    show (lvPids ((a ++ b) :: sideBySide A B)).Perm _
    rw [lvPids_cons, lvPids_cons, lvPids_cons, List.map_append, List.append_assoc, List.append_assoc]
    refine List.Perm.append_left _ ?_
    refine (List.Perm.append_left _ (lvPids_side_perm (A := A) (B := B) (by simpa using h))).trans ?_
    rw [← List.append_assoc, ← List.append_assoc]
    exact List.Perm.append_right _ List.perm_append_comm

/-! ## Border links -/

theorem flatMap_getLast? {A : List (Grp K V)} {a : Grp K V} :
    ((A ++ [a]).flatMap Grp.recs).getLast? = a.recs.getLast? := by
  rw [List.flatMap_append, List.flatMap_singleton, List.getLast?_append]
  cases h : a.recs.getLast? with
  | none => simp [Grp.recs] at h
  | some x => rfl

theorem linkBorder_spec : ∀ (A B : List (List (Grp K V))) (f : Nat) (T : Tbl K V)
    (R : List (PID × Node K V)) (e1 e2 : List (K × Pay V)) (l r : PID),
    LvOK cfg e1 A → LvOK cfg e2 B → A.length = B.length → A.length ≤ f →
    Holds T (lvNodes cfg A ++ (lvNodes cfg B ++ R)) →
    ((lvNodes cfg A ++ (lvNodes cfg B ++ R)).map Prod.fst).Nodup →
    (A.head?.bind fun g => g.getLast?.map Grp.pid) = some l →
    (B.head?.bind fun g => g.head?.map Grp.pid) = some r →
    ∃ T', linkBorder cfg f T l r = some T' ∧ Holds T' (lvNodes cfg (sideBySide A B) ++ R)
  | [], _, _, _, _, _, _, _, _, h1, _, _, _, _, _, _, _ => h1.elim
  | _ :: _, [], _, _, _, _, _, _, _, _, h2, _, _, _, _, _, _ => h2.elim
  | gA :: dA, gB :: dB, 0, _, _, _, _, _, _, _, _, _, hf, _, _, _, _ => by simp at hf
  | gA :: dA, gB :: dB, f + 1, T, R, e1, e2, l, r, h1, h2, hl, hf, hT, hn, e3, e4 => by
    obtain ⟨A', a, rfl⟩ : ∃ A' a, gA = A' ++ [a] := by
      rcases List.eq_nil_or_concat gA with e | ⟨A', a, e⟩
      · exact absurd e h1.ne
      · exact ⟨A', a, by simpa using e⟩
    obtain ⟨b, B', rfl⟩ : ∃ b B', gB = b :: B' := by
      cases gB with
      | nil => exact absurd rfl h2.ne
      | cons b B' => exact ⟨b, B', rfl⟩
    have hl' : dA.length = dB.length := by simpa using hl
    have ea : l = a.pid := by simpa using e3.symm
    have eb : r = b.pid := by simpa using e4.symm
    subst ea eb
    have hb : (!dB.isEmpty) = !dA.isEmpty := by
      cases dA <;> cases dB <;> first | rfl | cases hl'
    -- the nodes of the two top layers
    have s1 : lvNodes cfg ((A' ++ [a]) :: dA) ++ (lvNodes cfg ((b :: B') :: dB) ++ R) =
        nodesE cfg (!dA.isEmpty) (some a) A' ++ nodeOf cfg (!dA.isEmpty) a none ::
          (lvNodes cfg dA ++ (nodesE cfg (!dA.isEmpty) none (b :: B') ++ (lvNodes cfg dB ++ R))) := by
      rw [lvNodes, lvNodes, nodesE_append, hb]
      simp [nodesE]
    rw [s1] at hT hn
    have ha : T a.pid = some (nodeOf cfg (!dA.isEmpty) a none).2 :=
      hT.has (nodeOf cfg (!dA.isEmpty) a none) (List.mem_append_right _ (List.mem_cons_self))
    have hbn : T b.pid = some (nodeOf cfg (!dA.isEmpty) b (B'.head?.or none)).2 :=
      hT.has (nodeOf cfg (!dA.isEmpty) b (B'.head?.or none)) (by simp [nodesE])
    have hT2 := hT.replace (n' := (nodeOf cfg (!dA.isEmpty) a (some b)).2) hn
    have hpids : ((nodesE cfg (!dA.isEmpty) (some a) A' ++ nodeOf cfg (!dA.isEmpty) a (some b) ::
          (lvNodes cfg dA ++ (nodesE cfg (!dA.isEmpty) none (b :: B') ++ (lvNodes cfg dB ++ R)))).map
            Prod.fst).Nodup := by
      have : ∀ (X Y : List (PID × Node K V)), (X ++ nodeOf cfg (!dA.isEmpty) a (some b) :: Y).map Prod.fst
          = (X ++ nodeOf cfg (!dA.isEmpty) a none :: Y).map Prod.fst := by
        intro X Y; simp [nodeOf]
      rw [this]; exact hn
    have s2 : nodesE cfg (!dA.isEmpty) none ((A' ++ [a]) ++ b :: B') =
        nodesE cfg (!dA.isEmpty) (some a) A' ++ nodeOf cfg (!dA.isEmpty) a (some b) ::
          nodesE cfg (!dA.isEmpty) none (b :: B') := by
      rw [nodesE_append, nodesE_append]
      simp [nodesE]
    have hperm : (nodesE cfg (!dA.isEmpty) (some a) A' ++ nodeOf cfg (!dA.isEmpty) a (some b) ::
          (lvNodes cfg dA ++ (nodesE cfg (!dA.isEmpty) none (b :: B') ++ (lvNodes cfg dB ++ R)))).Perm
        (lvNodes cfg dA ++ (lvNodes cfg dB ++ (nodesE cfg (!dA.isEmpty) none ((A' ++ [a]) ++ b :: B') ++ R))) := by
      rw [s2]
      generalize nodesE cfg (!dA.isEmpty) (some a) A' = X
      generalize nodeOf cfg (!dA.isEmpty) a (some b) = y
      generalize nodesE cfg (!dA.isEmpty) none (b :: B') = Z
      generalize lvNodes cfg dA = P
      generalize lvNodes cfg dB = Q
      classical
      rw [List.perm_iff_count]
      intro w
      simp only [List.count_append, List.count_cons]
      omega
    have hT3 := hT2.congr (fun x => (hperm.mem_iff (a := x)).symm)
    have hn3 := (hperm.map Prod.fst).nodup_iff.mp hpids
    have hstep : ∀ (l' r' : PID) (k1 k2 : K), dA.isEmpty = false →
        a.recs.getLast? = some (k1, .child l') → b.recs.head? = some (k2, .child r') →
        linkBorder cfg (f + 1) T a.pid b.pid =
          linkBorder cfg f (upd T a.pid (some (nodeOf cfg (!dA.isEmpty) a (some b)).2)) l' r' := by
      intro l' r' k1 k2 h0 g1 g2
      rw [linkBorder, ha, hbn]
      simp only [nodeOf, h0, g1, g2]
      rfl
    cases dA with
    | nil =>
      cases dB with
      | cons _ _ => cases hl'
      | nil =>
        refine ⟨upd T a.pid (some (nodeOf cfg false a (some b)).2), ?_, ?_⟩
        · rw [linkBorder, ha, hbn]; rfl
        · simpa [sideBySide, lvNodes] using hT3
    | cons d1 dA =>
      cases dB with
      | nil => cases hl'
      | cons d2 dB =>
        obtain ⟨D, x, rfl⟩ : ∃ D x, d1 = D ++ [x] := by
          rcases List.eq_nil_or_concat d1 with e | ⟨A', a, e⟩
          · exact absurd e h1.2.2.ne
          · exact ⟨A', a, by simpa using e⟩
        obtain ⟨y, E, rfl⟩ : ∃ y E, d2 = y :: E := by
          cases d2 with
          | nil => exact absurd rfl h2.2.2.ne
          | cons b B' => exact ⟨b, B', rfl⟩
        have g1 : a.recs.getLast? = some (x.hd.1, .child x.pid) := by
          rw [← flatMap_getLast? (A := A'), h1.2.1]
          simp [entsOf]
        have g2 : b.recs.head? = some (y.hd.1, .child y.pid) := by
          have := congrArg List.head? h2.2.1
          simpa [entsOf, Grp.recs] using this
        obtain ⟨T', h5, h6⟩ := linkBorder_spec ((D ++ [x]) :: dA) ((y :: E) :: dB) f _ _ e1 e2 x.pid y.pid
          h1.2.2 h2.2.2 hl' (by simpa using hf) hT3 hn3 (by simp) (by simp)
        refine ⟨T', ?_, ?_⟩
        · rw [hstep x.pid y.pid x.hd.1 y.hd.1 rfl g1 g2]; exact h5
        · refine h6.congr (fun z => ?_)
          have : lvNodes cfg (sideBySide ((A' ++ [a]) :: (D ++ [x]) :: dA) ((b :: B') :: (y :: E) :: dB)) =
              nodesE cfg true none ((A' ++ [a]) ++ b :: B') ++
                lvNodes cfg (sideBySide ((D ++ [x]) :: dA) ((y :: E) :: dB)) := rfl
          rw [this]
          simp only [List.mem_append, List.isEmpty_cons, Bool.not_false]
          tauto

/-! ## The leftmost nodes -/

/-- The nodes of a layer whose first node has no lower bound. -/
def nodes0 (cfg : Cfg K) (b : Bool) : List (Grp K V) → List (PID × Node K V)
  | [] => []
  | g :: gs => (g.pid, { (nodeOf cfg b g gs.head?).2 with low := none }) :: nodesE cfg b none gs

/-- The nodes of a finished tree. -/
def lvNodes0 (cfg : Cfg K) : List (List (Grp K V)) → List (PID × Node K V)
  | [] => []
  | g :: rest => nodes0 cfg (!rest.isEmpty) g ++ lvNodes0 cfg rest

theorem nodes0_pids (b : Bool) (gs : List (Grp K V)) :
    (nodes0 cfg b gs).map Prod.fst = gs.map Grp.pid := by
  cases gs with
  | nil => rfl
  | cons g gs => rw [nodes0, List.map_cons, nodesE_pids]; rfl

theorem lvNodes0_pids : ∀ (lv : List (List (Grp K V))), (lvNodes0 cfg lv).map Prod.fst = lvPids lv
  | [] => rfl
  | g :: rest => by
    rw [lvNodes0, List.map_append, lvNodes0_pids rest, nodes0_pids, lvPids_cons]

theorem removeLeftmost_spec : ∀ (A : List (List (Grp K V))) (f : Nat) (T : Tbl K V)
    (R : List (PID × Node K V)) (e : List (K × Pay V)) (p : PID),
    LvOK cfg e A → A.length ≤ f → Holds T (lvNodes cfg A ++ R) →
    ((lvNodes cfg A ++ R).map Prod.fst).Nodup →
    (A.head?.bind fun g => g.head?.map Grp.pid) = some p →
    ∃ T', removeLeftmost f T p = some T' ∧ Holds T' (lvNodes0 cfg A ++ R)
  | [], _, _, _, _, _, h1, _, _, _, _ => h1.elim
  | g :: d, 0, _, _, _, _, _, hf, _, _, _ => by simp at hf
  | g :: d, f + 1, T, R, e, p, h1, hf, hT, hn, e4 => by
    obtain ⟨b, B', rfl⟩ : ∃ b B', g = b :: B' := by
      cases g with
      | nil => exact absurd rfl h1.ne
      | cons b B' => exact ⟨b, B', rfl⟩
    have eb : p = b.pid := by simpa using e4.symm
    subst eb
    have s1 : lvNodes cfg ((b :: B') :: d) ++ R = [] ++ nodeOf cfg (!d.isEmpty) b B'.head? ::
        (nodesE cfg (!d.isEmpty) none B' ++ (lvNodes cfg d ++ R)) := by
      simp [lvNodes, nodesE]
    rw [s1] at hT hn
    have hb : T b.pid = some (nodeOf cfg (!d.isEmpty) b B'.head?).2 :=
      hT.has (nodeOf cfg (!d.isEmpty) b B'.head?) (by simp)
    have hT2 := hT.replace
      (n' := { (nodeOf cfg (!d.isEmpty) b B'.head?).2 with low := none }) hn
    have s2 : nodes0 cfg (!d.isEmpty) (b :: B') =
        (b.pid, { (nodeOf cfg (!d.isEmpty) b B'.head?).2 with low := none }) ::
          nodesE cfg (!d.isEmpty) none B' := rfl
    have hn2 : (([] ++ ((b.pid, { (nodeOf cfg (!d.isEmpty) b B'.head?).2 with low := none }) ::
        (nodesE cfg (!d.isEmpty) none B' ++ (lvNodes cfg d ++ R)))).map Prod.fst).Nodup := hn
    have hperm : ([] ++ ((b.pid, { (nodeOf cfg (!d.isEmpty) b B'.head?).2 with low := none }) ::
        (nodesE cfg (!d.isEmpty) none B' ++ (lvNodes cfg d ++ R)))).Perm
        (lvNodes cfg d ++ (nodes0 cfg (!d.isEmpty) (b :: B') ++ R)) := by
      rw [s2]
      generalize (b.pid, { (nodeOf cfg (!d.isEmpty) b B'.head?).2 with low := none }) = y
      generalize nodesE cfg (!d.isEmpty) none B' = X
      generalize lvNodes cfg d = P
      classical
      rw [List.perm_iff_count]
      intro w
      simp only [List.count_append, List.count_cons, List.nil_append, List.cons_append]
      omega
    have hT3 := hT2.congr (fun x => (hperm.mem_iff (a := x)).symm)
    have hn3 := (hperm.map Prod.fst).nodup_iff.mp hn2
    cases d with
    | nil =>
      have e : lvNodes0 cfg [b :: B'] ++ R = lvNodes cfg [] ++ (nodes0 cfg false (b :: B') ++ R) := by
        simp [lvNodes0, lvNodes]
      exact ⟨upd T b.pid (some { (nodeOf cfg false b B'.head?).2 with low := none }),
        by rw [removeLeftmost, hb]; rfl, e ▸ hT3⟩
    | cons d2 d =>
      obtain ⟨y, E, rfl⟩ : ∃ y E, d2 = y :: E := by
        cases d2 with
        | nil => exact absurd rfl h1.2.2.ne
        | cons b B' => exact ⟨b, B', rfl⟩
      have g2 : b.recs.head? = some (y.hd.1, .child y.pid) := by
        have := congrArg List.head? h1.2.1
        simpa [entsOf, Grp.recs] using this
      obtain ⟨T', h5, h6⟩ := removeLeftmost_spec ((y :: E) :: d) f _ _ e y.pid h1.2.2 (by simpa using hf)
        hT3 hn3 (by simp)
      refine ⟨T', ?_, ?_⟩
      · refine Eq.trans ?_ h5
        rw [removeLeftmost, hb]
        simp only [nodeOf, g2]
        rfl
      · refine h6.congr (fun z => ?_)
        have : lvNodes0 cfg ((b :: B') :: (y :: E) :: d) =
            nodes0 cfg true (b :: B') ++ lvNodes0 cfg ((y :: E) :: d) := rfl
        rw [this]
        simp only [List.mem_append, List.isEmpty_cons, Bool.not_false]
        tauto

/-! ## All workers -/

/-- The partial trees of the workers from `t` on. -/
def PartsOK (cfg : Cfg K) (ids : Nat → Nat → PID) : Nat → List (List (K × Pay V)) → List (Part K V) →
    List (List (List (Grp K V))) → Prop
  | _, [], [], [] => True
  | t, s :: ss, p :: ps, lv :: lvs =>
    PartS cfg (ids t) (fun q => ∃ i, q = ids t i) s p lv ∧ PartsOK cfg ids (t + 1) ss ps lvs
  | _, _, _, _ => False

/-- The nodes of all partial trees. -/
def allNodes (cfg : Cfg K) (lvs : List (List (List (Grp K V)))) : List (PID × Node K V) :=
  lvs.flatMap (lvNodes cfg)

theorem bulkParts_spec {ids : Nat → Nat → PID} (hinj : IdsInj ids) :
    ∀ (ss : List (List (K × Pay V))) (t : Nat) (T : Tbl K V) (S : List (PID × Node K V)),
    (∀ s ∈ ss, s ≠ []) → (∀ u i, t ≤ u → ids u i ∉ S.map Prod.fst) → (S.map Prod.fst).Nodup →
    Holds T S → (BulkOK cfg ∨ bulkParts cfg ids t T ss ≠ none) →
    ∃ ps T' lvs, bulkParts cfg ids t T ss = some (ps, T') ∧ PartsOK cfg ids t ss ps lvs ∧
      Holds T' (allNodes cfg lvs ++ S) ∧ ((allNodes cfg lvs ++ S).map Prod.fst).Nodup
  | [], t, T, S, _, _, hn, hT, _ => ⟨[], T, [], rfl, trivial, hT, hn⟩
  | s :: ss, t, T, S, hs, hS, hn, hT, hb => by
    obtain ⟨⟨p, T1⟩, lv, h1, h2⟩ := bulkPart_spec (fun i j e => (hinj t i t j e).2)
      (own := fun q => ∃ i, q = ids t i) (fun i => ⟨i, rfl⟩) (hs s (by simp)) (fun i => hS t i (Nat.le_refl _)) hn hT
      (hb.imp_right fun hne e => hne (by rw [bulkParts, e]))
    obtain ⟨ps, T', lvs, h3, h4, h5, h6⟩ := bulkParts_spec hinj ss (t + 1) T1 (lvNodes cfg lv ++ S)
      (fun x hx => hs x (List.mem_cons_of_mem _ hx)) (fun u i hu hm => by
        rw [List.map_append, lvNodes_pids] at hm
        rcases List.mem_append.mp hm with hm | hm
        · obtain ⟨j, hj⟩ := h2.mem _ hm
          have := (hinj _ _ _ _ hj).1
          omega
        · exact hS u i (by omega) hm) h2.nodup h2.holds
      (hb.imp_right fun hne e => hne (by rw [bulkParts, h1]; simp only [e, Option.map_none]))
    have hp : (allNodes cfg lvs ++ (lvNodes cfg lv ++ S)).Perm (allNodes cfg (lv :: lvs) ++ S) := by
      rw [allNodes, allNodes, List.flatMap_cons, ← List.append_assoc]
      exact List.Perm.append_right _ List.perm_append_comm
    refine ⟨p :: ps, T', lv :: lvs, ?_, ⟨h2.toPartS, h4⟩, h5.congr (fun x => hp.mem_iff.symm),
      (hp.map Prod.fst).nodup_iff.mp h6⟩
    rw [bulkParts, h1]
    simp only [h3]
    rfl

theorem PartsOK.pids {ids : Nat → Nat → PID} : ∀ {ss : List (List (K × Pay V))}
    {ps : List (Part K V)} {lvs : List (List (List (Grp K V)))} {t : Nat},
    PartsOK cfg ids t ss ps lvs → ∀ q ∈ (allNodes cfg lvs).map Prod.fst, ∃ u i, t ≤ u ∧ q = ids u i
  | [], [], [], _, _, q, hq => by simp [allNodes] at hq
  | _ :: _, _ :: _, _ :: _, t, h, q, hq => by
    rw [allNodes, List.flatMap_cons, List.map_append, lvNodes_pids] at hq
    rcases List.mem_append.mp hq with hq | hq
    · obtain ⟨i, hi⟩ := h.1.mem q hq
      exact ⟨t, i, Nat.le_refl _, hi⟩
    · obtain ⟨u, i, h1, h2⟩ := PartsOK.pids h.2 q hq
      exact ⟨u, i, by omega, h2⟩
  | [], [], _ :: _, _, h, _, _ => h.elim
  | [], _ :: _, _, _, h, _, _ => h.elim
  | _ :: _, [], _, _, h, _, _ => h.elim
  | _ :: _, _ :: _, [], _, h, _, _ => h.elim

theorem entryPid_head {g : List (Grp K V)} {a : Grp K V} (h : g.head? = some a) :
    entryPid (entsOf g).head? = a.pid := by
  cases g with
  | nil => cases h
  | cons b B => cases h; rfl

theorem entryPid_last {g : List (Grp K V)} {a : Grp K V} (h : g.getLast? = some a) :
    entryPid (entsOf g).getLast? = a.pid := by
  rw [entsOf, List.getLast?_map, h]; rfl

/-- The joined tree before the upper layers. -/
structure JoinOK (cfg : Cfg K) (ids : Nat → Nat → PID) (height t : Nat) (es : List (K × Pay V))
    (A : List (List (Grp K V))) (g : List (Grp K V)) : Prop where
  ok : LvOK cfg es A
  len : A.length = height
  head : A.head? = some g
  mem : ∀ q ∈ lvPids A, ∃ u i, u < t ∧ q = ids u i

/-- One more partial tree, levelled. -/
theorem raise_part {ids : Nat → Nat → PID} (hinj : IdsInj ids) {height t : Nat}
    {s : List (K × Pay V)} {p : Part K V} {lv : List (List (Grp K V))} {T : Tbl K V}
    {S : List (PID × Node K V)} (h : PartS cfg (ids t) (fun q => ∃ i, q = ids t i) s p lv)
    (hS : ∀ i, ids t i ∉ S.map Prod.fst) (hT : Holds T (lvNodes cfg lv ++ S))
    (hn : ((lvNodes cfg lv ++ S).map Prod.fst).Nodup) (hh : p.height ≤ height)
    (hb : BulkOK cfg ∨ Part.raise cfg (ids t) (height - p.height) (p, T) ≠ none) :
    ∃ p' T' B gB, Part.raise cfg (ids t) (height - p.height) (p, T) = some (p', T') ∧
      LvOK cfg s B ∧ B.length = height ∧ B.head? = some gB ∧ p'.nodes = entsOf gB ∧
      (∀ q ∈ lvPids B, ∃ i, q = ids t i) ∧ Holds T' (lvNodes cfg B ++ S) ∧
      ((lvNodes cfg B ++ S).map Prod.fst).Nodup := by
  obtain ⟨⟨p', T'⟩, B, h1, h2, h3⟩ := PartOK.raise (fun i j e => (hinj t i t j e).2)
    (own := fun q => ∃ i, q = ids t i) (fun i => ⟨i, rfl⟩) hS (height - p.height) (x := (p, T)) hb ⟨h, hT, hn⟩
  obtain ⟨gB, e1, e2⟩ := h2.nodes
  refine ⟨p', T', B, gB, h1, h2.ok, ?_, e1, e2, h2.mem, h2.holds, h2.nodup⟩
  have := h2.height
  simp only at this h3
  omega

theorem LvOK.last {es : List (K × Pay V)} {A : List (List (Grp K V))} {g : List (Grp K V)}
    (h : LvOK cfg es A) (hg : A.head? = some g) : ∃ a, g.getLast? = some a := by
  cases A with
  | nil => cases hg
  | cons x A =>
    cases hg
    cases e : g.getLast? with
    | none => exact absurd (List.getLast?_eq_none_iff.mp e) h.ne
    | some a => exact ⟨a, rfl⟩

theorem LvOK.first {es : List (K × Pay V)} {A : List (List (Grp K V))} {g : List (Grp K V)}
    (h : LvOK cfg es A) (hg : A.head? = some g) : ∃ a, g.head? = some a := by
  cases A with
  | nil => cases hg
  | cons x A =>
    cases hg
    cases e : g.head? with
    | none => exact absurd (List.head?_eq_none_iff.mp e) h.ne
    | some a => exact ⟨a, rfl⟩

theorem last_mem {A : List (List (Grp K V))} {g : List (Grp K V)} (hg : A.head? = some g)
    {a : Grp K V} (ha : a ∈ g) : a.pid ∈ lvPids A := by
  cases A with
  | nil => cases hg
  | cons x A =>
    cases hg
    rw [lvPids_cons]
    exact List.mem_append_left _ (List.mem_map.mpr ⟨a, ha, rfl⟩)

theorem bulkJoin_spec {ids : Nat → Nat → PID} (hinj : IdsInj ids)
    (h0 : ∀ t i, ids t i ≠ 0) {height : Nat} : ∀ (ps : List (Part K V)) (ss : List (List (K × Pay V)))
    (lvs : List (List (List (Grp K V)))) (t : Nat) (T : Tbl K V) (A : List (List (Grp K V)))
    (eA : List (K × Pay V)) (gA : List (Grp K V)) (a : Grp K V),
    PartsOK cfg ids t ss ps lvs → (∀ p ∈ ps, p.height ≤ height) → JoinOK cfg ids height t eA A gA →
    gA.getLast? = some a → Holds T (lvNodes cfg A ++ allNodes cfg lvs) →
    ((lvNodes cfg A ++ allNodes cfg lvs).map Prod.fst).Nodup →
    (BulkOK cfg ∨ bulkJoin cfg ids height t a.pid T ps ≠ none) →
    ∃ ns T' A' g', bulkJoin cfg ids height t a.pid T ps = some (ns, T') ∧
      JoinOK cfg ids height (t + ps.length) (eA ++ ss.flatten) A' g' ∧
      entsOf gA ++ ns = entsOf g' ∧ Holds T' (lvNodes cfg A') ∧
      ((lvNodes cfg A').map Prod.fst).Nodup
  | [], [], [], t, T, A, eA, gA, a, _, _, hA, _, hT, hn, _ =>
    ⟨[], T, A, gA, rfl, by simpa using hA, by simp, by simpa [allNodes] using hT,
      by simpa [allNodes] using hn⟩
  | p :: ps, s :: ss, lv :: lvs, t, T, A, eA, gA, a, h, hh, hA, ha, hT, hn, hb => by
    have hperm : (lvNodes cfg A ++ allNodes cfg (lv :: lvs)).Perm
        (lvNodes cfg lv ++ (lvNodes cfg A ++ allNodes cfg lvs)) := by
      rw [allNodes, allNodes, List.flatMap_cons, ← List.append_assoc, ← List.append_assoc]
      exact List.Perm.append_right _ List.perm_append_comm
    obtain ⟨p', T1, B, gB, h1, h2, h3, h4, h5, h6, h7, h8⟩ := raise_part hinj h.1 (height := height)
      (S := lvNodes cfg A ++ allNodes cfg lvs) (T := T) (fun i hm => by
        rw [List.map_append, lvNodes_pids] at hm
        rcases List.mem_append.mp hm with hm | hm
        · obtain ⟨u, j, g1, g2⟩ := hA.mem _ hm
          have := (hinj _ _ _ _ g2).1
          omega
        · obtain ⟨u, j, g1, g2⟩ := h.2.pids _ hm
          have := (hinj _ _ _ _ g2).1
          omega)
      (hT.congr (fun x => hperm.mem_iff.symm)) ((hperm.map Prod.fst).nodup_iff.mp hn)
      (hh p (by simp)) (hb.imp_right fun hne e => hne (by rw [bulkJoin, e]))
    have hne : a.pid ≠ 0 := by
      obtain ⟨u, i, _, g2⟩ := hA.mem a.pid (last_mem hA.head (List.mem_of_getLast? ha))
      rw [g2]; exact h0 u i
    obtain ⟨b, hbh⟩ := h2.first h4
    obtain ⟨b', hbl⟩ := h2.last h4
    have hperm2 : (lvNodes cfg B ++ (lvNodes cfg A ++ allNodes cfg lvs)).Perm
        (lvNodes cfg A ++ (lvNodes cfg B ++ allNodes cfg lvs)) := by
      rw [← List.append_assoc, ← List.append_assoc]
      exact List.Perm.append_right _ List.perm_append_comm
    have hn2 := (hperm2.map Prod.fst).nodup_iff.mp h8
    obtain ⟨T2, h9, h10⟩ := linkBorder_spec A B height T1 (allNodes cfg lvs) eA s a.pid b.pid hA.ok h2
      (by rw [hA.len, h3]) (by rw [hA.len]) (h7.congr (fun x => hperm2.mem_iff.symm)) hn2
      (by rw [hA.head]; simp [ha]) (by rw [h4]; simp [hbh])
    have hside : (sideBySide A B).head? = some (gA ++ gB) := by
      cases A with
      | nil => cases hA.head
      | cons x A =>
        cases B with
        | nil => cases h4
        | cons y B =>
          have e1 := hA.head
          cases e1; cases h4; rfl
    have hJ : JoinOK cfg ids height (t + 1) (eA ++ s) (sideBySide A B) (gA ++ gB) := by
      refine ⟨LvOK.side (by rw [hA.len, h3]) hA.ok h2, by simp [sideBySide, hA.len, h3], hside, ?_⟩
      intro q hq
      rcases lvPids_side hq with hq | hq
      · obtain ⟨u, i, g1, g2⟩ := hA.mem q hq
        exact ⟨u, i, by omega, g2⟩
      · obtain ⟨i, g1⟩ := h6 q hq
        exact ⟨t, i, by omega, g1⟩
    have hn3 : ((lvNodes cfg (sideBySide A B) ++ allNodes cfg lvs).map Prod.fst).Nodup := by
      rw [List.map_append, List.map_append, lvNodes_pids, lvNodes_pids, ← List.append_assoc] at hn2
      rw [List.map_append, lvNodes_pids]
      exact ((lvPids_side_perm (by rw [hA.len, h3])).append_right _).nodup_iff.mpr hn2
    obtain ⟨ns, T', A', g', k1, k2, k3, k4, k5⟩ := bulkJoin_spec hinj h0 ps ss lvs (t + 1) T2
      (sideBySide A B) (eA ++ s) (gA ++ gB) b' h.2 (fun x hx => hh x (List.mem_cons_of_mem _ hx)) hJ
      (by rw [List.getLast?_append, hbl]; rfl) h10 hn3 (hb.imp_right fun hne' e => hne' (by
        rw [bulkJoin, h1]
        simp only [if_neg hne, h5, entryPid_head hbh, entryPid_last hbl, h9, e, Option.map_none]))
    refine ⟨p'.nodes ++ ns, T', A', g', ?_, ?_, ?_, k4, k5⟩
    · rw [bulkJoin, h1]
      simp only [if_neg hne, h5, entryPid_head hbh, entryPid_last hbl, h9, k1]
      rfl
    · rw [List.length_cons, List.flatten_cons, ← List.append_assoc, Nat.add_comm ps.length 1,
        ← Nat.add_assoc]
      exact k2
    · rw [h5, ← List.append_assoc, ← entsOf_append]; exact k3
  | [], [], _ :: _, _, _, _, _, _, _, h, _, _, _, _, _, _ => h.elim
  | [], _ :: _, _, _, _, _, _, _, _, h, _, _, _, _, _, _ => (by cases h)
  | _ :: _, [], _, _, _, _, _, _, _, h, _, _, _, _, _, _ => (by cases h)
  | _ :: _, _ :: _, [], _, _, _, _, _, _, h, _, _, _, _, _, _ => (by cases h)

/-! ## Shares -/

/-- The first `k` shares from worker `i` on. -/
def shareSum (n t : Nat) : Nat → Nat → Nat
  | 0, _ => 0
  | k + 1, i => shareLen n t i + shareSum n t k (i + 1)

theorem shareSum_snoc (n t : Nat) : ∀ k i, shareSum n t (k + 1) i = shareSum n t k i + shareLen n t (i + k)
  | 0, i => by simp [shareSum]
  | k + 1, i => by
    rw [shareSum, shareSum_snoc n t k (i + 1), shareSum, show i + 1 + k = i + (k + 1) by omega]
    omega

/-- The shares of `t` workers add up to `n`. -/
theorem shareSum_all {t : Nat} (ht : 0 < t) : ∀ n, shareSum n t t 0 = n := by
  intro n
  induction n with
  | zero =>
    have : ∀ k i, i + k ≤ t → shareSum 0 t k i = 0 := by
      intro k
      induction k with
      | zero => intro i _; rfl
      | succ k ih =>
        intro i hi
        rw [shareSum, ih (i + 1) (by omega), shareLen, Nat.div_eq_of_lt (by omega)]
    exact this t 0 (by omega)
  | succ n ih =>
    -- moving from `n` to `n + 1` shifts the shares by one worker
    have h1 : ∀ k i, shareSum (n + 1) t k i = shareSum n t k (i + 1) := by
      intro k
      induction k with
      | zero => intro i; rfl
      | succ k ih => intro i; rw [shareSum, shareSum, ih, shareLen, shareLen, show n + 1 + i = n + (i + 1) by omega]
    rw [h1]
    have h2 := shareSum_snoc n t t 0
    rw [shareSum, ih] at h2
    have h3 : shareLen n t 0 = n / t := by simp [shareLen]
    have h4 : shareLen n t (0 + t) = n / t + 1 := by simp [shareLen, Nat.add_div_right _ ht]
    omega

theorem shares_spec {α : Type} (n t : Nat) : ∀ (k i : Nat) (es : List α),
    es.length = shareSum n t k i →
    (shares n t k i es).flatten = es ∧
    (shares n t k i es).map List.length = (List.range' i k).map (shareLen n t)
  | 0, i, es, h => by
    have : es = [] := List.length_eq_zero_iff.mp h
    subst this; exact ⟨rfl, rfl⟩
  | k + 1, i, es, h => by
    rw [shareSum] at h
    obtain ⟨h1, h2⟩ := shares_spec n t k (i + 1) (es.drop (shareLen n t i)) (by
      rw [List.length_drop]; omega)
    refine ⟨?_, ?_⟩
    · rw [shares, List.flatten_cons, h1, List.take_append_drop]
    · rw [shares, List.map_cons, h2, List.range'_succ, List.map_cons, List.length_take]
      congr 1
      omega

theorem bulkShares_spec {α : Type} (t : Nat) (es : List α) (hes : es ≠ []) :
    (bulkShares t es).flatten = es ∧ (∀ s ∈ bulkShares t es, s ≠ []) ∧ bulkShares t es ≠ [] := by
  unfold bulkShares
  by_cases h : t ≤ 1 ∨ es.length < t
  · rw [if_pos h]
    refine ⟨by simp, fun s hs => ?_, by simp⟩
    rw [List.mem_singleton] at hs
    rw [hs]; exact hes
  · rw [if_neg h]
    simp only [not_or, Nat.not_le, Nat.not_lt] at h
    obtain ⟨h1, h2⟩ := shares_spec es.length t t 0 es (shareSum_all (by omega) _).symm
    refine ⟨h1, fun s hs e => ?_, fun e => ?_⟩
    · have : s.length ∈ (shares es.length t t 0 es).map List.length := List.mem_map.mpr ⟨s, hs, rfl⟩
      rw [h2] at this
      obtain ⟨i, _, hi⟩ := List.mem_map.mp this
      have : 0 < (es.length + i) / t := Nat.div_pos (by omega) (by omega)
      rw [shareLen, e, List.length_nil] at hi
      omega
    · rw [e] at h1
      exact hes h1.symm

/-! ## The whole bulkload -/

/-- What `Bulkload` builds. -/
structure Built (cfg : Cfg K) (ids : Nat → Nat → PID) (es : List (K × Pay V)) (T : Tbl K V) (root : PID)
    (lv : List (List (Grp K V))) : Prop where
  ok : LvOK cfg es lv
  holds : Holds T (lvNodes0 cfg lv)
  nodup : (lvPids lv).Nodup
  mem : ∀ q ∈ lvPids lv, ∃ u i, q = ids u i
  root : ∃ g, lv.head? = some [g] ∧ root = g.pid

theorem height_le (ps : List (Part K V)) : ∀ p ∈ ps,
    p.height ≤ ps.foldr (fun p h => max p.height h) 1 := by
  induction ps with
  | nil => intro p hp; simp at hp
  | cons q ps ih =>
    intro p hp
    rw [List.foldr_cons]
    rcases List.mem_cons.mp hp with rfl | hp
    · exact Nat.le_max_left _ _
    · exact Nat.le_trans (ih p hp) (Nat.le_max_right _ _)

theorem bulkload_spec {ids : Nat → Nat → PID} (hinj : IdsInj ids)
    (h0 : ∀ t i, ids t i ≠ 0) (threads : Nat) (es : List (K × V)) (hes : es ≠ [])
    (hb : BulkOK cfg ∨ bulkload cfg ids threads es ≠ none) :
    ∃ T root lv, bulkload cfg ids threads es = some (T, root) ∧
      Built cfg ids (es.map fun x => (x.1, Pay.val x.2)) T root lv := by
  have hes' : (es.map fun x => (x.1, Pay.val x.2)) ≠ [] := by simpa using hes
  unfold bulkload at hb ⊢
  generalize (es.map fun x => (x.1, Pay.val x.2)) = es' at *
  obtain ⟨s1, s2, s3⟩ := bulkShares_spec threads es' hes'
  generalize bulkShares threads es' = ss at *
  obtain ⟨ps, T, lvs, h1, h2, h3, h4⟩ := bulkParts_spec hinj ss 0 (fun _ => none) [] s2
    (fun _ _ _ => by simp) (by simp) Holds.nil (hb.imp_right fun hne e => hne (by simp only [e]))
  rw [List.append_nil] at h3 h4
  simp only [h1] at hb ⊢
  cases ss with
  | nil => exact absurd rfl s3
  | cons s ss =>
  cases ps with
  | nil => exact h2.elim
  | cons p ps =>
  cases lvs with
  | nil => exact h2.elim
  | cons lv lvs =>
  have hh := height_le (p :: ps)
  generalize (p :: ps).foldr (fun p h => max p.height h) 1 = height at *
  obtain ⟨p', T1, B, gB, g1, g2, g3, g4, g5, g6, g7, g8⟩ := raise_part hinj h2.1 (height := height)
    (S := allNodes cfg lvs) (T := T) (fun i hm => by
      obtain ⟨u, j, g1, g2⟩ := h2.2.pids _ hm
      have := (hinj _ _ _ _ g2).1
      omega) h3 h4 (hh p (by simp))
    (hb.imp_right fun hne e => hne (by simp only [bulkJoin, e]))
  obtain ⟨b, hbh⟩ := g2.first g4
  obtain ⟨b', hbl⟩ := g2.last g4
  obtain ⟨ns, T2, A, gA, j1, j2, j3, j4, j5⟩ := bulkJoin_spec hinj h0 ps ss lvs 1 T1 B s gB b' h2.2
    (fun x hx => hh x (List.mem_cons_of_mem _ hx)) ⟨g2, g3, g4, fun q hq => by
      obtain ⟨i, hi⟩ := g6 q hq
      exact ⟨0, i, by omega, hi⟩⟩ hbl g7 g8 (hb.imp_right fun hne e => hne (by
        simp only [bulkJoin, g1, if_pos, g5, entryPid_last hbl, e, Option.map_none]))
  have hj : bulkJoin cfg ids height 0 0 T (p :: ps) = some (entsOf gA, T2) := by
    rw [bulkJoin, g1]
    simp only [if_pos, g5, entryPid_last hbl, j1, Option.map_some, j3]
  simp only [hj] at hb ⊢
  have e1 : s ++ ss.flatten = es' := s1
  rw [e1] at j2
  have hlen : ps.length = ss.length := by
    have h := h2.2
    clear hb j1 j2 j3 j4 j5 hj e1 s1 s2 s3 h1 h2 h3 h4 g1 g7 g8 hh
    generalize 0 + 1 = t at h
    induction ps generalizing ss lvs t with
    | nil =>
      cases ss with
      | nil => rfl
      | cons _ _ => cases lvs <;> exact h.elim
    | cons p ps ih =>
      cases ss with
      | nil => exact h.elim
      | cons _ ss =>
        cases lvs with
        | nil => exact h.elim
        | cons _ lvs => rw [List.length_cons, List.length_cons, ih _ _ _ h.2]
  have hpart : PartOK cfg (ids (s :: ss).length) (fun q => ∃ u i, q = ids u i) es' []
      (⟨height, entsOf gA, 0⟩, T2) A := by
    refine ⟨⟨j2.ok, j2.len.symm, ⟨gA, j2.head, rfl⟩, fun q hq i e => ?_, fun q hq => ?_⟩, by simpa using j4,
      by simpa using j5⟩
    · obtain ⟨u, j, k1, k2⟩ := j2.mem q hq
      have := (hinj _ _ _ _ (k2.symm.trans e)).1
      rw [List.length_cons] at this
      omega
    · obtain ⟨u, j, k1, k2⟩ := j2.mem q hq
      exact ⟨u, j, k2⟩
  obtain ⟨⟨q, T3⟩, lv', k1, k2, k3⟩ := PartOK.top (fun i j e => (hinj _ i _ j e).2)
    (fun i => ⟨_, i, rfl⟩) (fun i => by simp) (entsOf gA).length (hb.imp (fun hb => ⟨hb, Nat.le_refl _⟩)
      (fun hne e => hne (by simp only [e]))) hpart
  simp only [k1]
  obtain ⟨g, e2, e3⟩ := k2.nodes
  obtain ⟨c, hc⟩ := k2.ok.first e2
  simp only at e3 k3
  have e4 : g = [c] := by
    rw [e3, entsOf, List.length_map] at k3
    cases g with
    | nil => cases hc
    | cons x g =>
      cases hc
      cases g with
      | nil => rfl
      | cons y g => simp at k3
  obtain ⟨T4, m1, m2⟩ := removeLeftmost_spec lv' q.height T3 [] es' c.pid k2.ok
    (by have := k2.height; simp only at this; omega) k2.holds k2.nodup (by rw [e2]; simp [hc])
  refine ⟨T4, c.pid, lv', ?_, k2.ok, by simpa using m2, ?_, k2.mem, c, by rw [e2, e4], rfl⟩
  · rw [e3, entryPid_head hc, m1]; rfl
  · have := k2.nodup
    rw [List.append_nil, lvNodes_pids] at this
    exact this

end BwTree
