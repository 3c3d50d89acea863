import Verif.Bytes.VarBulkEnds
import Verif.Props.VarBulk
import Verif.Props.Bulk

/-!
# Properties of Bulkload on the bytes of variable-length pages
-/

namespace BwTree.Props

open Bytes
open Layout (Mem Enc Framed NImg RecAt bound_of)
open Layout (VPage)

set_option linter.unusedSectionVars false

variable {P : VPar} {mk : Nat} [LinearOrder (KStr mk)]

theorem vpar_bulk (hP : P.OK mk) (hlt : ∀ a b : KStr mk, P.lt a.1 b.1 = decide (a < b))
    (pos : 0 < mk) : BulkPar (P.cfg mk) (P.enc mk) P := ⟨vpar_lay hP hlt, fun k => k.2.2, pos⟩

/-- The records of a leaf, read from the bytes of its page. -/
def vRecsBytes (P : VPar) (pg : VPage) : List (Str × Str) :=
  (List.range pg.cnt).map fun i => (pg.key P.c i, pg.pay P.c P.pay i)

/-- Leaves from left to right, as in `Spec.LevelOK`; the bounds are read from the pages. -/
structure VLevelOK (xs : List (PID × VPage)) : Prop where
  first : ∀ x, xs.head? = some x → Bytes.VPage.bound x.2 x.2.low = none
  last : ∀ x, xs.getLast? = some x → Bytes.VPage.bound x.2 x.2.high = none
  link : xs.IsChain fun x y => x.2.next = y.1 ∧ Bytes.VPage.bound x.2 x.2.high = Bytes.VPage.bound y.2 y.2.low ∧
    Bytes.VPage.bound y.2 y.2.low ≠ none

theorem vRecsBytes_img {n : Node (KStr mk) (VStr P.pay)} {nd : VPage} (h : NImg P.c (P.enc mk) n nd)
    (hl : n.inner = false) (hv : ∀ x ∈ n.recs, ∃ v, x.2 = Pay.val v) :
    vRecsBytes P nd = n.recs.map fun x => ((P.enc mk).key x.1, (P.enc mk).pay x.2) := by
  apply List.ext_getElem
  · simp [vRecsBytes, h.cnt]
  · intro i h1 h2
    have hi : i < n.recs.length := by simpa using h2
    simp only [vRecsBytes, List.getElem_map, List.getElem_range]
    have hr := h.recs i hi
    rw [if_neg (by rw [hl]; simp)] at hr
    obtain ⟨v, e⟩ := hv _ (List.getElem_mem hi)
    have hp := hr.pay
    have hk := hr.key
    rw [e] at hp ⊢
    rw [show ((P.enc mk).pay (Pay.val v)).length = P.pay from v.2] at hp
    exact Prod.ext hk hp

theorem vLow_img (hP : P.OK mk) (hlt : ∀ a b : KStr mk, P.lt a.1 b.1 = decide (a < b))
    {n : Node (KStr mk) (VStr P.pay)} {nd : VPage} (h : NImg P.c (P.enc mk) n nd) :
    Bytes.VPage.bound nd nd.low = n.low.map (P.enc mk).key := bound_of (vpar_lay hP hlt).enc h.low

theorem vHigh_img (hP : P.OK mk) (hlt : ∀ a b : KStr mk, P.lt a.1 b.1 = decide (a < b))
    {n : Node (KStr mk) (VStr P.pay)} {nd : VPage} (h : NImg P.c (P.enc mk) n nd) :
    Bytes.VPage.bound nd nd.high = n.high.map (P.enc mk).key := bound_of (vpar_lay hP hlt).enc h.high

/-! ## C69: Bulkload -/

/-- If `Bulkload` ends on the bytes of variable-length pages, the leaves, read from left to right through
their links, hold exactly the bytes of the given records; all other pages are index nodes; every page
has a record, keeps to the reduced capacity, has all payloads behind the keys and inside the page, and
its bytes before the keys and behind the end of the page are unchanged. -/
theorem C69_bulkload_bytes (hP : P.OK mk) (hlt : ∀ a b : KStr mk, P.lt a.1 b.1 = decide (a < b))
    (pos : 0 < mk) {mem : PID → Mem} {ids : Nat → Nat → PID} (inj : IdsInj ids)
    (fresh : ∀ t i, 1 < ids t i) {threads : Nat} {es : List (KStr mk × VStr P.pay)} (ne : es ≠ [])
    {T : VTbl} {root : PID}
    (run : vBulkload P mk 8 mem ids threads (es.map fun x => (x.1.1, x.2.1)) = some (T, root)) :
    (∃ leaves : List (PID × VPage), VLevelOK leaves ∧
      (∀ p nd, (p, nd) ∈ leaves ↔ T p = some nd ∧ nd.inner = false) ∧
      (leaves.flatMap fun x => vRecsBytes P x.2) = es.map fun x => (x.1.1, x.2.1)) ∧
    T root ≠ none ∧
    ∀ p nd, T p = some nd → 0 < nd.cnt ∧ nd.size ≤ P.c.page * 9 / 10 ∧
      nd.InPage P.c P.c.page ∧ Framed P.c.hdr P.c.page (mem p) nd.mem := by
  obtain ⟨T', h1, h2⟩ := vBulkload_sim (vpar_bulk hP hlt pos) run
  obtain ⟨T'', root', U, leaves, g1, g2, g3, g4⟩ := bulk_levels inj fresh ne
    (Or.inr (by rw [h1]; exact Option.some_ne_none _))
  cases g1.symm.trans h1
  have hget : ∀ p n, T' p = some n → ∃ nd, T p = some nd ∧ VNR mk P (P.enc mk) mem p n nd := by
    intro p n hp
    rcases h2 p with ⟨e, _⟩ | ⟨n', nd, e1, e2, e3⟩
    · rw [e] at hp; cases hp
    · rw [e1] at hp; cases hp; exact ⟨nd, e2, e3⟩
  refine ⟨?_, ?_, fun p nd hp => ?_⟩
  · have hmem : ∀ x ∈ leaves, T' x.1 = some x.2 := fun x hx =>
      (g2.table x.1 x.2).2 (List.mem_flatten.2 ⟨leaves, by simp, hx⟩)
    have hval : ∀ x ∈ leaves, ∀ r ∈ x.2.recs, ∃ v, r.2 = Pay.val v := by
      intro x hx r hr
      have : r ∈ leaves.flatMap fun x => x.2.recs := List.mem_flatMap.2 ⟨x, hx, hr⟩
      rw [g3] at this
      obtain ⟨y, _, rfl⟩ := List.mem_map.1 this
      exact ⟨_, rfl⟩
    have key : ∀ xs : List (PID × Node (KStr mk) (VStr P.pay)), (∀ x ∈ xs, T' x.1 = some x.2) →
        ∃ ys : List (PID × VPage), List.Forall₂ (fun x y => y.1 = x.1 ∧ T y.1 = some y.2 ∧
          T' x.1 = some x.2 ∧ VNR mk P (P.enc mk) mem x.1 x.2 y.2) xs ys := by
      intro xs
      induction xs with
      | nil => exact fun _ => ⟨[], .nil⟩
      | cons x xs ih =>
        intro hx
        obtain ⟨ys, h⟩ := ih fun y hy => hx y (List.mem_cons_of_mem _ hy)
        obtain ⟨nd, e1, e2⟩ := hget _ _ (hx x (List.mem_cons_self ..))
        exact ⟨(x.1, nd) :: ys, .cons ⟨rfl, e1, hx x (List.mem_cons_self ..), e2⟩ h⟩
    obtain ⟨ys, hys⟩ := key leaves hmem
    have hlv := g2.linked leaves (by simp)
    refine ⟨ys, ⟨?_, ?_, ?_⟩, fun p nd => ?_, ?_⟩
    · intro y hy
      cases hys with
      | nil => cases hy
      | cons a b =>
        cases hy
        rw [vLow_img hP hlt a.2.2.2.img, hlv.first _ rfl]; rfl
    · intro y hy
      have hl := hlv.last
      clear hmem hval g2 g3 hlv
      induction hys with
      | nil => cases hy
      | @cons x y' xs ys a b ih =>
        cases b with
        | nil =>
          have hy : some y' = some y := hy
          cases hy
          rw [vHigh_img hP hlt a.2.2.2.img, hl x rfl]; rfl
        | cons a' b' =>
          exact ih (by simpa using hy) fun z hz => hl z (by simpa using hz)
    · have hl := hlv.link
      clear hmem hval g2 g3 hlv
      induction hys with
      | nil => exact .nil
      | @cons x y' xs ys a b ih =>
        cases b with
        | nil => exact .singleton _
        | @cons x2 y2 _ _ a' b' =>
          rw [List.isChain_cons_cons] at hl ⊢
          refine ⟨⟨?_, ?_, ?_⟩, ih hl.2⟩
          · rw [a.2.2.2.img.next, a'.1]; exact hl.1.1
          · rw [vHigh_img hP hlt a.2.2.2.img, vLow_img hP hlt a'.2.2.2.img, hl.1.2.1]
          · rw [vLow_img hP hlt a'.2.2.2.img]
            cases hlow : x2.2.low with
            | none => exact absurd hlow hl.1.2.2
            | some k => exact Option.some_ne_none _
    · constructor
      · intro hy
        obtain ⟨x, hx, hr⟩ : ∃ x ∈ leaves, (p = x.1 ∧ T p = some nd ∧ VNR mk P (P.enc mk) mem x.1 x.2 nd) := by
          clear hmem hval g2 g3 hlv
          induction hys with
          | nil => cases hy
          | cons a b ih =>
            rcases List.mem_cons.1 hy with rfl | hy
            · exact ⟨_, List.mem_cons_self .., a.1, a.2.1, a.2.2.2⟩
            · obtain ⟨x, q1, q2⟩ := ih hy
              exact ⟨x, List.mem_cons_of_mem _ q1, q2⟩
        exact ⟨hr.2.1, by rw [hr.2.2.img.inner]; exact g2.leaf x hx⟩
      · rintro ⟨e1, e2⟩
        obtain ⟨n, q1, q2⟩ := h2.get e1
        have hm := (g2.table p n).1 q1
        have hl : (p, n) ∈ leaves := by
          obtain ⟨xs, k1, k2⟩ := List.mem_flatten.1 hm
          rcases List.mem_append.1 k1 with k1 | k1
          · have := g2.inner xs k1 _ k2
            rw [q2.img.inner] at e2
            rw [this] at e2; cases e2
          · rw [List.mem_singleton.1 k1] at k2; exact k2
        clear hmem hval g2 g3 hlv hm
        induction hys with
        | nil => cases hl
        | @cons x y xs ys a b ih =>
          rcases List.mem_cons.1 hl with rfl | hl
          · obtain ⟨a1, a2, _⟩ := a
            rw [a1, e1] at a2
            exact List.mem_cons.2 (Or.inl (Prod.ext a1.symm (Option.some.inj a2)))
          · exact List.mem_cons_of_mem _ (ih hl)
    · have hflat : (ys.flatMap fun x => vRecsBytes P x.2) =
          (leaves.flatMap fun x => x.2.recs).map fun x => ((P.enc mk).key x.1, (P.enc mk).pay x.2) := by
        have hleaf := g2.leaf
        clear hmem g2 g3 hlv
        induction hys with
        | nil => rfl
        | @cons x y xs ys a b ih =>
          rw [List.flatMap_cons, List.flatMap_cons, List.map_append,
            ih (fun z hz => hval z (List.mem_cons_of_mem _ hz))
              (fun z hz => hleaf z (List.mem_cons_of_mem _ hz)),
            vRecsBytes_img a.2.2.2.img (hleaf x (List.mem_cons_self ..)) (hval x (List.mem_cons_self ..))]
      rw [hflat, g3, List.map_map]
      rfl
  · obtain ⟨n, e⟩ := g2.root
    have := (g2.table root n).2 (List.mem_flatten.2 ⟨_, List.mem_of_mem_head? e, by simp⟩)
    obtain ⟨nd, e1, _⟩ := hget _ _ this
    rw [e1]
    exact Option.some_ne_none _
  · obtain ⟨n, q1, q2⟩ := h2.get hp
    obtain ⟨f1, f2, f3⟩ := g4 p n q1
    have hs := q2.img.size
    refine ⟨?_, ?_, q2.box, q2.frame⟩
    · rw [q2.img.cnt]; exact List.length_pos_iff.2 q2.ne
    · have f3 := f3 fun k => k.2.2
      rw [← hs] at f3
      exact Int.ofNat_le.1 f3

/-- Every page `Bulkload` writes is reached from the new root through the child pointers read from the
bytes of index nodes: any property of pages that holds for the root and passes to children holds. -/
theorem C69_pages_reachable (hP : P.OK mk) (hlt : ∀ a b : KStr mk, P.lt a.1 b.1 = decide (a < b))
    (pos : 0 < mk) {mem : PID → Mem} {ids : Nat → Nat → PID} (inj : IdsInj ids)
    (fresh : ∀ t i, 1 < ids t i) {threads : Nat} {es : List (KStr mk × VStr P.pay)} (ne : es ≠ [])
    {T : VTbl} {root : PID}
    (run : vBulkload P mk 8 mem ids threads (es.map fun x => (x.1.1, x.2.1)) = some (T, root))
    {D : PID → Prop} (hroot : D root) (hstep : ∀ p nd, D p → T p = some nd → nd.inner = true →
      ∀ i < nd.cnt, D (vChildAt P nd i)) : ∀ p nd, T p = some nd → D p := by
  obtain ⟨T', h1, h2⟩ := vBulkload_sim (vpar_bulk hP hlt pos) run
  obtain ⟨T'', root', U, leaves, g1, g2, g3, g4⟩ := bulk_levels inj fresh ne
    (Or.inr (by rw [h1]; exact Option.some_ne_none _))
  cases g1.symm.trans h1
  have hinner := g2.inner
  have hfeed := g2.feeds
  have hin : ∀ xs ∈ U, ∀ x ∈ xs, T' x.1 = some x.2 := fun xs hxs x hx =>
    (g2.table x.1 x.2).2 (List.mem_flatten.2 ⟨xs, List.mem_append_left _ hxs, hx⟩)
  have htop : ∀ xs, (U ++ [leaves]).head? = some xs → ∀ x ∈ xs, D x.1 := by
    obtain ⟨n, e⟩ := g2.root
    intro xs hxs x hx
    rw [e] at hxs; cases hxs
    rw [List.mem_singleton.1 hx]; exact hroot
  have key : ∀ U : List (List (PID × Node (KStr mk) (VStr P.pay))),
      (∀ xs ∈ U, ∀ x ∈ xs, x.2.inner = true) → (U ++ [leaves]).IsChain Spec.Feeds →
      (∀ xs ∈ U, ∀ x ∈ xs, T' x.1 = some x.2) →
      (∀ xs, (U ++ [leaves]).head? = some xs → ∀ x ∈ xs, D x.1) →
      ∀ xs ∈ U ++ [leaves], ∀ x ∈ xs, D x.1 := by
    intro U
    induction U with
    | nil =>
      intro _ _ _ h xs hxs
      rw [List.mem_singleton.1 hxs]; exact h _ rfl
    | cons u U ih =>
      intro k1 k2 k3 k4 xs hxs
      rcases List.mem_cons.1 hxs with rfl | hxs
      · exact k4 _ rfl
      · refine ih (fun a ha => k1 a (List.mem_cons_of_mem _ ha)) (by
            cases U <;> exact (List.isChain_cons_cons.1 k2).2)
          (fun a ha => k3 a (List.mem_cons_of_mem _ ha)) ?_ xs hxs
        intro ys hys y hy
        have hf : Spec.Feeds u ys := by
          cases U with
          | nil => cases hys; exact (List.isChain_cons_cons.1 k2).1
          | cons v U => cases hys; exact (List.isChain_cons_cons.1 k2).1
        obtain ⟨r, hr, hry⟩ : ∃ r ∈ u.flatMap fun x => x.2.recs, r.2 = Pay.child y.1 := by
          clear ih k1 k2 k3 k4 hys
          unfold Spec.Feeds at hf
          generalize (u.flatMap fun x => x.2.recs) = rs at hf
          induction hf with
          | nil => cases hy
          | cons a b ih =>
            rcases List.mem_cons.1 hy with rfl | hy
            · exact ⟨_, List.mem_cons_self .., a.1⟩
            · obtain ⟨r, q1, q2⟩ := ih hy
              exact ⟨r, List.mem_cons_of_mem _ q1, q2⟩
        obtain ⟨x, hx, hrx⟩ := List.mem_flatMap.1 hr
        have hT := k3 u (List.mem_cons_self ..) x hx
        rcases h2 x.1 with ⟨e, _⟩ | ⟨n, nd, e1, e2, e3⟩
        · rw [e] at hT; cases hT
        · rw [hT] at e1; cases e1
          obtain ⟨i, hi, hri⟩ := List.getElem_of_mem hrx
          have hd := hstep x.1 nd (k4 u rfl x hx) e2
            (by rw [e3.img.inner]; exact k1 u (List.mem_cons_self ..) x hx) i
            (by rw [e3.img.cnt]; exact hi)
          have hc := vChildAt_sim (vpar_bulk hP hlt pos) e3 (k1 u (List.mem_cons_self ..) x hx) i hi
          rw [hri, hry] at hc
          rw [Pay.child.inj hc]
          exact hd
  intro p nd hp
  obtain ⟨n, q1, q2⟩ := h2.get hp
  obtain ⟨xs, r1, r2⟩ := List.mem_flatten.1 ((g2.table p n).1 q1)
  exact key U hinner hfeed hin htop xs r1 _ r2

/-- If two index entries and one record with keys of full length fit into the reduced capacity of a
page, and the page IDs used (those of the pages the model fills) fit in their bytes, `Bulkload` ends on
bytes, whatever the pages held before: no record is written before the start of its page, and no page
is missing. -/
theorem C69_bulkload_ends (hP : P.OK mk) (hlt : ∀ a b : KStr mk, P.lt a.1 b.1 = decide (a < b))
    (pos : 0 < mk) (hb : BulkOK (P.cfg mk)) {ids : Nat → Nat → PID} (inj : IdsInj ids)
    (fresh : ∀ t i, 1 < ids t i) (threads : Nat) {es : List (KStr mk × VStr P.pay)} (ne : es ≠ [])
    (hids : ∀ T root, bulkload (P.cfg mk) ids threads es = some (T, root) →
      ∀ p n, T p = some n → p < 256 ^ P.pid) (mem : PID → Mem) :
    ∃ T root, vBulkload P mk 8 mem ids threads (es.map fun x => (x.1.1, x.2.1)) = some (T, root) := by
  obtain ⟨T, root, h, _⟩ := C32_bulkload_ends_partial hb inj fresh threads ne
  obtain ⟨bT, h'⟩ := vBulkload_ends (mem := mem) (vpar_bulk hP hlt pos) h (hids T root h)
  exact ⟨bT, root, h'⟩

/-! ### Examples -/

theorem exPar_bulk : BulkOK (exPar.cfg 8) :=
  ⟨by decide, by decide, by decide, fun k => k.2.2, by decide⟩

/-- Eight records with keys of two and of eight bytes. -/
def mixRecs : List (KStr 8 × VStr exPar.pay) :=
  (List.range 8).map fun i => if i % 3 = 1
    then (⟨[UInt8.ofNat (120 + i), 9], Nat.succ_pos _, show 2 ≤ 8 by decide⟩, loadVal i)
    else (loadKey (120 + i), loadVal i)

/-- The bytes of pages before. -/
def vdirt (p : PID) : Mem := fun a => UInt8.ofNat (3 * p + a)

set_option maxRecDepth 100000 in
/-- Two workers load them: two leaves. -/
theorem mixRecs_load : ∃ T root,
    vBulkload exPar 8 8 vdirt exIds 2 (mixRecs.map fun x => (x.1.1, x.2.1)) = some (T, root) ∧
      (T root).any (fun pg => pg.inner && pg.cnt == 2) = true := by
  have hx : ((vBulkload exPar 8 8 vdirt exIds 2 (mixRecs.map fun x => (x.1.1, x.2.1))).any fun x =>
      (x.1 x.2).any fun pg => pg.inner && pg.cnt == 2) = true := by decide +kernel
  cases hb : vBulkload exPar 8 8 vdirt exIds 2 (mixRecs.map fun x => (x.1.1, x.2.1)) with
  | none => rw [hb] at hx; cases hx
  | some x => rw [hb] at hx; exact ⟨x.1, x.2, rfl, hx⟩

theorem mixRecs_ne : mixRecs ≠ [] := fun h => by
  have := congrArg List.length h
  simp [mixRecs] at this

/-- The leaves of the example hold the records. -/
example : ∃ T root,
    vBulkload exPar 8 8 vdirt exIds 2 (mixRecs.map fun x => (x.1.1, x.2.1)) = some (T, root) ∧
    ∃ leaves : List (PID × VPage), VLevelOK leaves ∧
      (∀ p pg, (p, pg) ∈ leaves ↔ T p = some pg ∧ pg.inner = false) ∧
      (leaves.flatMap fun x => vRecsBytes exPar x.2) = mixRecs.map fun x => (x.1.1, x.2.1) := by
  obtain ⟨T, root, h, _⟩ := mixRecs_load
  exact ⟨T, root, h, (C69_bulkload_bytes exPar_ok exPar_lt (by decide) exIds_inj exIds_fresh
    mixRecs_ne h).1⟩

/-- The number of threads does not matter. -/
example (threads : Nat) (hids : ∀ T root, bulkload (exPar.cfg 8) exIds threads mixRecs = some (T, root) →
      ∀ p n, T p = some n → p < 256 ^ 8) :
    ∃ T root, vBulkload exPar 8 8 vdirt exIds threads (mixRecs.map fun x => (x.1.1, x.2.1)) =
      some (T, root) :=
  C69_bulkload_ends exPar_ok exPar_lt (by decide) exPar_bulk exIds_inj exIds_fresh threads mixRecs_ne
    hids vdirt

/-- A property of pages that passes from the root to all children. -/
example : ∃ T root,
    vBulkload exPar 8 8 vdirt exIds 2 (mixRecs.map fun x => (x.1.1, x.2.1)) = some (T, root) ∧
    ∀ D : PID → Prop, D root → (∀ p pg, D p → T p = some pg → pg.inner = true →
      ∀ i < pg.cnt, D (vChildAt exPar pg i)) → ∀ p pg, T p = some pg → D p := by
  obtain ⟨T, root, h, _⟩ := mixRecs_load
  exact ⟨T, root, h, fun D h1 h2 => C69_pages_reachable exPar_ok exPar_lt (by decide) exIds_inj
    exIds_fresh mixRecs_ne h h1 h2⟩

end BwTree.Props
