import Verif.Props.FixBytes
import Verif.Fix.BulkEnds
import Verif.Props.Bulk

/-!
# Properties of Bulkload on the bytes of fixed-length pages
-/

namespace BwTree.Props

open Fix
open Layout (Mem Enc Framed)
open Bytes (VStr Lay BSys BRun BCall brets execAll execAll_sound event pidOf pidBytes Head)

set_option linter.unusedSectionVars false

variable {P : FPar} [LinearOrder (VStr P.c.klen)]

/-- The records of a leaf, read from the bytes of its page. -/
def recsBytes (P : FPar) (nd : FNode) : List (Str × Str) :=
  (List.range nd.pg.cnt).map fun i => (nd.pg.key P.c i, nd.pg.pay P.c P.pay i)

/-- The lower bound of a node, read from its page. -/
def lowBytes (nd : FNode) : Option Str := if nd.hasLow then some nd.low else none

/-- The upper bound of a node, read from its page. -/
def highBytes (nd : FNode) : Option Str := if nd.hasHigh then some nd.high else none

/-- Leaves from left to right, as in `Spec.LevelOK`. -/
structure FLevelOK (xs : List (PID × FNode)) : Prop where
  first : ∀ x, xs.head? = some x → lowBytes x.2 = none
  last : ∀ x, xs.getLast? = some x → highBytes x.2 = none
  link : xs.IsChain fun x y => x.2.next = y.1 ∧ highBytes x.2 = lowBytes y.2 ∧ lowBytes y.2 ≠ none

theorem recsBytes_img {n : Node (VStr P.c.klen) (VStr P.pay)} {nd : FNode} (h : NImg P P.enc n nd)
    (hl : n.inner = false) (hv : ∀ x ∈ n.recs, ∃ v, x.2 = Pay.val v) :
    recsBytes P nd = n.recs.map fun x => (P.enc.key x.1, P.enc.pay x.2) := by
  apply List.ext_getElem
  · simp [recsBytes, h.cnt]
  · intro i h1 h2
    have hi : i < n.recs.length := by simpa using h2
    simp only [recsBytes, List.getElem_map, List.getElem_range]
    rw [h.keys i hi (by rw [hl]; simp)]
    obtain ⟨v, e⟩ := hv _ (List.getElem_mem hi)
    have hp := h.pays i hi
    rw [e] at hp ⊢
    rw [show (P.enc.pay (Pay.val v)).length = P.pay from v.2] at hp
    rw [hp]

theorem lowBytes_img {n : Node (VStr P.c.klen) (VStr P.pay)} {nd : FNode} (h : NImg P P.enc n nd) :
    lowBytes nd = n.low.map P.enc.key := bound_of h.low

theorem highBytes_img {n : Node (VStr P.c.klen) (VStr P.pay)} {nd : FNode} (h : NImg P P.enc n nd) :
    highBytes nd = n.high.map P.enc.key := bound_of h.high

/-! ## C67: Bulkload -/

/-- If `Bulkload` ends on the bytes of fixed-length pages, the leaves, read from left to right through
their links, hold exactly the bytes of the given records; all other pages are index nodes; every page
has a record, keeps to the reduced capacity, has all payloads behind the keys and inside the page, and
its bytes before the keys and behind the end of the page are unchanged. -/
theorem C67_bulkload_bytes (hP : P.OK) (hlt : ∀ a b : VStr P.c.klen, P.lt a.1 b.1 = decide (a < b))
    (pid : P.pid = 8) {mem : PID → Mem} {ids : Nat → Nat → PID} (inj : IdsInj ids)
    (fresh : ∀ t i, 1 < ids t i) {threads : Nat} {es : List (VStr P.c.klen × VStr P.pay)} (ne : es ≠ [])
    {T : BTbl} {root : PID}
    (run : bBulkload P mem ids threads (es.map fun x => (x.1.1, x.2.1)) = some (T, root)) :
    (∃ leaves : List (PID × FNode), FLevelOK leaves ∧
      (∀ p nd, (p, nd) ∈ leaves ↔ T p = some nd ∧ nd.inner = false) ∧
      (leaves.flatMap fun x => recsBytes P x.2) = es.map fun x => (x.1.1, x.2.1)) ∧
    T root ≠ none ∧
    ∀ p nd, T p = some nd → 0 < nd.pg.cnt ∧ nd.pg.size ≤ P.c.page * 9 / 10 ∧
      nd.InPage P P.c.page ∧ Framed P.c.keys P.c.page (mem p) nd.pg.mem := by
  obtain ⟨T', h1, h2⟩ := bulkload_sim (fpar_lay hP hlt) pid run
  obtain ⟨T'', root', U, leaves, g1, g2, g3, g4⟩ := bulk_levels inj fresh ne
    (Or.inr (by rw [h1]; exact Option.some_ne_none _))
  cases g1.symm.trans h1
  have hget : ∀ p n, T' p = some n → ∃ nd, T p = some nd ∧ NR P P.enc mem p n nd := by
    intro p n hp
    rcases h2 p with ⟨e, _⟩ | ⟨n', nd, e1, e2, e3⟩
    · rw [e] at hp; cases hp
    · rw [e1] at hp; cases hp; exact ⟨nd, e2, e3⟩
  refine ⟨?_, ?_, fun p nd hp => ?_⟩
  · have hmem : ∀ x ∈ leaves, T' x.1 = some x.2 := fun x hx =>
      (g2.table x.1 x.2).2 (List.mem_flatten.2 ⟨leaves, by simp, hx⟩)
    have hval : ∀ x ∈ leaves, ∀ r ∈ x.2.recs, ∃ v, r.2 = Pay.val v := by
      intro x hx r hr
      have : r ∈ leaves.flatMap fun x => x.2.recs := List.mem_flatMap.2 ⟨x, hx, hr⟩
      rw [g3] at this
      obtain ⟨y, _, rfl⟩ := List.mem_map.1 this
      exact ⟨_, rfl⟩
    have key : ∀ xs : List (PID × Node (VStr P.c.klen) (VStr P.pay)), (∀ x ∈ xs, T' x.1 = some x.2) →
        ∃ ys : List (PID × FNode), List.Forall₂ (fun x y => y.1 = x.1 ∧ T y.1 = some y.2 ∧
          T' x.1 = some x.2 ∧ NR P P.enc mem x.1 x.2 y.2) xs ys := by
      intro xs
      induction xs with
      | nil => exact fun _ => ⟨[], .nil⟩
      | cons x xs ih =>
        intro hx
        obtain ⟨ys, h⟩ := ih fun y hy => hx y (List.mem_cons_of_mem _ hy)
        obtain ⟨nd, e1, e2⟩ := hget _ _ (hx x (List.mem_cons_self ..))
        exact ⟨(x.1, nd) :: ys, .cons ⟨rfl, e1, hx x (List.mem_cons_self ..), e2⟩ h⟩
    obtain ⟨ys, hys⟩ := key leaves hmem
    have hlv := g2.linked leaves (by simp)
    refine ⟨ys, ⟨?_, ?_, ?_⟩, fun p nd => ?_, ?_⟩
    · intro y hy
      cases hys with
      | nil => cases hy
      | cons a b =>
        cases hy
        rw [lowBytes_img a.2.2.2.img.1, hlv.first _ rfl]; rfl
    · intro y hy
      have hl := hlv.last
      clear hmem hval g2 g3 hlv
      induction hys with
      | nil => cases hy
      | @cons x y' xs ys a b ih =>
        cases b with
        | nil =>
          have hy : some y' = some y := hy
          cases hy
          rw [highBytes_img a.2.2.2.img.1, hl x rfl]; rfl
        | cons a' b' =>
          exact ih (by simpa using hy) fun z hz => hl z (by simpa using hz)
    · have hl := hlv.link
      clear hmem hval g2 g3 hlv
      induction hys with
      | nil => exact .nil
      | @cons x y' xs ys a b ih =>
        cases b with
        | nil => exact .singleton _
        | @cons x2 y2 _ _ a' b' =>
          rw [List.isChain_cons_cons] at hl ⊢
          refine ⟨⟨?_, ?_, ?_⟩, ih hl.2⟩
          · rw [a.2.2.2.img.1.next, a'.1]; exact hl.1.1
          · rw [highBytes_img a.2.2.2.img.1, lowBytes_img a'.2.2.2.img.1, hl.1.2.1]
          · rw [lowBytes_img a'.2.2.2.img.1]
            cases hlow : x2.2.low with
            | none => exact absurd hlow hl.1.2.2
            | some k => exact Option.some_ne_none _
    · constructor
      · intro hy
        obtain ⟨x, hx, hr⟩ : ∃ x ∈ leaves, (p = x.1 ∧ T p = some nd ∧ NR P P.enc mem x.1 x.2 nd) := by
          clear hmem hval g2 g3 hlv
          induction hys with
          | nil => cases hy
          | cons a b ih =>
            rcases List.mem_cons.1 hy with rfl | hy
            · exact ⟨_, List.mem_cons_self .., a.1, a.2.1, a.2.2.2⟩
            · obtain ⟨x, q1, q2⟩ := ih hy
              exact ⟨x, List.mem_cons_of_mem _ q1, q2⟩
        exact ⟨hr.2.1, by rw [hr.2.2.img.1.inner]; exact g2.leaf x hx⟩
      · rintro ⟨e1, e2⟩
        obtain ⟨n, q1, q2⟩ := h2.get e1
        have hm := (g2.table p n).1 q1
        have hl : (p, n) ∈ leaves := by
          obtain ⟨xs, k1, k2⟩ := List.mem_flatten.1 hm
          rcases List.mem_append.1 k1 with k1 | k1
          · have := g2.inner xs k1 _ k2
            rw [q2.img.1.inner] at e2
            rw [this] at e2; cases e2
          · rw [List.mem_singleton.1 k1] at k2; exact k2
        clear hmem hval g2 g3 hlv hm
        induction hys with
        | nil => cases hl
        | @cons x y xs ys a b ih =>
          rcases List.mem_cons.1 hl with rfl | hl
          · obtain ⟨a1, a2, _⟩ := a
            rw [a1, e1] at a2
            exact List.mem_cons.2 (Or.inl (Prod.ext a1.symm (Option.some.inj a2)))
          · exact List.mem_cons_of_mem _ (ih hl)
    · have hflat : (ys.flatMap fun x => recsBytes P x.2) =
          (leaves.flatMap fun x => x.2.recs).map fun x => (P.enc.key x.1, P.enc.pay x.2) := by
        have hleaf := g2.leaf
        clear hmem g2 g3 hlv
        induction hys with
        | nil => rfl
        | @cons x y xs ys a b ih =>
          rw [List.flatMap_cons, List.flatMap_cons, List.map_append,
            ih (fun z hz => hval z (List.mem_cons_of_mem _ hz))
              (fun z hz => hleaf z (List.mem_cons_of_mem _ hz)),
            recsBytes_img a.2.2.2.img.1 (hleaf x (List.mem_cons_self ..)) (hval x (List.mem_cons_self ..))]
      rw [hflat, g3, List.map_map]
      rfl
  · obtain ⟨n, e⟩ := g2.root
    have := (g2.table root n).2 (List.mem_flatten.2 ⟨_, List.mem_of_mem_head? e, by simp⟩)
    obtain ⟨nd, e1, _⟩ := hget _ _ this
    rw [e1]
    exact Option.some_ne_none _
  · obtain ⟨n, q1, q2⟩ := h2.get hp
    obtain ⟨f1, f2, f3⟩ := g4 p n q1
    have hs := q2.img.1.size
    refine ⟨?_, ?_, q2.img.2, q2.frame⟩
    · rw [q2.img.1.cnt]; exact List.length_pos_iff.2 q2.ne
    · have f3 := f3 fun _ => Nat.le_refl 0
      rw [← hs] at f3
      exact Int.ofNat_le.1 f3

/-- If two index entries and one record fit into the reduced capacity of a page, and the page IDs used
(those of the pages the model fills) fit in their bytes, `Bulkload` ends on bytes, whatever the pages
held before: no payload is written before the start of its page, and no page is missing. -/
theorem C67_bulkload_ends (hP : P.OK) (hlt : ∀ a b : VStr P.c.klen, P.lt a.1 b.1 = decide (a < b))
    (pid : P.pid = 8) (hb : BulkOK P.cfg) {ids : Nat → Nat → PID} (inj : IdsInj ids)
    (fresh : ∀ t i, 1 < ids t i) (threads : Nat) {es : List (VStr P.c.klen × VStr P.pay)} (ne : es ≠ [])
    (hids : ∀ T root, bulkload P.cfg ids threads es = some (T, root) →
      ∀ p n, T p = some n → p < 256 ^ P.pid) (mem : PID → Mem) :
    ∃ T root, bBulkload P mem ids threads (es.map fun x => (x.1.1, x.2.1)) = some (T, root) := by
  obtain ⟨T, root, h, _⟩ := C32_bulkload_ends_partial hb inj fresh threads ne
  obtain ⟨bT, h'⟩ := bulkload_ends (mem := mem) (fpar_lay hP hlt) pid h (hids T root h)
  exact ⟨bT, root, h'⟩

/-- Every page `Bulkload` writes is reached from the new root through the child pointers read from the
bytes of index nodes: any property of pages that holds for the root and passes to children holds. -/
theorem C67_pages_reachable (hP : P.OK) (hlt : ∀ a b : VStr P.c.klen, P.lt a.1 b.1 = decide (a < b))
    (pid : P.pid = 8) {mem : PID → Mem} {ids : Nat → Nat → PID} (inj : IdsInj ids)
    (fresh : ∀ t i, 1 < ids t i) {threads : Nat} {es : List (VStr P.c.klen × VStr P.pay)} (ne : es ≠ [])
    {T : BTbl} {root : PID}
    (run : bBulkload P mem ids threads (es.map fun x => (x.1.1, x.2.1)) = some (T, root))
    {D : PID → Prop} (hroot : D root) (hstep : ∀ p nd, D p → T p = some nd → nd.inner = true →
      ∀ i < nd.pg.cnt, D (nd.childAt P i)) : ∀ p nd, T p = some nd → D p := by
  obtain ⟨T', h1, h2⟩ := bulkload_sim (fpar_lay hP hlt) pid run
  obtain ⟨T'', root', U, leaves, g1, g2, g3, g4⟩ := bulk_levels inj fresh ne
    (Or.inr (by rw [h1]; exact Option.some_ne_none _))
  cases g1.symm.trans h1
  have hinner := g2.inner
  have hfeed := g2.feeds
  have hin : ∀ xs ∈ U, ∀ x ∈ xs, T' x.1 = some x.2 := fun xs hxs x hx =>
    (g2.table x.1 x.2).2 (List.mem_flatten.2 ⟨xs, List.mem_append_left _ hxs, hx⟩)
  have htop : ∀ xs, (U ++ [leaves]).head? = some xs → ∀ x ∈ xs, D x.1 := by
    obtain ⟨n, e⟩ := g2.root
    intro xs hxs x hx
    rw [e] at hxs; cases hxs
    rw [List.mem_singleton.1 hx]; exact hroot
  have key : ∀ U : List (List (PID × Node (VStr P.c.klen) (VStr P.pay))),
      (∀ xs ∈ U, ∀ x ∈ xs, x.2.inner = true) → (U ++ [leaves]).IsChain Spec.Feeds →
      (∀ xs ∈ U, ∀ x ∈ xs, T' x.1 = some x.2) →
      (∀ xs, (U ++ [leaves]).head? = some xs → ∀ x ∈ xs, D x.1) →
      ∀ xs ∈ U ++ [leaves], ∀ x ∈ xs, D x.1 := by
    intro U
    induction U with
    | nil =>
      intro _ _ _ h xs hxs
      rw [List.mem_singleton.1 hxs]; exact h _ rfl
    | cons u U ih =>
      intro k1 k2 k3 k4 xs hxs
      rcases List.mem_cons.1 hxs with rfl | hxs
      · exact k4 _ rfl
      · refine ih (fun a ha => k1 a (List.mem_cons_of_mem _ ha)) (by
            cases U <;> exact (List.isChain_cons_cons.1 k2).2)
          (fun a ha => k3 a (List.mem_cons_of_mem _ ha)) ?_ xs hxs
        intro ys hys y hy
        have hf : Spec.Feeds u ys := by
          cases U with
          | nil => cases hys; exact (List.isChain_cons_cons.1 k2).1
          | cons v U => cases hys; exact (List.isChain_cons_cons.1 k2).1
        obtain ⟨r, hr, hry⟩ : ∃ r ∈ u.flatMap fun x => x.2.recs, r.2 = Pay.child y.1 := by
          clear ih k1 k2 k3 k4 hys
          unfold Spec.Feeds at hf
          generalize (u.flatMap fun x => x.2.recs) = rs at hf
          induction hf with
          | nil => cases hy
          | cons a b ih =>
            rcases List.mem_cons.1 hy with rfl | hy
            · exact ⟨_, List.mem_cons_self .., a.1⟩
            · obtain ⟨r, q1, q2⟩ := ih hy
              exact ⟨r, List.mem_cons_of_mem _ q1, q2⟩
        obtain ⟨x, hx, hrx⟩ := List.mem_flatMap.1 hr
        have hT := k3 u (List.mem_cons_self ..) x hx
        rcases h2 x.1 with ⟨e, _⟩ | ⟨n, nd, e1, e2, e3⟩
        · rw [e] at hT; cases hT
        · rw [hT] at e1; cases e1
          obtain ⟨i, hi, hri⟩ := List.getElem_of_mem hrx
          have hd := hstep x.1 nd (k4 u rfl x hx) e2
            (by rw [e3.img.1.inner]; exact k1 u (List.mem_cons_self ..) x hx) i
            (by rw [e3.img.1.cnt]; exact hi)
          have hc := childAt_sim (fpar_lay hP hlt) e3 (k1 u (List.mem_cons_self ..) x hx) i hi
          rw [hri, hry] at hc
          rw [Pay.child.inj hc]
          exact hd
  intro p nd hp
  obtain ⟨n, q1, q2⟩ := h2.get hp
  obtain ⟨xs, r1, r2⟩ := List.mem_flatten.1 ((g2.table p n).1 q1)
  exact key U hinner hfeed hin htop xs r1 _ r2

/-! ### Examples -/

/-- Six records for two workers. -/
def fbulk : List (VStr fexPar.c.klen × VStr fexPar.pay) :=
  (List.range 6).map fun i => (⟨pidBytes 8 (200 * i), Bytes.pidBytes_length _ _⟩,
    ⟨pidBytes 8 (i + 65), Bytes.pidBytes_length _ _⟩)

theorem fbulk_ne : fbulk ≠ [] := fun h => by
  have := congrArg List.length h
  simp [fbulk] at this

theorem fbulk_sorted : fbulk.Pairwise fun x y => x.1 < y.1 := by
  have h : fbulk.Pairwise fun x y => Nat.blt (pidOf x.1.1) (pidOf y.1.1) = true := by
    unfold fbulk; decide +kernel
  exact h.imp fun h => of_eq_true (Nat.blt_eq ▸ eq_true h)

/-- The bytes of pages before. -/
def fdirt (p : PID) : Mem := fun a => UInt8.ofNat (p + a)

/-- A read, writes, and a scan over the border of the workers. -/
def fbulkCalls : List BCall :=
  [.op (.read (fixKey 4)), .op (.insert (fixKey 5) (strVal 1)), .op (.delete (fixKey 8)),
   .visit (some (fixKey 4, true)) none, .next, .op (.read (fixKey 7))]

/-- What they return. -/
def fbulkRets : List (Spec.Ret Str Str) :=
  [.res (.payload (some (pidBytes 8 67))), .res .success, .res .success,
   .page [(fixKey 4, pidBytes 8 67), (fixKey 5, strVal 1)] (some (fixKey 6)),
   .page [(fixKey 6, pidBytes 8 68), (fixKey 10, pidBytes 8 70)] none, .res (.payload none)]

set_option maxRecDepth 100000 in
/-- `Bulkload` of `fbulk` ends with a root above two leaves, and the calls can be executed on it. -/
theorem fbulk_run : ∃ T h B, FStart fexPar (Spec.ofList fbulk) (bulkStart fexPar T 8 9) ∧
    bBulkload fexPar fdirt exIds 2 (fbulk.map fun x => (x.1.1, x.2.1)) = some (T, 8) ∧
    BRun (fixLay fexPar) (okCall fexPar) (bulkStart fexPar T 8 9) h B ∧ brets h = fbulkRets ∧
    B.sh.npid = 9 := by
  have hx : ((bBulkload fexPar fdirt exIds 2 (fbulk.map fun x => (x.1.1, x.2.1))).elim false fun x =>
      decide (x.2 = 8) &&
      (execAll (L := fixLay fexPar) 40 1000 (bulkStart fexPar x.1 8 9) fbulkCalls).elim false fun y =>
        decide (y.1 = fbulkRets) && decide (y.2.sh.npid = 9)) = true := by decide +kernel
  cases hb : bBulkload fexPar fdirt exIds 2 (fbulk.map fun x => (x.1.1, x.2.1)) with
  | none => rw [hb] at hx; cases hx
  | some x =>
    rw [hb] at hx
    obtain ⟨T, root⟩ := x
    simp only [Option.elim_some, Bool.and_eq_true, decide_eq_true_eq] at hx
    obtain ⟨rfl, hx⟩ := hx
    cases he : execAll (L := fixLay fexPar) 40 1000 (bulkStart fexPar T 8 9) fbulkCalls with
    | none => rw [he] at hx; cases hx
    | some y =>
      rw [he] at hx
      obtain ⟨rs, B⟩ := y
      simp only [Option.elim_some, Bool.and_eq_true, decide_eq_true_eq] at hx
      obtain ⟨h', r1, r2⟩ := execAll_sound (legal := okCall fexPar) (by decide +kernel) rfl .nil he
      refine ⟨T, h', B, .bulk (es := fbulk) rfl exIds_inj exIds_fresh fbulk_ne fbulk_sorted hb
        ?_, rfl, r1, by rw [r2]; exact hx.1, hx.2⟩
      have hD : ∀ p ∈ [2, 4, 8], (T p).elim true (fun nd => !nd.inner ||
          (List.range nd.pg.cnt).all fun i => [2, 4, 8].contains (nd.childAt fexPar i)) = true := by
        have : ((bBulkload fexPar fdirt exIds 2 (fbulk.map fun x => (x.1.1, x.2.1))).elim false fun x =>
            [2, 4, 8].all fun p => (x.1 p).elim true (fun nd => !nd.inner ||
              (List.range nd.pg.cnt).all fun i => [2, 4, 8].contains (nd.childAt fexPar i))) =
            true := by decide +kernel
        rw [hb] at this
        exact List.all_eq_true.1 this
      intro p nd hp
      have := C67_pages_reachable fexPar_ok fexPar_lt rfl exIds_inj exIds_fresh (es := fbulk) fbulk_ne hb
        (D := fun p => p ∈ [2, 4, 8]) (by decide) (fun p nd h1 h2 h3 i hi => by
          have := hD p h1
          rw [h2] at this
          simp only [Option.elim_some, h3, Bool.not_true, Bool.false_or] at this
          exact List.contains_iff_mem.1 (List.all_eq_true.1 this i (List.mem_range.2 hi))) p nd hp
      exact (show ∀ q ∈ [2, 4, 8], q < 9 by decide) p this

theorem fexPar_bulk : BulkOK fexPar.cfg :=
  ⟨by decide, by decide, by decide, fun _ => Nat.le_refl 0, by decide⟩

/-- The number of records and threads does not matter. -/
example (n threads : Nat) (hids : ∀ T root, bulkload fexPar.cfg exIds threads
      ((List.range (n + 1)).map fun i => ((⟨pidBytes 8 (200 * i), Bytes.pidBytes_length _ _⟩ : VStr 8),
        (⟨pidBytes 8 i, Bytes.pidBytes_length _ _⟩ : VStr 8))) = some (T, root) →
      ∀ p nd, T p = some nd → p < 256 ^ 8) :
    ∃ T root, bBulkload fexPar fdirt exIds threads
      (((List.range (n + 1)).map fun i => ((⟨pidBytes 8 (200 * i), Bytes.pidBytes_length _ _⟩ : VStr 8),
        (⟨pidBytes 8 i, Bytes.pidBytes_length _ _⟩ : VStr 8))).map fun x => (x.1.1, x.2.1)) =
      some (T, root) :=
  C67_bulkload_ends fexPar_ok fexPar_lt rfl fexPar_bulk exIds_inj exIds_fresh threads
    (fun h => by have := congrArg List.length h; simp at this) hids fdirt

/-- The history is linearizable from the map of the loaded records. -/
example : ∃ T h B, BRun (fixLay fexPar) (okCall fexPar) (bulkStart fexPar T 8 9) h B ∧
    .res (.payload (some (pidBytes 8 67))) ∈ brets h ∧
    ∃ h' : List (Spec.Event (VStr 8) (VStr 8)), h = h'.map (event fexPar.enc) ∧
      ∃ log, Spec.Linearizes (Spec.ofList fbulk) h' log := by
  obtain ⟨T, h, B, h0, _, h1, h2, h3⟩ := fbulk_run
  exact ⟨T, h, B, h1, by rw [h2]; exact List.mem_cons_self ..,
    (C65_fix_bytes_linearizable_partial fexPar_ok fexPar_lt h0 h1 (by rw [h3]; decide)).1⟩

/-- The leaves of the example hold the records. -/
example : ∃ T, bBulkload fexPar fdirt exIds 2 (fbulk.map fun x => (x.1.1, x.2.1)) = some (T, 8) ∧
    ∃ leaves : List (PID × FNode), FLevelOK leaves ∧
      (∀ p nd, (p, nd) ∈ leaves ↔ T p = some nd ∧ nd.inner = false) ∧
      (leaves.flatMap fun x => recsBytes fexPar x.2) = fbulk.map fun x => (x.1.1, x.2.1) := by
  obtain ⟨T, _, _, _, h, _⟩ := fbulk_run
  exact ⟨T, h, (C67_bulkload_bytes fexPar_ok fexPar_lt rfl exIds_inj exIds_fresh fbulk_ne h).1⟩

end BwTree.Props
