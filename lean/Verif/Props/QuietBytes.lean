import Verif.Bytes.QuietTree
import Verif.Bytes.Exclusive
import Verif.Props.IndexBytes
import Verif.Props.BytesSolo
import Verif.Props.QuietOrder

/-!
# C79: calls on the bytes of a quiet tree

After any execution of any number of threads on bytes, when no call is active and no race has left the
index in disorder, one thread works on the bytes as on the bytes of a new tree: operations and scans
end with the right answers (`bw_tree.hpp` 148-476, 1178-1579 with the pages of
`component/varlen/node.hpp` and `component/fixlen/node.hpp`).
-/

namespace BwTree.Props

open Layout (Mem BBound Enc)
open Bytes

set_option linter.unusedSectionVars false

/-- One thread works on the bytes `b0` of a tree with the contents `M`, from string to string: after any
of its calls the returns are those of the map, every operation ends with the right answer, whatever the
bytes of the pages it takes and the bound on its loops, if large enough, and every scan ends with the
records in the range (see `C13_false` for the begin key of an open range).  The one exception is that
the page IDs reach `lim`.  With any bound on the loops there is no undefined behaviour and no event of
`Flag`. -/
structure Works (L : Lay) (legal : Spec.Call Str Str → Prop) (lt : Str → Str → Bool) (lim : Nat)
    (M : Str → Option Str) (b0 : BSh L.C) : Prop where
  meets : ∀ {l b it}, BSession L legal b0 l b it → b.npid ≤ lim → @Spec.Meets Str Str _ (strLT lt) M l
  ends : ∀ {l b it o}, BSession L legal b0 l b it → b.npid ≤ lim → legal (.op o) →
    ∃ n N, ∀ f, N ≤ f → BEnds (fun b' => lim < b'.npid)
      (fun r _ => r = (Spec.apply (Spec.mapAfterAll M (l.map Prod.fst)) o).2) n b (Bytes.runOp L f o)
  scans : ∀ {l b it bb eb}, BSession L legal b0 l b it → b.npid ≤ lim → legal (.visit bb eb) →
    ∃ vs : List (Spec.Visit Str Str), BSession L legal b0 (l ++ vs.map (visitCall eb)) b none ∧
      Spec.Linked bb vs ∧ Spec.Finished vs ∧
      ((Spec.allRecs vs).Pairwise fun x y => lt x.1 y.1 = true) ∧
      (∀ k v, (k, v) ∈ Spec.allRecs vs → Spec.mapAfterAll M (l.map Prod.fst) k = some v ∧
        @Spec.toB Str (strLT lt) eb k ∧ (@Spec.fromB Str (strLT lt) bb k ∨ bb = some (k, false))) ∧
      (∀ k v, Spec.mapAfterAll M (l.map Prod.fst) k = some v → @Spec.toB Str (strLT lt) eb k →
        @Spec.fromB Str (strLT lt) bb k → (k, v) ∈ Spec.allRecs vs)
  total : ∀ ops : List (Spec.Op Str Str), (∀ o ∈ ops, legal (.op o)) →
    ∃ (l : List (Spec.Op Str Str × Spec.Res Str)) (b : BSh L.C),
      BSession L legal b0 (l.map fun x => (.op x.1, .res x.2)) b none ∧
      l.map Prod.snd = Spec.answers M (l.map Prod.fst) ∧
      (l.map Prod.fst = ops ∨ ∃ o rest, ops = l.map Prod.fst ++ o :: rest ∧
        ∃ f b' q', BFirmRun b (Bytes.runOp L f o) b' q' ∧ lim < b'.npid)
  visits : ∀ {l b it bb eb}, BSession L legal b0 l b it → b.npid ≤ lim → legal (.visit bb eb) →
    ∃ n N, ∀ f, N ≤ f → BEnds (fun _ => False)
      (fun x b' => b' = b ∧ @Spec.PageOK Str Str (strLT lt) (Spec.mapAfterAll M (l.map Prod.fst)) bb eb x.1
        (x.2.map Prod.fst)) n b (Bytes.scanFirst L f bb eb)
  nexts : ∀ {l b p k eb}, BSession L legal b0 l b (some (p, k, eb)) → b.npid ≤ lim →
    ∃ n N, ∀ f, N ≤ f → BEnds (fun _ => False)
      (fun x b' => b' = b ∧ @Spec.PageOK Str Str (strLT lt) (Spec.mapAfterAll M (l.map Prod.fst))
        (some (k, true)) eb x.1 (x.2.map Prod.fst)) n b (Bytes.scanNext L f p k eb)
  opSafe : ∀ {l b it o f b' q}, BSession L legal b0 l b it → legal (.op o) →
    BFirmRun b (Bytes.runOp L f o) b' q → b'.npid ≤ lim → q ≠ .ub ∧ ∀ k, q ≠ .flag k
  scanSafe : ∀ {l b it bb eb f b' q}, BSession L legal b0 l b it → legal (.visit bb eb) →
    BFirmRun b (Bytes.scanFirst L f bb eb) b' q → b'.npid ≤ lim → q ≠ .ub ∧ ∀ k, q ≠ .flag k
  nextSafe : ∀ {l b p k eb f b' q}, BSession L legal b0 l b (some (p, k, eb)) →
    BFirmRun b (Bytes.scanNext L f p k eb) b' q → b'.npid ≤ lim → q ≠ .ub ∧ ∀ k, q ≠ .flag k

/-- The bytes of the pages hold the chains of the pages. -/
def BHolds {K V : Type} [LinearOrder K] {C : Type} (Img : Chain K V → C → Prop) (s : Sh K V) (b : BSh C) :
    Prop :=
  b.root = s.root ∧ b.cells = s.cells ∧ b.npid = s.npid ∧ ∀ p, (b.mt p = none → s.mt p = none) ∧
    ∀ hd, b.mt p = some hd → ∃ c, s.mt p = some c ∧ Img c hd.ch

/-- Pages found by searches from the root through index nodes without delta records. -/
inductive Found (L : Lay) (lt : Str → Str → Bool) (okKey : Str → Prop) (b : BSh L.C) : PID → Prop
  | root : Found L lt okKey b b.root
  | child {q p : PID} {hq : Head L.C} {n : L.N} {k : Str} : Found L lt okKey b q → b.mt q = some hq →
      L.isLeaf hq.ch = false → hq.ch = L.base n → okKey k → (∀ l, L.low n = some l → lt k l = false) →
      L.child k true hq.ch = .child p → Found L lt okKey b p

/-- The bytes of a tree whose index nodes have no delta records: every page is found by a search, and
the root and leftmost children are not removed. -/
structure PackedBytes (L : Lay) (lt : Str → Str → Bool) (okKey : Str → Prop) (b : BSh L.C) : Prop where
  root : ∃ hd, b.mt b.root = some hd ∧ L.isRemoved hd.ch = false
  base : ∀ p hd, b.mt p = some hd → L.isRemoved hd.ch = false → L.isLeaf hd.ch = false →
    ∃ n, hd.ch = L.base n
  found : ∀ p hd, b.mt p = some hd → L.isRemoved hd.ch = false → Found L lt okKey b p
  left : ∀ p hd q, b.mt p = some hd → L.isRemoved hd.ch = false → L.isLeaf hd.ch = false →
    L.leftmost hd.ch = some q → ∃ hq, b.mt q = some hq ∧ L.isRemoved hq.ch = false

section
variable {K V : Type} [LinearOrder K] {cfg : Cfg K} {e : Enc K V} {L : Lay}
  {Img : Chain K V → L.C → Prop} {NI : Node K V → L.N → Prop} {DI : Delta K V → L.D → Prop}
  {legal : Spec.Call Str Str → Prop} {lt : Str → Str → Bool} {lim : Nat} {m : K → Option V}
  {M : Str → Option Str} {b0 : BSh L.C} {OK : Chain K V → Prop}

theorem setup_works (S : Setup cfg e L OK Img NI DI legal lt lim m M b0) : Works L legal lt lim M b0 :=
  ⟨fun h hl => S.meets h hl, fun h hl ho => S.op_ends h hl ho, fun h hl ho => S.scan_total h hl ho,
    fun ops ho => S.total ops ho, fun h hl ho => S.scan_ends h hl ho, fun h hl => S.next_ends h hl,
    fun h ho hr hl => S.op_fine h ho hr hl, fun h ho hr hl => S.scan_fine h ho hr hl,
    fun h hr hl => S.next_fine h hr hl⟩

theorem shI_holds {hist : Nat → Chain K V} {s : Sh K V} {b : BSh L.C} (h : ShI Img hist s b) :
    BHolds Img s b :=
  ⟨h.root, h.cells, h.npid, fun p => ⟨h.null p, fun hd hm => ⟨_, (h.head p hd hm).2⟩⟩⟩

theorem childOf_entry {sh : Sh K V} {n : Node K V} {q : PID} (h : Spec.ChildOf (.base n) q) :
    Spec.Entry sh (.base n) q := by
  rcases h with ⟨_, h⟩ | ⟨k, h⟩
  · simp only [Chain.leftmostChild] at h
    split at h
    · next k p l hl => cases h; exact .base (k := k) (by rw [hl]; exact List.mem_cons_self ..)
    · cases h
  · obtain ⟨r, h1, h2⟩ := Option.map_eq_some_iff.mp h
    have h3 := List.mem_of_find?_eq_some h1
    obtain ⟨k', p⟩ := r
    cases h2
    refine .base (k := k') ?_
    unfold Spec.keyed at h3
    split at h3
    · exact List.mem_of_mem_tail h3
    · exact h3

/-- Such bytes hold a tree in order. -/
theorem packed_in_order (hL : LayOK cfg e L (HeadOK cfg lim) Img NI DI)
    (hlt : ∀ a b, lt (e.key a) (e.key b) = decide (a < b))
    (hbase : ∀ c n, Img c (L.base n) → ∃ n', c = .base n' ∧ NI n' n)
    {okKey : Str → Prop} (hkey : ∀ k, okKey k → ∃ k', k = e.key k') {sh : Sh K V} {b : BSh L.C}
    (hs : BHolds Img sh b) (hok : ∀ x ch, sh.mt x = some ch → HeadOK cfg lim ch)
    (hp : PackedBytes L lt okKey b) : Spec.InOrder sh := by
  obtain ⟨hroot, hcells, hnpid, hmt⟩ := hs
  have page : ∀ {p c}, sh.mt p = some c → ∃ hd, b.mt p = some hd ∧ Img c hd.ch := by
    intro p c hm
    cases hb : b.mt p with
    | none => rw [(hmt p).1 hb] at hm; cases hm
    | some hd =>
      obtain ⟨c', g1, g2⟩ := (hmt p).2 hd hb
      rw [hm] at g1; cases g1
      exact ⟨hd, rfl, g2⟩
  have found : ∀ p, Found L lt okKey b p → Spec.Reach sh p ∧
      (p = sh.root ∨ ∃ P cP, Spec.Live sh P cP ∧ cP.isLeaf = false ∧ Spec.ChildOf cP p) := by
    intro p h
    induction h with
    | root => rw [hroot]; exact ⟨.root, Or.inl rfl⟩
    | @child q p hq n k _ g1 g3 g4 g5 g6 g7 ih =>
      obtain ⟨cq, i1, i2⟩ := (hmt q).2 hq g1
      have i2' := i2
      rw [g4] at i2
      obtain ⟨n', rfl, hni⟩ := hbase cq n i2
      rw [hL.isLeaf i2'] at g3
      obtain ⟨k', rfl⟩ := hkey k g5
      have ho := hok q _ i1
      rcases ho.2 with hx | ⟨inner, low, hwf, hsz⟩
      · cases hx
      · have hin : inner = true := by
          have := hwf.isLeaf
          rw [g3] at this
          simpa using this.symm
        subst hin
        have hlo : LowOK low k' true := by
          intro l hl
          rw [if_pos rfl]
          have h5 : n'.low = low := hwf.2.1
          have h6 := g6 (e.key l) (by rw [hL.low hni, h5, hl]; rfl)
          rw [hlt] at h6
          exact not_lt.mp (of_decide_eq_false h6)
        have h7 := hL.child i2' ho k' true (base_step_ne_ub hwf hlo)
        rw [g7] at h7
        have h8 := childStep_childOf hwf.2.2 hwf.1 h7.symm
        exact ⟨.child ih.1 i1 (childOf_entry h8), Or.inr ⟨q, _, ⟨ih.1, i1, rfl⟩, g3, h8⟩⟩
  refine ⟨?_, ?_, ?_, ?_⟩
  · obtain ⟨hd, h1, h2⟩ := hp.root
    obtain ⟨c, h3, h4⟩ := (hmt _).2 hd h1
    rw [hroot] at h3
    exact ⟨c, h3, by rw [← hL.isRemoved h4]; exact h2⟩
  · intro p c hm hn hl
    obtain ⟨hd, h1, h2⟩ := page hm
    obtain ⟨n, h3⟩ := hp.base p hd h1 (by rw [hL.isRemoved h2]; exact hn) (by rw [hL.isLeaf h2]; exact hl)
    rw [h3] at h2
    obtain ⟨n', rfl, _⟩ := hbase c n h2
    trivial
  · intro p c hm hn
    obtain ⟨hd, h1, h2⟩ := page hm
    exact (found p (hp.found p hd h1 (by rw [hL.isRemoved h2]; exact hn))).2
  · intro p c q hm hn hl _ hq
    obtain ⟨hd, h1, h2⟩ := page hm
    obtain ⟨hq', g1, g2⟩ := hp.left p hd q h1 (by rw [hL.isRemoved h2]; exact hn)
      (by rw [hL.isLeaf h2]; exact hl) (hL.leftmost h2 (hok _ _ hm) hq)
    obtain ⟨c', g3, g4⟩ := (hmt q).2 hq' g1
    exact ⟨c', g3, by rw [← hL.isRemoved g4]; exact g2⟩

end

/-! ## Variable-length keys -/

section
variable {P : VPar} {mk : Nat} [LinearOrder (KStr mk)]

/-- **C62 in strings.**  Every history on bytes is one of the atomic map from strings to strings.
Partial: executions stop at the events of `Flag`; the page IDs handed out fit in a word. -/
theorem C62_bytes_accepted_partial (hP : P.OK mk) (hlt : ∀ a b : KStr mk, P.lt a.1 b.1 = decide (a < b))
    {m : Mem} {h : List (Spec.Event Str Str)} {B : BSys (varLay P)}
    (hr : BRun (varLay P) (okCall P mk) (bstart (varLay P) m) h B) (hlim : B.sh.npid ≤ 256 ^ P.pid) :
    ∃ a, @Spec.Accepts Str Str _ (strLT P.lt) ⟨fun _ => none, fun _ => .idle⟩ h a := by
  have hc := vpar_cfg hP
  obtain ⟨h', hist, S, rfl, h2, h3⟩ := bytes_refine hc (vpar_lay hP hlt) (vpar_cap hP) okCall_enc hr hlim
  obtain ⟨s, _, g1⟩ := Init.run hc .empty h2
  obtain ⟨M, _, g2⟩ := accepts_enc (e := P.enc mk) hlt (fun _ _ h => Subtype.ext h) g1
    (M := fun _ => none) ⟨fun _ => rfl, fun _ _ => rfl⟩
  exact ⟨_, g2⟩

/-- **C79.**  After any execution of any number of threads on the bytes of a new tree, when no
call is active, no page makes others wait, and the tree that the bytes hold is in order, one thread
works on them.  The contents are those of a run of the map of strings with the same history. -/
theorem C79_var_quiet (hP : P.OK mk) (hlt : ∀ a b : KStr mk, P.lt a.1 b.1 = decide (a < b))
    (hR : Roomy (P.cfg mk)) {m : Mem} {h : List (Spec.Event Str Str)} {B : BSys (varLay P)}
    (hr : BRun (varLay P) (okCall P mk) (bstart (varLay P) m) h B) (hlim : B.sh.npid ≤ 256 ^ P.pid)
    (hq : ∀ t, B.th t = .idle) (hw : ∀ p hd, B.sh.mt p = some hd → (varLay P).needWait hd.ch = false)
    (ho : ∀ S : Sys (KStr mk) (VStr P.pay), Reachable (P.cfg mk) (fun _ => none) S →
      BHolds (Layout.CImg P.c (P.enc mk)) S.sh B.sh → Spec.InOrder S.sh) :
    ∃ M, @Spec.Accepts Str Str _ (strLT P.lt) ⟨fun _ => none, fun _ => .idle⟩ h ⟨M, fun _ => .idle⟩ ∧
      Works (varLay P) (okCall P mk) P.lt (256 ^ P.pid) M B.sh := by
  have hc := vpar_cfg hP
  have hL := varLay_ok hc (vpar_lay hP hlt) (vpar_cap hP)
  obtain ⟨h', hist, S, rfl, h2, h3⟩ := bytes_refine hc (vpar_lay hP hlt) (vpar_cap hP) okCall_enc hr hlim
  obtain ⟨mS, M, g1, g2⟩ := quiet_setup hL okCall_enc (fun _ _ h => Subtype.ext h) hlt hR hc
    (M := fun _ => none) ⟨fun _ => rfl, fun _ _ => rfl⟩ .empty
    (fun _ _ hr hl => slots_ok hc .empty hr hl) h2 h3 hq hw
    (ho S ⟨_, _, .empty, h2⟩ (by
      obtain ⟨i1, i2, i3, i4⟩ := shI_holds h3.sh
      refine ⟨i1, i2, i3, fun p => ⟨(i4 p).1, fun hd hm => ?_⟩⟩
      obtain ⟨c, j1, j2⟩ := (i4 p).2 hd hm
      exact ⟨c, j1, j2.1⟩))
  exact ⟨M, g1, setup_works g2⟩

/-- The same with a condition on the bytes alone: the index nodes have no delta records. -/
theorem C79_var_packed (hP : P.OK mk) (hlt : ∀ a b : KStr mk, P.lt a.1 b.1 = decide (a < b))
    (hR : Roomy (P.cfg mk)) {m : Mem} {h : List (Spec.Event Str Str)} {B : BSys (varLay P)}
    (hr : BRun (varLay P) (okCall P mk) (bstart (varLay P) m) h B) (hlim : B.sh.npid ≤ 256 ^ P.pid)
    (hq : ∀ t, B.th t = .idle) (hw : ∀ p hd, B.sh.mt p = some hd → (varLay P).needWait hd.ch = false)
    (ho : PackedBytes (varLay P) P.lt (okKey mk) B.sh) :
    ∃ M, @Spec.Accepts Str Str _ (strLT P.lt) ⟨fun _ => none, fun _ => .idle⟩ h ⟨M, fun _ => .idle⟩ ∧
      Works (varLay P) (okCall P mk) P.lt (256 ^ P.pid) M B.sh := by
  have hc := vpar_cfg hP
  have hL := varLay_ok hc (vpar_lay hP hlt) (vpar_cap hP)
  obtain ⟨h', hist, S, rfl, h2, h3⟩ := bytes_refine hc (vpar_lay hP hlt) (vpar_cap hP) okCall_enc hr hlim
  have hord : Spec.InOrder S.sh := packed_in_order hL hlt
    (fun c n hi => by
      obtain ⟨h1, h2⟩ := hi
      cases c with
      | base n' => exact ⟨n', rfl, h1, h2⟩
      | removed l => exact h1.elim
      | delta d nx => exact h1.elim)
    (fun k hk => ⟨⟨k, hk⟩, rfl⟩) (shI_holds h3.sh)
    (fun x ch hx => slots_ok hc .empty h2 (h3.sh.npid ▸ hlim) x ch hx) ho
  obtain ⟨mS, M, g1, g2⟩ := quiet_setup hL okCall_enc (fun _ _ h => Subtype.ext h) hlt hR hc
    (M := fun _ => none) ⟨fun _ => rfl, fun _ _ => rfl⟩ .empty
    (fun _ _ hr hl => slots_ok hc .empty hr hl) h2 h3 hq hw hord
  exact ⟨M, g1, setup_works g2⟩

end

/-! ## Fixed-length keys -/

section
variable {P : Fix.FPar} [LinearOrder (VStr P.c.klen)]

/-- `C62_bytes_accepted_partial` with fixed-length keys (C65), on a new or bulk-loaded tree. -/
theorem C65_bytes_accepted_partial (hP : P.OK)
    (hlt : ∀ a b : VStr P.c.klen, P.lt a.1 b.1 = decide (a < b))
    {m : VStr P.c.klen → Option (VStr P.pay)} {B₀ : BSys (Fix.fixLay P)} (hs : Fix.FStart P m B₀)
    {h : List (Spec.Event Str Str)} {B : BSys (Fix.fixLay P)}
    (hr : BRun (Fix.fixLay P) (Fix.okCall P) B₀ h B) (hlim : B.sh.npid ≤ 256 ^ P.pid) :
    ∃ a, @Spec.Accepts Str Str _ (strLT P.lt) ⟨strMap m, fun _ => .idle⟩ h a := by
  have hc := fpar_cfg hP
  obtain ⟨sh, h', hist, S, hi, rfl, h2, h3⟩ := fix_refine hP hlt hs hr hlim
  obtain ⟨s, _, g1⟩ := hi.run hc h2
  obtain ⟨M, _, g2⟩ := accepts_enc (e := P.enc) hlt (fun _ _ h => Subtype.ext h) g1
    (strMap_map m)
  exact ⟨_, g2⟩

/-- `C79_var_quiet` with fixed-length keys, on a new or bulk-loaded tree. -/
theorem C79_fix_quiet (hP : P.OK) (hlt : ∀ a b : VStr P.c.klen, P.lt a.1 b.1 = decide (a < b))
    (hR : Roomy P.cfg) {m : VStr P.c.klen → Option (VStr P.pay)} {B₀ : BSys (Fix.fixLay P)}
    (hs : Fix.FStart P m B₀) {h : List (Spec.Event Str Str)} {B : BSys (Fix.fixLay P)}
    (hr : BRun (Fix.fixLay P) (Fix.okCall P) B₀ h B) (hlim : B.sh.npid ≤ 256 ^ P.pid)
    (hq : ∀ t, B.th t = .idle)
    (hw : ∀ p hd, B.sh.mt p = some hd → (Fix.fixLay P).needWait hd.ch = false)
    (ho : ∀ S : Sys (VStr P.c.klen) (VStr P.pay), Reachable P.cfg m S →
      BHolds (Fix.CImg P P.enc) S.sh B.sh → Spec.InOrder S.sh) :
    ∃ M, @Spec.Accepts Str Str _ (strLT P.lt) ⟨strMap m, fun _ => .idle⟩ h ⟨M, fun _ => .idle⟩ ∧
      Works (Fix.fixLay P) (Fix.okCall P) P.lt (256 ^ P.pid) M B.sh := by
  have hc := fpar_cfg hP
  have hL := Fix.fixLay_ok hc (fpar_lay hP hlt)
  obtain ⟨sh, h', hist, S, hi, rfl, h2, h3⟩ := fix_refine hP hlt hs hr hlim
  obtain ⟨mS, M, g1, g2⟩ := quiet_setup hL Fix.okCall_enc (fun _ _ h => Subtype.ext h) hlt hR hc
    (strMap_map m) hi (fun _ _ hr hl => slots_ok hc hi hr hl) h2 h3 hq hw
    (ho S ⟨_, _, hi, h2⟩ (by
      obtain ⟨i1, i2, i3, i4⟩ := shI_holds h3.sh
      refine ⟨i1, i2, i3, fun p => ⟨(i4 p).1, fun hd hm => ?_⟩⟩
      obtain ⟨c, j1, j2⟩ := (i4 p).2 hd hm
      exact ⟨c, j1, j2.1⟩))
  exact ⟨M, g1, setup_works g2⟩

/-- The same with a condition on the bytes alone: the index nodes have no delta records. -/
theorem C79_fix_packed (hP : P.OK) (hlt : ∀ a b : VStr P.c.klen, P.lt a.1 b.1 = decide (a < b))
    (hR : Roomy P.cfg) {m : VStr P.c.klen → Option (VStr P.pay)} {B₀ : BSys (Fix.fixLay P)}
    (hs : Fix.FStart P m B₀) {h : List (Spec.Event Str Str)} {B : BSys (Fix.fixLay P)}
    (hr : BRun (Fix.fixLay P) (Fix.okCall P) B₀ h B) (hlim : B.sh.npid ≤ 256 ^ P.pid)
    (hq : ∀ t, B.th t = .idle)
    (hw : ∀ p hd, B.sh.mt p = some hd → (Fix.fixLay P).needWait hd.ch = false)
    (ho : PackedBytes (Fix.fixLay P) P.lt (fun k => k.length = P.c.klen) B.sh) :
    ∃ M, @Spec.Accepts Str Str _ (strLT P.lt) ⟨strMap m, fun _ => .idle⟩ h ⟨M, fun _ => .idle⟩ ∧
      Works (Fix.fixLay P) (Fix.okCall P) P.lt (256 ^ P.pid) M B.sh := by
  have hc := fpar_cfg hP
  have hL := Fix.fixLay_ok hc (fpar_lay hP hlt)
  obtain ⟨sh, h', hist, S, hi, rfl, h2, h3⟩ := fix_refine hP hlt hs hr hlim
  have hord : Spec.InOrder S.sh := packed_in_order hL hlt
    (fun c n hi => by
      obtain ⟨h1, h2⟩ := hi
      cases c with
      | base n' => exact ⟨n', rfl, h1, h2⟩
      | removed l => exact h1.elim
      | delta d nx => exact h1.elim)
    (fun k hk => ⟨⟨k, hk⟩, rfl⟩) (shI_holds h3.sh)
    (fun x ch hx => slots_ok hc hi h2 (h3.sh.npid ▸ hlim) x ch hx) ho
  obtain ⟨mS, M, g1, g2⟩ := quiet_setup hL Fix.okCall_enc (fun _ _ h => Subtype.ext h) hlt hR hc
    (strMap_map m) hi (fun _ _ hr hl => slots_ok hc hi hr hl) h2 h3 hq hw hord
  exact ⟨M, g1, setup_works g2⟩

end

/-! ## Checks -/

section
variable {L : Lay} {lt : Str → Str → Bool} {okKey : Str → Prop} [DecidablePred okKey]

/-- Is a tree of at most two levels packed, with the leaves found by searches for `ks`, and does no page
make others wait?  (Decidable.) -/
def packedBytes (L : Lay) (lt : Str → Str → Bool) (okKey : Str → Prop) [DecidablePred okKey]
    (base : L.C → Option L.N) (ks : List Str) (b : BSh L.C) : Bool :=
  (b.mt b.root).any fun hr => !L.isRemoved hr.ch &&
    (List.range b.npid).all fun p => (b.mt p).all fun hd => !L.needWait hd.ch && (L.isRemoved hd.ch ||
      (decide (p = b.root) && (L.isLeaf hd.ch || (base hd.ch).isSome &&
        (L.leftmost hd.ch).all fun q => (b.mt q).any fun hq => !L.isRemoved hq.ch)) ||
      (L.isLeaf hd.ch && !L.isLeaf hr.ch && (base hr.ch).any fun n => ks.any fun k => decide (okKey k) &&
        ((L.low n).all fun l => !lt k l) && decide (L.child k true hr.ch = .child p)))

theorem packedBytes_spec {base : L.C → Option L.N} (hb : ∀ c n, base c = some n → c = L.base n)
    {ks : List Str} {b : BSh L.C} (hf : ∀ p, b.npid ≤ p → b.mt p = none)
    (h : packedBytes L lt okKey base ks b = true) :
    PackedBytes L lt okKey b ∧ ∀ p hd, b.mt p = some hd → L.needWait hd.ch = false := by
  simp only [packedBytes, Bool.and_eq_true, Option.any_eq_true, Option.all_eq_true, List.all_eq_true,
    List.mem_range, Bool.or_eq_true, decide_eq_true_eq, Bool.not_eq_true', Option.isSome_iff_exists,
    List.any_eq_true] at h
  obtain ⟨hr, r1, r2, h⟩ := h
  have hlt : ∀ p hd, b.mt p = some hd → p < b.npid := by
    intro p hd hm
    by_contra hn
    rw [hf p (Nat.not_lt.mp hn)] at hm; cases hm
  have hp := fun p hd hm => h p (hlt p hd hm) hd hm
  have inner : ∀ p hd, b.mt p = some hd → L.isRemoved hd.ch = false → L.isLeaf hd.ch = false →
      (∃ n, base hd.ch = some n) ∧
      ∀ q, L.leftmost hd.ch = some q → ∃ hq, b.mt q = some hq ∧ L.isRemoved hq.ch = false := by
    intro p hd hm hn hl
    rcases (hp p hd hm).2 with (e | ⟨_, e⟩) | e
    · rw [hn] at e; cases e
    · rcases e with e | e
      · rw [hl] at e; cases e
      · exact e
    · rw [hl] at e; cases e.1.1
  refine ⟨⟨⟨hr, r1, r2⟩, fun p hd hm hn hl => ?_, fun p hd hm hn => ?_, fun p hd q hm hn hl hq => ?_⟩,
    fun p hd hm => (hp p hd hm).1⟩
  · obtain ⟨n, e⟩ := (inner p hd hm hn hl).1
    exact ⟨n, hb _ _ e⟩
  · rcases (hp p hd hm).2 with (e | ⟨e, _⟩) | ⟨⟨_, e1⟩, n, e2, k, _, ⟨e3, e4⟩, e5⟩
    · rw [hn] at e; cases e
    · rw [e]; exact .root
    · exact .child .root r1 e1 (hb _ _ e2) e3 e4 e5
  · exact (inner p hd hm hn hl).2 q hq

end

/-- Page IDs not yet handed out have no page. -/
theorem bytes_fresh {K V : Type} [LinearOrder K] {cfg : Cfg K} (hc : CfgOK2 cfg) {m : K → Option V}
    {sh : Sh K V} (hi : Init cfg m sh) {h : List (Spec.Event K V)} {S : Sys K V}
    (hr : Run cfg (Sys.start sh) h S) {L : Lay} {Img : Chain K V → L.C → Prop} {hist : Nat → Chain K V}
    {b : BSh L.C} (hS : ShI Img hist S.sh b) (p : PID) (hp : b.npid ≤ p) : b.mt p = none := by
  cases hb : b.mt p with
  | none => rfl
  | some hd =>
    have h1 := (hS.head p hd hb).2.1
    rw [fresh_pages hc hi hr p (hS.npid ▸ hp)] at h1
    cases h1

def varBase : Layout.BChain → Option Layout.VPage
  | .base n => some n
  | _ => none

def fixBase : Fix.BChain → Option Fix.FNode
  | .base n => some n
  | _ => none

theorem execAll_th {L : Lay} {f n : Nat} : ∀ {cs : List BCall} {S S' : BSys L}
    {rs : List (Spec.Ret Str Str)}, execAll f n S cs = some (rs, S') → S'.th = S.th
  | [], S, S', rs, h => by cases h; rfl
  | .op o :: cs, S, S', rs, h => by
    simp only [execAll, Option.bind_eq_some_iff, Option.map_eq_some_iff] at h
    obtain ⟨⟨s', x⟩, _, ⟨rs', S1⟩, h2, h3⟩ := h
    cases h3
    exact (execAll_th h2).trans rfl
  | .visit b e :: cs, S, S', rs, h => by
    simp only [execAll, Option.bind_eq_some_iff, Option.map_eq_some_iff] at h
    obtain ⟨⟨s', x⟩, _, ⟨rs', S1⟩, h2, h3⟩ := h
    cases h3
    exact (execAll_th h2).trans rfl
  | .next :: cs, S, S', rs, h => by
    simp only [execAll] at h
    split at h
    · cases h
    · simp only [Option.bind_eq_some_iff, Option.map_eq_some_iff] at h
      obtain ⟨⟨s', x⟩, _, ⟨rs', S1⟩, h2, h3⟩ := h
      cases h3
      exact (execAll_th h2).trans rfl

/-! ### Examples -/

set_option maxRecDepth 100000 in
/-- Sixteen insertions split the root; the tree is packed, so all further calls of one thread work. -/
example : ∃ h B M, BRun (varLay exPar) (okCall exPar 8) (bstart (varLay exPar) fun _ => 7) h B ∧
    (∃ hd, B.sh.mt B.sh.root = some hd ∧ (varLay exPar).isLeaf hd.ch = false) ∧
    PackedBytes (varLay exPar) exPar.lt (okKey 8) B.sh ∧
    @Spec.Accepts Str Str _ (strLT exPar.lt) ⟨fun _ => none, fun _ => .idle⟩ h ⟨M, fun _ => .idle⟩ ∧
    Works (varLay exPar) (okCall exPar 8) exPar.lt (256 ^ exPar.pid) M B.sh := by
  have hx : ((execAll (L := varLay exPar) 40 1000 (bstart (varLay exPar) fun _ => 7) (strIns 16)).elim
      false fun x => decide (x.2.sh.npid = 4) &&
        packedBytes (varLay exPar) exPar.lt (okKey 8) varBase [strKey 8, strKey 18] x.2.sh &&
        (x.2.sh.mt x.2.sh.root).any fun hd => !(varLay exPar).isLeaf hd.ch) = true := by decide +kernel
  cases he : execAll (L := varLay exPar) 40 1000 (bstart (varLay exPar) fun _ => 7) (strIns 16) with
  | none => rw [he] at hx; cases hx
  | some x =>
    rw [he] at hx
    obtain ⟨rs, B⟩ := x
    simp only [Option.elim_some, Bool.and_eq_true, decide_eq_true_eq] at hx
    obtain ⟨⟨h1, h2⟩, h3⟩ := hx
    obtain ⟨h', r1, _⟩ := execAll_sound (legal := okCall exPar 8) (by decide +kernel) rfl .nil he
    have hlim : B.sh.npid ≤ 256 ^ exPar.pid := by rw [h1]; decide
    have hc := vpar_cfg exPar_ok
    obtain ⟨_, hist, S, _, i2, i3⟩ := bytes_refine hc (vpar_lay exPar_ok exPar_lt) (vpar_cap exPar_ok)
      okCall_enc r1 hlim
    obtain ⟨g1, g2⟩ := packedBytes_spec (fun c n e => by cases c <;> cases e; rfl)
      (bytes_fresh hc .empty i2 i3.sh) h2
    obtain ⟨M, g3, g4⟩ := C79_var_packed exPar_ok exPar_lt exPar_roomy r1 hlim
      (fun t => by rw [execAll_th he]; rfl) g2 g1
    obtain ⟨hd, e1, e2⟩ := Option.any_eq_true _ _ |>.mp h3
    exact ⟨h', B, M, r1, ⟨hd, e1, by simpa using e2⟩, g1, g3, g4⟩

set_option maxRecDepth 100000 in
/-- The same with fixed-length keys. -/
example : ∃ h B M, BRun (Fix.fixLay fexPar) (Fix.okCall fexPar) (bstart (Fix.fixLay fexPar) fun _ => 7) h B ∧
    (∃ hd, B.sh.mt B.sh.root = some hd ∧ (Fix.fixLay fexPar).isLeaf hd.ch = false) ∧
    PackedBytes (Fix.fixLay fexPar) fexPar.lt (fun k => k.length = fexPar.c.klen) B.sh ∧
    @Spec.Accepts Str Str _ (strLT fexPar.lt) ⟨fun _ => none, fun _ => .idle⟩ h ⟨M, fun _ => .idle⟩ ∧
    Works (Fix.fixLay fexPar) (Fix.okCall fexPar) fexPar.lt (256 ^ fexPar.pid) M B.sh := by
  have hx : ((execAll (L := Fix.fixLay fexPar) 40 1000 (bstart (Fix.fixLay fexPar) fun _ => 7) (fixIns 17)).elim
      false fun x => decide (x.2.sh.npid = 4) &&
        packedBytes (Fix.fixLay fexPar) fexPar.lt (fun k => k.length = fexPar.c.klen) fixBase
          [fixKey 8, fixKey 20] x.2.sh &&
        (x.2.sh.mt x.2.sh.root).any fun hd => !(Fix.fixLay fexPar).isLeaf hd.ch) = true := by decide +kernel
  cases he : execAll (L := Fix.fixLay fexPar) 40 1000 (bstart (Fix.fixLay fexPar) fun _ => 7) (fixIns 17) with
  | none => rw [he] at hx; cases hx
  | some x =>
    rw [he] at hx
    obtain ⟨rs, B⟩ := x
    simp only [Option.elim_some, Bool.and_eq_true, decide_eq_true_eq] at hx
    obtain ⟨⟨h1, h2⟩, h3⟩ := hx
    obtain ⟨h', r1, _⟩ := execAll_sound (legal := Fix.okCall fexPar) (by decide +kernel) rfl .nil he
    have hlim : B.sh.npid ≤ 256 ^ fexPar.pid := by rw [h1]; decide
    have hc := fpar_cfg fexPar_ok
    obtain ⟨sh, _, hist, S, i1, _, i2, i3⟩ := fix_refine fexPar_ok fexPar_lt (.empty _) r1 hlim
    obtain ⟨g1, g2⟩ := packedBytes_spec (fun c n e => by cases c <;> cases e; rfl)
      (bytes_fresh hc i1 i2 i3.sh) h2
    obtain ⟨M, g3, g4⟩ := C79_fix_packed fexPar_ok fexPar_lt fexPar_roomy (.empty _) r1 hlim
      (fun t => by rw [execAll_th he]; rfl) g2 g1
    obtain ⟨hd, e1, e2⟩ := Option.any_eq_true _ _ |>.mp h3
    rw [show strMap (fun _ => none) = fun _ => none from by
      funext s; unfold strMap; split <;> rfl] at g3
    exact ⟨h', B, M, r1, ⟨hd, e1, by simpa using e2⟩, g1, g3, g4⟩

end BwTree.Props
