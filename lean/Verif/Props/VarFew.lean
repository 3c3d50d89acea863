import Verif.Props.LockBytes
import Verif.Props.VarLoad

/-!
# Operations after a small Bulkload with variable-length keys

When `Bulkload` puts all records into one leaf, the tree works as one that starts empty (C68 is false for more
leaves).
-/

namespace BwTree.Props

open Layout (Mem BBound Enc VPage)
open Bytes

set_option linter.unusedSectionVars false

variable {P : VPar} {mk : Nat} [LinearOrder (KStr mk)]

/-- `Bulkload` of sorted records without duplicates (`bw_tree.hpp` 466-467) into a new tree, so few that
the new root is a leaf; pages hold any bytes before. -/
structure FewLoaded (P : VPar) (mk : Nat) [LinearOrder (KStr mk)] (es : List (KStr mk × VStr P.pay))
    (B₀ : BSys (varLay P)) : Prop where
  load : ∃ (mem : PID → Mem) (ids : Nat → Nat → PID) (threads : Nat) (T : VTbl) (root npid : PID) (nd : VPage),
    IdsInj ids ∧ (∀ t i, 1 < ids t i) ∧
    vBulkload P mk 8 mem ids threads (es.map fun x => (x.1.1, x.2.1)) = some (T, root) ∧
    (∀ p pg, T p = some pg → p < npid) ∧ T root = some nd ∧ nd.inner = false ∧ B₀ = vBulkStart P T root npid
  ne : es ≠ []
  sorted : es.Pairwise fun x y => x.1 < y.1

/-- A map from strings to strings. -/
def vstrMap (m : KStr mk → Option (VStr P.pay)) (s : Str) : Option Str :=
  if h : 0 < s.length ∧ s.length ≤ mk then (m ⟨s, h⟩).map Subtype.val else none

theorem vstrMap_map (m : KStr mk → Option (VStr P.pay)) : MapI (P.enc mk) m (vstrMap m) := by
  refine ⟨fun k => ?_, fun s hs => ?_⟩
  · show vstrMap m k.1 = _
    rw [vstrMap, dif_pos k.2]; rfl
  · rw [vstrMap, dif_neg fun h => hs ⟨s, h⟩ rfl]

theorem few_sim (hP : P.OK mk) (hlt : ∀ a b : KStr mk, P.lt a.1 b.1 = decide (a < b)) (pos : 0 < mk)
    {es : List (KStr mk × VStr P.pay)} {B₀ : BSys (varLay P)} (hs : FewLoaded P mk es B₀) :
    ∃ sh hist, Init (P.cfg mk) (Spec.ofList es) sh ∧
      SysI (HeadOK (P.cfg mk) (256 ^ P.pid)) (ChI 65535 P (P.enc mk)) (P.enc mk) hist (Sys.start sh) B₀ := by
  obtain ⟨⟨mem, ids, threads, T, root, npid, nd0, inj, fresh, run, bound, hr, hl, rfl⟩, ne, sorted⟩ := hs
  obtain ⟨T', h1, h2⟩ := vBulkload_sim (vpar_bulk hP hlt pos) run
  have hget : ∀ p n, T' p = some n → ∃ nd, T p = some nd ∧ VNR mk P (P.enc mk) mem p n nd := by
    intro p n hp
    rcases h2 p with ⟨e, _⟩ | ⟨n', nd, e1, e2, e3⟩
    · rw [e] at hp; cases hp
    · rw [e1] at hp; cases hp; exact ⟨nd, e2, e3⟩
  obtain ⟨n0, q1, q2⟩ := h2.get hr
  refine ⟨bulkSh T' root npid, fun i => match T' i with
      | some n => .base n
      | none => .base (emptyLeaf (P.cfg mk)),
    .bulk (Or.inr ⟨n0, q1, q2.img.inner ▸ hl⟩) inj fresh ne sorted h1 fun p n hp => ?_,
    ⟨fun p hp => ?_, fun p x hp => ?_, rfl, rfl, rfl, rfl⟩, fun G _ t => trivial, fun t => rfl⟩
  · obtain ⟨nd, e, _⟩ := hget p n hp
    exact bound p nd e
  · have hp : (T p).map (fun nd => (⟨p, .base nd⟩ : Head (varLay P).C)) = none := hp
    show (T' p).map _ = none
    cases ht : T' p with
    | none => rfl
    | some n =>
      obtain ⟨nd, e, _⟩ := hget p n ht
      rw [e] at hp; cases hp
  · have hp : (T p).map (fun nd => (⟨p, .base nd⟩ : Head (varLay P).C)) = some x := hp
    cases ht : T p with
    | none => rw [ht] at hp; cases hp
    | some nd =>
      rw [ht] at hp
      cases hp
      obtain ⟨n, e1, e2⟩ := h2.get ht
      refine ⟨bound p nd ht, ?_, ?_⟩
      · show (T' p).map _ = some _
        simp only [e1, Option.map_some]
      · show ChI 65535 P (P.enc mk) (match T' p with | some n => .base n | none => .base (emptyLeaf (P.cfg mk))) _
        simp only [e1]
        exact ⟨e2.img, e2.box⟩

theorem few_refine (hP : P.OK mk) (hlt : ∀ a b : KStr mk, P.lt a.1 b.1 = decide (a < b)) (pos : 0 < mk)
    {es : List (KStr mk × VStr P.pay)} {B₀ B : BSys (varLay P)} (hs : FewLoaded P mk es B₀)
    {h : List (Spec.Event Str Str)} (hr : BRun (varLay P) (okCall P mk) B₀ h B)
    (hlim : B.sh.npid ≤ 256 ^ P.pid) :
    ∃ sh h' hist S, Init (P.cfg mk) (Spec.ofList es) sh ∧ h = h'.map (event (P.enc mk)) ∧
      Run (P.cfg mk) (Sys.start sh) h' S ∧
      SysI (HeadOK (P.cfg mk) (256 ^ P.pid)) (ChI 65535 P (P.enc mk)) (P.enc mk) hist S B := by
  have hc := vpar_cfg hP
  obtain ⟨sh, hist, hi, h0⟩ := few_sim hP hlt pos hs
  obtain ⟨h', hist', S, h1, h2, h3⟩ := run_sim (varLay_ok hc (vpar_lay hP hlt) (vpar_cap hP))
    okCall_enc h0 (fun _ _ hr => (C01_linearizable_partial hc hi hr).2)
    (fun _ _ hr hl => slots_ok hc hi hr hl) hr hlim
  exact ⟨sh, h', hist', S, hi, h1, h2, h3⟩

/-- **C68, partial.**  After `Bulkload` of records that fit in one leaf every history of operations and scans
on the bytes is linearizable to a map that starts with the given records, and no thread runs into undefined
behaviour.  Missing: loads of more than one leaf, for which it is false (`C68_false`); threads stop at the
events of `Flag` (C08-C10). -/
theorem C68_few_linearizable_partial (hP : P.OK mk)
    (hlt : ∀ a b : KStr mk, P.lt a.1 b.1 = decide (a < b)) (pos : 0 < mk)
    {es : List (KStr mk × VStr P.pay)} {B₀ B : BSys (varLay P)} (hs : FewLoaded P mk es B₀)
    {h : List (Spec.Event Str Str)} (hr : BRun (varLay P) (okCall P mk) B₀ h B)
    (hlim : B.sh.npid ≤ 256 ^ P.pid) :
    (∃ h' : List (Spec.Event (KStr mk) (VStr P.pay)), h = h'.map (event (P.enc mk)) ∧
      ∃ log, Spec.Linearizes (Spec.ofList es) h' log) ∧
    (∃ a, @Spec.Accepts Str Str _ (strLT P.lt) ⟨vstrMap (Spec.ofList es), fun _ => .idle⟩ h a) ∧
    ∀ t c, B.th t ≠ .run c .ub := by
  have hc := vpar_cfg hP
  obtain ⟨sh, h', hist, S, hi, rfl, h2, h3⟩ := few_refine hP hlt pos hs hr hlim
  refine ⟨⟨h', rfl, (C01_linearizable_partial hc hi h2).1⟩, ?_, bytes_noub hc hi h2 h3⟩
  obtain ⟨s, _, g1⟩ := hi.run hc h2
  obtain ⟨M, _, g2⟩ := accepts_enc (e := P.enc mk) hlt (fun _ _ h => Subtype.ext h) g1
    (vstrMap_map (Spec.ofList es))
  exact ⟨_, g2⟩

theorem few_setup (hP : P.OK mk) (hlt : ∀ a b : KStr mk, P.lt a.1 b.1 = decide (a < b)) (pos : 0 < mk)
    (hR : Roomy (P.cfg mk)) {es : List (KStr mk × VStr P.pay)} {B₀ : BSys (varLay P)}
    (hs : FewLoaded P mk es B₀) :
    Setup (P.cfg mk) (P.enc mk) (varLay P) (HeadOK (P.cfg mk) (256 ^ P.pid))
      (ChI 65535 P (P.enc mk)) (NoI P (P.enc mk)) (DeI 65535 P (P.enc mk)) (okCall P mk) P.lt
      (256 ^ P.pid) (Spec.ofList es) (vstrMap (Spec.ofList es)) B₀.sh where
  lay := varLay_ok (vpar_cfg hP) (vpar_lay hP hlt) (vpar_cap hP)
  legal := okCall_enc
  keys := fun _ _ h => Subtype.ext h
  lt := hlt
  room := hR
  ok := vpar_cfg hP
  map := vstrMap_map _
  start := by
    obtain ⟨sh, hist, hi, h0⟩ := few_sim hP hlt pos hs
    exact ⟨sh, hist, .init hR (vpar_cfg hP) hi, h0.sh,
      .start (fun _ _ hr => (C01_linearizable_partial (vpar_cfg hP) hi hr).2)
        fun _ _ hr hl => slots_ok (vpar_cfg hP) hi hr hl⟩

/-- **C68, one thread.**  After such a load, the calls of one thread end, and they return what the map
returns that starts with the given records (`Works`: also the scans, and all of C82). -/
theorem C68_few_works_partial (hP : P.OK mk) (hlt : ∀ a b : KStr mk, P.lt a.1 b.1 = decide (a < b))
    (pos : 0 < mk) (hR : Roomy (P.cfg mk)) {es : List (KStr mk × VStr P.pay)} {B₀ : BSys (varLay P)}
    (hs : FewLoaded P mk es B₀) :
    Works (varLay P) (okCall P mk) P.lt (256 ^ P.pid) (vstrMap (Spec.ofList es)) B₀.sh ∧ BSys.Quiet B₀ := by
  refine ⟨setup_works (few_setup hP hlt pos hR hs), ?_⟩
  obtain ⟨⟨mem, ids, threads, T, root, npid, nd0, _, _, _, _, _, _, rfl⟩, _, _⟩ := hs
  exact ⟨fun _ => rfl, fun _ => rfl⟩

/-- **C68, under a lock.**  After such a load, under a reader-writer lock, the tree is linearizable and
safe. -/
theorem C68_few_locked_partial (hP : P.OK mk) (hlt : ∀ a b : KStr mk, P.lt a.1 b.1 = decide (a < b))
    (pos : 0 < mk) (hR : Roomy (P.cfg mk)) {es : List (KStr mk × VStr P.pay)} {B₀ B : BSys (varLay P)}
    (hs : FewLoaded P mk es B₀) {h : List (Spec.Event Str Str)}
    (hr : BSureRun (varLay P) (okCall P mk) B₀ h B) (he : Spec.Exclusive h)
    (hlim : B.sh.npid ≤ 256 ^ P.pid) :
    (∃ a, @Spec.Accepts Str Str _ (strLT P.lt) ⟨vstrMap (Spec.ofList es), fun _ => .idle⟩ h a) ∧
      ∀ t c p, B.th t = .run c p → p ≠ .ub ∧ ∀ k, p ≠ .flag k := by
  obtain ⟨w, q⟩ := C68_few_works_partial hP hlt pos hR hs
  exact ⟨(C68_few_linearizable_partial hP hlt pos hs hr.run hlim).2.1,
    fun t c p ht => C82_safe w q hr he hlim ht⟩

/-! ## Example -/

/-- Five records. -/
def fewRecs : List (KStr 8 × VStr exPar.pay) :=
  (List.range 5).map fun i => (loadKey (120 + i), loadVal i)

/-- Insertions around the loaded records that split the leaf, a removal, and reads. -/
def fewCalls : List BCall :=
  ((List.range 12).map fun i => .op (.insert [UInt8.ofNat (118 + i), 0, 0, 1] (strVal (50 + i)))) ++
  [.op (.delete (loadKey 121).1), .op (.read (loadKey 121).1), .op (.read (loadKey 124).1)]

set_option maxRecDepth 100000 in
/-- `Bulkload` puts them into one leaf. -/
theorem fewRecs_load : ∃ T root nd,
    vBulkload exPar 8 8 vdirt exIds 1 (fewRecs.map fun x => (x.1.1, x.2.1)) = some (T, root) ∧
    T root = some nd ∧ nd.inner = false ∧
    (execAll (L := varLay exPar) 60 1000 (vBulkStart exPar T root (root + 1)) fewCalls).elim false (fun x =>
      decide (x.1 = List.replicate 12 (.res .success) ++
        [.res .success, .res (.payload none), .res (.payload (some (loadVal 4).1))]) &&
      decide (x.2.sh.npid ≤ 256 ^ exPar.pid) && decide (root + 1 < x.2.sh.npid)) = true := by
  have hx : ((vBulkload exPar 8 8 vdirt exIds 1 (fewRecs.map fun x => (x.1.1, x.2.1))).elim false fun y =>
      ((y.1 y.2).any fun pg => !pg.inner) &&
      (execAll (L := varLay exPar) 60 1000 (vBulkStart exPar y.1 y.2 (y.2 + 1)) fewCalls).elim false (fun x =>
      decide (x.1 = List.replicate 12 (.res .success) ++
        [.res .success, .res (.payload none), .res (.payload (some (loadVal 4).1))]) &&
      decide (x.2.sh.npid ≤ 256 ^ exPar.pid) && decide (y.2 + 1 < x.2.sh.npid))) = true := by
    decide +kernel
  cases hb : vBulkload exPar 8 8 vdirt exIds 1 (fewRecs.map fun x => (x.1.1, x.2.1)) with
  | none => rw [hb] at hx; cases hx
  | some y =>
    rw [hb, Option.elim_some, Bool.and_eq_true] at hx
    obtain ⟨T, root⟩ := y
    obtain ⟨h1, h2⟩ := hx
    cases ht : T root with
    | none =>
      have h1 : (T root).any (fun pg => !pg.inner) = true := h1
      rw [ht] at h1; cases h1
    | some nd =>
      have h1 : (T root).any (fun pg => !pg.inner) = true := h1
      rw [ht] at h1
      exact ⟨T, root, nd, rfl, ht, by simpa using h1, h2⟩

theorem fewRecs_ne : fewRecs ≠ [] := fun h => by
  have := congrArg List.length h
  simp [fewRecs] at this

/-- The load and fifteen calls, during which the leaf is split; the history is linearizable, and everything of
C82 holds. -/
example : ∃ (B₀ B : BSys (varLay exPar)) (h : List (Spec.Event Str Str)), FewLoaded exPar 8 fewRecs B₀ ∧
    BRun (varLay exPar) (okCall exPar 8) B₀ h B ∧ B₀.sh.npid < B.sh.npid ∧
    brets h = List.replicate 12 (.res .success) ++
      [.res .success, .res (.payload none), .res (.payload (some (loadVal 4).1))] ∧
    (∃ a, @Spec.Accepts Str Str _ (strLT exPar.lt)
      ⟨vstrMap (Spec.ofList fewRecs), fun _ => .idle⟩ h a) ∧
    Works (varLay exPar) (okCall exPar 8) exPar.lt (256 ^ exPar.pid) (vstrMap (Spec.ofList fewRecs)) B₀.sh := by
  obtain ⟨T, root, nd, h1, h2, h3, h4⟩ := fewRecs_load
  have hone : ∀ p pg, T p = some pg → p = root :=
    C69_pages_reachable exPar_ok exPar_lt (by decide) exIds_inj exIds_fresh fewRecs_ne h1 (D := fun p => p = root)
      rfl fun p pg e1 e2 e3 => by
        rw [e1, h2] at e2
        cases e2
        rw [h3] at e3; cases e3
  have hf : FewLoaded exPar 8 fewRecs (vBulkStart exPar T root (root + 1)) :=
    ⟨⟨vdirt, exIds, 1, T, root, root + 1, nd, exIds_inj, exIds_fresh, h1,
      fun p pg hp => by rw [hone p pg hp]; exact Nat.lt_succ_self _, h2, h3, rfl⟩, fewRecs_ne, by decide +kernel⟩
  cases he : execAll (L := varLay exPar) 60 1000 (vBulkStart exPar T root (root + 1)) fewCalls with
  | none => rw [he] at h4; cases h4
  | some x =>
    rw [he] at h4
    obtain ⟨rs, B⟩ := x
    simp only [Option.elim_some, Bool.and_eq_true, decide_eq_true_eq] at h4
    obtain ⟨h, r1, r2⟩ := execAll_sound (legal := okCall exPar 8) (by decide +kernel) rfl .nil he
    exact ⟨_, B, h, hf, r1, h4.2, r2.trans h4.1.1,
      (C68_few_linearizable_partial exPar_ok exPar_lt (by decide) hf r1 h4.1.2).2.1,
      (C68_few_works_partial exPar_ok exPar_lt (by decide) exPar_roomy hf).1⟩

end BwTree.Props
