import Verif.Bytes.SoloTree
import Verif.Bytes.SessionExec
import Verif.Props.FixBulk

/-!
# One thread on bytes: every call ends with the right answer
-/

namespace BwTree.Props

open Layout (Mem BBound Enc)
open Bytes

set_option linter.unusedSectionVars false

/-! ## C70, variable-length keys -/

section

variable {P : VPar} {mk : Nat} [LinearOrder (KStr mk)]

/-- A new tree. -/
theorem vsetup (hP : P.OK mk) (hlt : ∀ a b : KStr mk, P.lt a.1 b.1 = decide (a < b))
    (hR : Roomy (P.cfg mk)) (m : Mem) :
    Setup (P.cfg mk) (P.enc mk) (varLay P) (HeadOK (P.cfg mk) (256 ^ P.pid))
      (ChI 65535 P (P.enc mk)) (NoI P (P.enc mk)) (DeI 65535 P (P.enc mk)) (okCall P mk) P.lt
      (256 ^ P.pid) (fun _ => none) (fun _ => none) (bstart (varLay P) m).sh where
  lay := varLay_ok (vpar_cfg hP) (vpar_lay hP hlt) (vpar_cap hP)
  legal := okCall_enc
  keys := fun _ _ h => Subtype.ext h
  lt := hlt
  room := hR
  ok := vpar_cfg hP
  map := ⟨fun _ => rfl, fun _ _ => rfl⟩
  start := ⟨_, _, .init hR (vpar_cfg hP) .empty,
    (start_sim (varLay_ok (vpar_cfg hP) (vpar_lay hP hlt) (vpar_cap hP)) m).sh,
    .start (fun _ _ hr => (C01_linearizable_partial (vpar_cfg hP) .empty hr).2)
      fun _ _ hr hl => slots_ok (vpar_cfg hP) .empty hr hl⟩

/-- **C70.**  One thread works on the bytes of a new tree.  After any of its calls, every point
operation ends, whatever the bytes of the pages it takes and whatever the bound on its loops, if large
enough, and returns what the map from strings to strings returns.  The one exception is that the page
IDs no longer fit in a word. -/
theorem C70_var_op_ends (hP : P.OK mk) (hlt : ∀ a b : KStr mk, P.lt a.1 b.1 = decide (a < b))
    (hR : Roomy (P.cfg mk)) {m : Mem} {l : List (Spec.Call Str Str × Spec.Ret Str Str)}
    {b : BSh (varLay P).C} {it : Option (PID × Str × BBound)}
    (h : BSession (varLay P) (okCall P mk) (bstart (varLay P) m).sh l b it)
    (hlim : b.npid ≤ 256 ^ P.pid) {o : Spec.Op Str Str} (ho : okCall P mk (.op o)) :
    ∃ n N, ∀ f, N ≤ f → BEnds (fun b' => 256 ^ P.pid < b'.npid)
      (fun r _ => r = (Spec.apply (Spec.mapAfterAll (fun _ => none) (l.map Prod.fst)) o).2) n b
      (Bytes.runOp (varLay P) f o) :=
  (vsetup hP hlt hR m).op_ends h hlim ho

/-- A scan with all its visits ends, leaves the shared memory as it is, and returns the records of
the map in the range, in the order of the keys (see `C13_false` for the begin key of an open range). -/
theorem C70_var_scan_total (hP : P.OK mk) (hlt : ∀ a b : KStr mk, P.lt a.1 b.1 = decide (a < b))
    (hR : Roomy (P.cfg mk)) {m : Mem} {l : List (Spec.Call Str Str × Spec.Ret Str Str)}
    {b : BSh (varLay P).C} {it : Option (PID × Str × BBound)}
    (h : BSession (varLay P) (okCall P mk) (bstart (varLay P) m).sh l b it)
    (hlim : b.npid ≤ 256 ^ P.pid) {bb eb : BBound} (hl : okCall P mk (.visit bb eb)) :
    ∃ vs : List (Spec.Visit Str Str),
      BSession (varLay P) (okCall P mk) (bstart (varLay P) m).sh (l ++ vs.map (visitCall eb)) b none ∧
      Spec.Linked bb vs ∧ Spec.Finished vs ∧
      ((Spec.allRecs vs).Pairwise fun x y => P.lt x.1 y.1 = true) ∧
      (∀ k v, (k, v) ∈ Spec.allRecs vs →
        Spec.mapAfterAll (fun _ => none) (l.map Prod.fst) k = some v ∧ @Spec.toB Str (strLT P.lt) eb k ∧
        (@Spec.fromB Str (strLT P.lt) bb k ∨ bb = some (k, false))) ∧
      (∀ k v, Spec.mapAfterAll (fun _ => none) (l.map Prod.fst) k = some v →
        @Spec.toB Str (strLT P.lt) eb k → @Spec.fromB Str (strLT P.lt) bb k →
        (k, v) ∈ Spec.allRecs vs) :=
  (vsetup hP hlt hR m).scan_total h hlim hl

/-- Every visit ends, for every bytes of the pages it takes and every sufficient bound on its loops,
and returns a page of the map. -/
theorem C70_var_visit_ends (hP : P.OK mk) (hlt : ∀ a b : KStr mk, P.lt a.1 b.1 = decide (a < b))
    (hR : Roomy (P.cfg mk)) {m : Mem} {l : List (Spec.Call Str Str × Spec.Ret Str Str)}
    {b : BSh (varLay P).C} {it : Option (PID × Str × BBound)}
    (h : BSession (varLay P) (okCall P mk) (bstart (varLay P) m).sh l b it)
    (hlim : b.npid ≤ 256 ^ P.pid) :
    (∀ bb eb, okCall P mk (.visit bb eb) → ∃ n N, ∀ f, N ≤ f → BEnds (fun _ => False)
      (fun x b' => b' = b ∧ @Spec.PageOK Str Str (strLT P.lt)
        (Spec.mapAfterAll (fun _ => none) (l.map Prod.fst)) bb eb x.1 (x.2.map Prod.fst)) n b
      (Bytes.scanFirst (varLay P) f bb eb)) ∧
    (∀ p k eb, it = some (p, k, eb) → ∃ n N, ∀ f, N ≤ f → BEnds (fun _ => False)
      (fun x b' => b' = b ∧ @Spec.PageOK Str Str (strLT P.lt)
        (Spec.mapAfterAll (fun _ => none) (l.map Prod.fst)) (some (k, true)) eb x.1 (x.2.map Prod.fst)) n b
      (Bytes.scanNext (varLay P) f p k eb)) := by
  refine ⟨fun bb eb hl => (vsetup hP hlt hR m).scan_ends h hlim hl, ?_⟩
  rintro p k eb rfl
  exact (vsetup hP hlt hR m).next_ends h hlim

/-- Whatever one thread calls on a new tree, the returns are those of the map. -/
theorem C70_var_meets (hP : P.OK mk) (hlt : ∀ a b : KStr mk, P.lt a.1 b.1 = decide (a < b))
    (hR : Roomy (P.cfg mk)) {m : Mem} {l : List (Spec.Call Str Str × Spec.Ret Str Str)}
    {b : BSh (varLay P).C} {it : Option (PID × Str × BBound)}
    (h : BSession (varLay P) (okCall P mk) (bstart (varLay P) m).sh l b it)
    (hlim : b.npid ≤ 256 ^ P.pid) : @Spec.Meets Str Str _ (strLT P.lt) (fun _ => none) l :=
  (vsetup hP hlt hR m).meets h hlim

/-- Every list of operations runs to its end and returns what the map returns, unless an operation
takes a page ID that does not fit in a word. -/
theorem C70_var_total (hP : P.OK mk) (hlt : ∀ a b : KStr mk, P.lt a.1 b.1 = decide (a < b))
    (hR : Roomy (P.cfg mk)) (m : Mem) (ops : List (Spec.Op Str Str))
    (hops : ∀ o ∈ ops, okCall P mk (.op o)) :
    ∃ (l : List (Spec.Op Str Str × Spec.Res Str)) (b : BSh (varLay P).C),
      BSession (varLay P) (okCall P mk) (bstart (varLay P) m).sh
        (l.map fun x => (.op x.1, .res x.2)) b none ∧
      l.map Prod.snd = Spec.answers (fun _ => none) (l.map Prod.fst) ∧
      (l.map Prod.fst = ops ∨ ∃ o rest, ops = l.map Prod.fst ++ o :: rest ∧
        ∃ f b' q', BFirmRun b (Bytes.runOp (varLay P) f o) b' q' ∧ 256 ^ P.pid < b'.npid) :=
  (vsetup hP hlt hR m).total ops hops

end

/-! ## C70, fixed-length keys -/

section

variable {P : Fix.FPar} [LinearOrder (VStr P.c.klen)]

/-- The map on strings. -/
def strMap {a b : Nat} (m : VStr a → Option (VStr b)) (s : Str) : Option Str :=
  if h : s.length = a then (m ⟨s, h⟩).map Subtype.val else none

theorem strMap_map (m : VStr P.c.klen → Option (VStr P.pay)) : MapI P.enc m (strMap m) := by
  refine ⟨fun k => ?_, fun s hs => ?_⟩
  · show strMap m k.1 = _
    rw [strMap, dif_pos k.2]; rfl
  · rw [strMap, dif_neg fun h => hs ⟨s, h⟩ rfl]

/-- A new or bulk-loaded tree. -/
theorem fsetup (hP : P.OK) (hlt : ∀ a b : VStr P.c.klen, P.lt a.1 b.1 = decide (a < b))
    (hR : Roomy P.cfg) {m : VStr P.c.klen → Option (VStr P.pay)} {B₀ : BSys (Fix.fixLay P)}
    (hs : Fix.FStart P m B₀) :
    Setup P.cfg P.enc (Fix.fixLay P) (HeadOK P.cfg (256 ^ P.pid)) (Fix.ChI P P.enc) (Fix.NoI P P.enc)
      (Fix.DeI P P.enc) (Fix.okCall P) P.lt (256 ^ P.pid) m (strMap m) B₀.sh where
  lay := Fix.fixLay_ok (fpar_cfg hP) (fpar_lay hP hlt)
  legal := Fix.okCall_enc
  keys := fun _ _ h => Subtype.ext h
  lt := hlt
  room := hR
  ok := fpar_cfg hP
  map := strMap_map m
  start := by
    obtain ⟨sh, hist, hi, h0⟩ := fstart_sim hP hlt hs
    exact ⟨sh, hist, .init hR (fpar_cfg hP) hi, h0.sh,
      .start (fun _ _ hr => (C01_linearizable_partial (fpar_cfg hP) hi hr).2)
        fun _ _ hr hl => slots_ok (fpar_cfg hP) hi hr hl⟩

/-- `C70_var_op_ends` with fixed-length keys, on a new or bulk-loaded tree. -/
theorem C70_fix_op_ends (hP : P.OK) (hlt : ∀ a b : VStr P.c.klen, P.lt a.1 b.1 = decide (a < b))
    (hR : Roomy P.cfg) {m : VStr P.c.klen → Option (VStr P.pay)} {B₀ : BSys (Fix.fixLay P)}
    (hs : Fix.FStart P m B₀) {l : List (Spec.Call Str Str × Spec.Ret Str Str)}
    {b : BSh (Fix.fixLay P).C} {it : Option (PID × Str × BBound)}
    (h : BSession (Fix.fixLay P) (Fix.okCall P) B₀.sh l b it)
    (hlim : b.npid ≤ 256 ^ P.pid) {o : Spec.Op Str Str} (ho : Fix.okCall P (.op o)) :
    ∃ n N, ∀ f, N ≤ f → BEnds (fun b' => 256 ^ P.pid < b'.npid)
      (fun r _ => r = (Spec.apply (Spec.mapAfterAll (strMap m) (l.map Prod.fst)) o).2) n b
      (Bytes.runOp (Fix.fixLay P) f o) :=
  (fsetup hP hlt hR hs).op_ends h hlim ho

/-- `C70_var_scan_total` with fixed-length keys, on a new or bulk-loaded tree. -/
theorem C70_fix_scan_total (hP : P.OK) (hlt : ∀ a b : VStr P.c.klen, P.lt a.1 b.1 = decide (a < b))
    (hR : Roomy P.cfg) {m : VStr P.c.klen → Option (VStr P.pay)} {B₀ : BSys (Fix.fixLay P)}
    (hs : Fix.FStart P m B₀) {l : List (Spec.Call Str Str × Spec.Ret Str Str)}
    {b : BSh (Fix.fixLay P).C} {it : Option (PID × Str × BBound)}
    (h : BSession (Fix.fixLay P) (Fix.okCall P) B₀.sh l b it)
    (hlim : b.npid ≤ 256 ^ P.pid) {bb eb : BBound} (hl : Fix.okCall P (.visit bb eb)) :
    ∃ vs : List (Spec.Visit Str Str),
      BSession (Fix.fixLay P) (Fix.okCall P) B₀.sh (l ++ vs.map (visitCall eb)) b none ∧
      Spec.Linked bb vs ∧ Spec.Finished vs ∧
      ((Spec.allRecs vs).Pairwise fun x y => P.lt x.1 y.1 = true) ∧
      (∀ k v, (k, v) ∈ Spec.allRecs vs →
        Spec.mapAfterAll (strMap m) (l.map Prod.fst) k = some v ∧ @Spec.toB Str (strLT P.lt) eb k ∧
        (@Spec.fromB Str (strLT P.lt) bb k ∨ bb = some (k, false))) ∧
      (∀ k v, Spec.mapAfterAll (strMap m) (l.map Prod.fst) k = some v →
        @Spec.toB Str (strLT P.lt) eb k → @Spec.fromB Str (strLT P.lt) bb k →
        (k, v) ∈ Spec.allRecs vs) :=
  (fsetup hP hlt hR hs).scan_total h hlim hl

/-- `C70_var_visit_ends` with fixed-length keys. -/
theorem C70_fix_visit_ends (hP : P.OK) (hlt : ∀ a b : VStr P.c.klen, P.lt a.1 b.1 = decide (a < b))
    (hR : Roomy P.cfg) {m : VStr P.c.klen → Option (VStr P.pay)} {B₀ : BSys (Fix.fixLay P)}
    (hs : Fix.FStart P m B₀) {l : List (Spec.Call Str Str × Spec.Ret Str Str)}
    {b : BSh (Fix.fixLay P).C} {it : Option (PID × Str × BBound)}
    (h : BSession (Fix.fixLay P) (Fix.okCall P) B₀.sh l b it) (hlim : b.npid ≤ 256 ^ P.pid) :
    (∀ bb eb, Fix.okCall P (.visit bb eb) → ∃ n N, ∀ f, N ≤ f → BEnds (fun _ => False)
      (fun x b' => b' = b ∧ @Spec.PageOK Str Str (strLT P.lt)
        (Spec.mapAfterAll (strMap m) (l.map Prod.fst)) bb eb x.1 (x.2.map Prod.fst)) n b
      (Bytes.scanFirst (Fix.fixLay P) f bb eb)) ∧
    (∀ p k eb, it = some (p, k, eb) → ∃ n N, ∀ f, N ≤ f → BEnds (fun _ => False)
      (fun x b' => b' = b ∧ @Spec.PageOK Str Str (strLT P.lt)
        (Spec.mapAfterAll (strMap m) (l.map Prod.fst)) (some (k, true)) eb x.1 (x.2.map Prod.fst)) n b
      (Bytes.scanNext (Fix.fixLay P) f p k eb)) := by
  refine ⟨fun bb eb hl => (fsetup hP hlt hR hs).scan_ends h hlim hl, ?_⟩
  rintro p k eb rfl
  exact (fsetup hP hlt hR hs).next_ends h hlim

/-- `C70_var_meets` with fixed-length keys, on a new or bulk-loaded tree. -/
theorem C70_fix_meets (hP : P.OK) (hlt : ∀ a b : VStr P.c.klen, P.lt a.1 b.1 = decide (a < b))
    (hR : Roomy P.cfg) {m : VStr P.c.klen → Option (VStr P.pay)} {B₀ : BSys (Fix.fixLay P)}
    (hs : Fix.FStart P m B₀) {l : List (Spec.Call Str Str × Spec.Ret Str Str)}
    {b : BSh (Fix.fixLay P).C} {it : Option (PID × Str × BBound)}
    (h : BSession (Fix.fixLay P) (Fix.okCall P) B₀.sh l b it) (hlim : b.npid ≤ 256 ^ P.pid) :
    @Spec.Meets Str Str _ (strLT P.lt) (strMap m) l :=
  (fsetup hP hlt hR hs).meets h hlim

/-- `C70_var_total` with fixed-length keys, on a new or bulk-loaded tree. -/
theorem C70_fix_total (hP : P.OK) (hlt : ∀ a b : VStr P.c.klen, P.lt a.1 b.1 = decide (a < b))
    (hR : Roomy P.cfg) {m : VStr P.c.klen → Option (VStr P.pay)} {B₀ : BSys (Fix.fixLay P)}
    (hs : Fix.FStart P m B₀) (ops : List (Spec.Op Str Str)) (hops : ∀ o ∈ ops, Fix.okCall P (.op o)) :
    ∃ (l : List (Spec.Op Str Str × Spec.Res Str)) (b : BSh (Fix.fixLay P).C),
      BSession (Fix.fixLay P) (Fix.okCall P) B₀.sh (l.map fun x => (.op x.1, .res x.2)) b none ∧
      l.map Prod.snd = Spec.answers (strMap m) (l.map Prod.fst) ∧
      (l.map Prod.fst = ops ∨ ∃ o rest, ops = l.map Prod.fst ++ o :: rest ∧
        ∃ f b' q', BFirmRun b (Bytes.runOp (Fix.fixLay P) f o) b' q' ∧ 256 ^ P.pid < b'.npid) :=
  (fsetup hP hlt hR hs).total ops hops

end

/-! ### Examples -/

theorem exPar_roomy : Roomy (exPar.cfg 8) := ⟨by decide, by decide⟩

theorem fexPar_roomy : Roomy fexPar.cfg := ⟨by decide, by decide⟩

/-- 24 insertions, removals of most of the records, and reads. -/
def strOps : List (Spec.Op Str Str) :=
  ((List.range 24).reverse.map fun i => .insert (strKey i) (strVal i)) ++
  ((List.range 20).reverse.map fun i => .delete (strKey i)) ++
  [.read (strKey 3), .read (strKey 21), .update (strKey 21) (strVal 7), .read (strKey 21)]

/-- The same with fixed-length keys. -/
def fixOps : List (Spec.Op Str Str) :=
  ((List.range 24).reverse.map fun i => .insert (fixKey i) (strVal i)) ++
  ((List.range 20).reverse.map fun i => .delete (fixKey i)) ++
  [.read (fixKey 3), .read (fixKey 21), .update (fixKey 21) (strVal 7), .read (fixKey 21)]

/-- What the last four of them return. -/
def opsTail : List (Spec.Res Str) :=
  [.payload none, .payload (some (strVal 21)), .success, .payload (some (strVal 7))]

set_option maxRecDepth 100000 in
/-- Pages are split and merged. -/
theorem strOps_run : ∃ (l : List (Spec.Op Str Str × Spec.Res Str)) (b : BSh (varLay exPar).C),
    BSession (varLay exPar) (okCall exPar 8) (bstart (varLay exPar) fun _ => 7).sh
      (l.map fun x => (.op x.1, .res x.2)) b none ∧ l.map Prod.fst = strOps ∧
    (l.map Prod.snd).drop 44 = opsTail ∧ b.npid = 5 ∧
    ∃ h, b.mt 4 = some h ∧ (varLay exPar).isRemoved h.ch = true := by
  have hx : ((execOps (L := varLay exPar) 60 1000 (bstart (varLay exPar) fun _ => 7).sh strOps).elim
      false fun x => decide ((x.1.map Prod.snd).drop 44 = opsTail) && decide (x.2.npid = 5) &&
        (x.2.mt 4).elim false fun h => (varLay exPar).isRemoved h.ch) = true := by decide +kernel
  cases he : execOps (L := varLay exPar) 60 1000 (bstart (varLay exPar) fun _ => 7).sh strOps with
  | none => rw [he] at hx; cases hx
  | some x =>
    rw [he] at hx
    obtain ⟨l, b⟩ := x
    simp only [Option.elim_some, Bool.and_eq_true, decide_eq_true_eq] at hx
    obtain ⟨⟨h1, h2⟩, h3⟩ := hx
    obtain ⟨g1, g2⟩ := execOps_sound (legal := okCall exPar 8) .start (by decide +kernel) he
    refine ⟨l, b, g1, g2, h1, h2, ?_⟩
    cases hm : b.mt 4 with
    | none => rw [hm] at h3; cases h3
    | some h => rw [hm] at h3; exact ⟨h, rfl, h3⟩

set_option maxRecDepth 100000 in
/-- Pages are split and merged. -/
theorem fixOps_run : ∃ (l : List (Spec.Op Str Str × Spec.Res Str)) (b : BSh (Fix.fixLay fexPar).C),
    BSession (Fix.fixLay fexPar) (Fix.okCall fexPar) (bstart (Fix.fixLay fexPar) fun _ => 7).sh
      (l.map fun x => (.op x.1, .res x.2)) b none ∧ l.map Prod.fst = fixOps ∧
    (l.map Prod.snd).drop 44 = opsTail ∧ b.npid = 5 ∧
    ∃ h, b.mt 4 = some h ∧ (Fix.fixLay fexPar).isRemoved h.ch = true := by
  have hx : ((execOps (L := Fix.fixLay fexPar) 60 1000 (bstart (Fix.fixLay fexPar) fun _ => 7).sh
      fixOps).elim false fun x => decide ((x.1.map Prod.snd).drop 44 = opsTail) && decide (x.2.npid = 5) &&
        (x.2.mt 4).elim false fun h => (Fix.fixLay fexPar).isRemoved h.ch) = true := by decide +kernel
  cases he : execOps (L := Fix.fixLay fexPar) 60 1000 (bstart (Fix.fixLay fexPar) fun _ => 7).sh
      fixOps with
  | none => rw [he] at hx; cases hx
  | some x =>
    rw [he] at hx
    obtain ⟨l, b⟩ := x
    simp only [Option.elim_some, Bool.and_eq_true, decide_eq_true_eq] at hx
    obtain ⟨⟨h1, h2⟩, h3⟩ := hx
    obtain ⟨g1, g2⟩ := execOps_sound (legal := Fix.okCall fexPar) .start (by decide +kernel) he
    refine ⟨l, b, g1, g2, h1, h2, ?_⟩
    cases hm : b.mt 4 with
    | none => rw [hm] at h3; cases h3
    | some h => rw [hm] at h3; exact ⟨h, rfl, h3⟩

/-- The next operation ends, and a scan yields exactly the four records. -/
example : ∃ (l : List (Spec.Call Str Str × Spec.Ret Str Str)) (b : BSh (varLay exPar).C),
    BSession (varLay exPar) (okCall exPar 8) (bstart (varLay exPar) fun _ => 7).sh l b none ∧
    (∃ n N, ∀ f, N ≤ f → BEnds (fun b' => 256 ^ exPar.pid < b'.npid)
      (fun r _ => r = .payload (some (strVal 7))) n b (Bytes.runOp (varLay exPar) f (.read (strKey 21)))) ∧
    ∃ vs : List (Spec.Visit Str Str),
      BSession (varLay exPar) (okCall exPar 8) (bstart (varLay exPar) fun _ => 7).sh
        (l ++ vs.map (visitCall none)) b none ∧
      (strKey 21, strVal 7) ∈ Spec.allRecs vs ∧ ∀ v, (strKey 3, v) ∉ Spec.allRecs vs := by
  obtain ⟨l, b, h1, h2, _, h4, _⟩ := strOps_run
  have hl : b.npid ≤ 256 ^ exPar.pid := by rw [h4]; decide
  have hm : ∀ k, Spec.mapAfterAll (fun _ => none) ((l.map fun x =>
      ((.op x.1, .res x.2) : Spec.Call Str Str × Spec.Ret Str Str)).map Prod.fst) k =
      Spec.mapAfterAll (fun _ => none) (strOps.map Spec.Call.op) k := by
    intro k; rw [← h2, List.map_map, List.map_map]; rfl
  have e1 : Spec.mapAfterAll (fun _ => none) (strOps.map Spec.Call.op) (strKey 21) = some (strVal 7) := by
    decide +kernel
  have e2 : Spec.mapAfterAll (fun _ => none) (strOps.map Spec.Call.op) (strKey 3) = none := by
    decide +kernel
  refine ⟨_, b, h1, ?_, ?_⟩
  · have := C70_var_op_ends exPar_ok exPar_lt exPar_roomy h1 hl (o := .read (strKey 21)) (by decide)
    simpa only [Spec.apply, hm, e1] using this
  · obtain ⟨vs, g1, _, _, _, g5, g6⟩ := C70_var_scan_total exPar_ok exPar_lt exPar_roomy h1 hl
      (bb := none) (eb := none) (by decide)
    refine ⟨vs, g1, g6 _ _ ((hm _).trans e1) (fun _ _ h => (by cases h)) (fun _ _ h => (by cases h)),
      fun v hv => ?_⟩
    have := (g5 _ _ hv).1
    rw [hm, e2] at this; cases this

example : ∃ (l : List (Spec.Op Str Str × Spec.Res Str)) (b : BSh (varLay exPar).C),
    BSession (varLay exPar) (okCall exPar 8) (bstart (varLay exPar) fun _ => 7).sh
      (l.map fun x => (.op x.1, .res x.2)) b none ∧ l.length = 48 ∧
    @Spec.Meets Str Str _ (strLT exPar.lt) (fun _ => none) (l.map fun x => (.op x.1, .res x.2)) := by
  obtain ⟨l, b, h1, h2, _, h4, _⟩ := strOps_run
  exact ⟨l, b, h1, by rw [← List.length_map (f := Prod.fst), h2]; decide,
    C70_var_meets exPar_ok exPar_lt exPar_roomy h1 (by rw [h4]; decide)⟩

example : ∃ (l : List (Spec.Op Str Str × Spec.Res Str)) (b : BSh (Fix.fixLay fexPar).C),
    BSession (Fix.fixLay fexPar) (Fix.okCall fexPar) (bstart (Fix.fixLay fexPar) fun _ => 7).sh
      (l.map fun x => (.op x.1, .res x.2)) b none ∧ l.length = 48 ∧
    @Spec.Meets Str Str _ (strLT fexPar.lt) (strMap (a := fexPar.c.klen) (b := fexPar.pay) fun _ => none)
      (l.map fun x => (.op x.1, .res x.2)) := by
  obtain ⟨l, b, h1, h2, _, h4, _⟩ := fixOps_run
  exact ⟨l, b, h1, by rw [← List.length_map (f := Prod.fst), h2]; decide,
    C70_fix_meets fexPar_ok fexPar_lt fexPar_roomy (.empty _) h1 (by rw [h4]; decide)⟩

/-- On a bulk-loaded tree. -/
example : ∃ T, (∃ n N, ∀ f, N ≤ f → BEnds (fun b' => 256 ^ fexPar.pid < b'.npid)
      (fun r _ => r = .payload (some (pidBytes 8 67))) n (Fix.bulkStart fexPar T 8 9).sh
      (Bytes.runOp (Fix.fixLay fexPar) f (.read (fixKey 4)))) ∧
    ∃ vs : List (Spec.Visit Str Str),
      BSession (Fix.fixLay fexPar) (Fix.okCall fexPar) (Fix.bulkStart fexPar T 8 9).sh
        (vs.map (visitCall none)) (Fix.bulkStart fexPar T 8 9).sh none ∧
      (fixKey 4, pidBytes 8 67) ∈ Spec.allRecs vs := by
  obtain ⟨T, _, _, hs, _⟩ := fbulk_run
  have e1 : strMap (Spec.ofList fbulk) (fixKey 4) = some (pidBytes 8 67) := by decide +kernel
  have hl : (Fix.bulkStart fexPar T 8 9).sh.npid ≤ 256 ^ fexPar.pid := by
    show 9 ≤ _
    decide
  refine ⟨T, ?_, ?_⟩
  · have := C70_fix_op_ends fexPar_ok fexPar_lt fexPar_roomy hs .start hl (o := .read (fixKey 4)) (by decide)
    simpa only [List.map_nil, Spec.mapAfterAll, Spec.apply, e1] using this
  · obtain ⟨vs, g1, _, _, _, _, g6⟩ := C70_fix_scan_total fexPar_ok fexPar_lt fexPar_roomy hs .start hl
      (bb := none) (eb := none) (by decide)
    exact ⟨vs, g1, g6 _ _ e1 (fun _ _ h => (by cases h)) (fun _ _ h => (by cases h))⟩

end BwTree.Props
