import Verif.Props.IndexCons
import Verif.Props.FixBytes

/-!
# C78 on bytes

Consolidation of an index node on the bytes of pages with keys of variable and of fixed length: every
search in the bytes of the new pages is exact.
-/

namespace BwTree.Props

open Layout Bytes

set_option linter.unusedSectionVars false

variable {K V : Type} [LinearOrder K] {cfg : Cfg K} {e : Enc K V}

/-- Where a search goes on in the bytes of the pages a consolidation writes; the left half of a split
leads to page `rp`, which holds the right half. -/
def bNewStep (L : Lay) (key : Str) (closed : Bool) (rp : PID) : LSmo L.N → ChRes
  | .consolidate n | .merge n => L.child key closed (L.base n)
  | .split l r =>
    match L.child key closed (L.base (L.setNext l rp)) with
    | .sibling p => if p = rp then L.child key closed (L.base r) else .sibling p
    | x => x

theorem base_step_ne_ub {low : Option K} {n : Node K V} (h : ChainWF cfg true low (.base n)) {key : K}
    {closed : Bool} (hl : LowOK low key closed) : childStep key closed (.base n) ≠ .ub := by
  by_cases hh : HighOK n.high key closed
  · obtain ⟨q, e1, _⟩ := base_step h hl hh
    rw [e1]; exact fun h => by cases h
  · rw [childStep_beyond (fl := fun _ => none) h trivial key closed hh]
    exact fun h => by cases h

theorem lay_new_step {L : Lay} {Img : Chain K V → L.C → Prop} {NI : Node K V → L.N → Prop}
    {DI : Delta K V → L.D → Prop} {lim : Nat} (hL : LayOK cfg e L (HeadOK cfg lim) Img NI DI)
    (hc : CfgOK2 cfg) {m : K → Option V} {S : Sys K V} (hr : Reachable cfg m S) {p : PID}
    {c : Chain K V} (hm : S.sh.mt p = some c) (hn : c.isRemoved = false) {low : Option K}
    (hwf : ChainWF cfg true low c) (hid : ∀ q, c.Ids q → q < lim) {smo : SMO K V}
    (ht : tryConsolidate cfg false c = some smo) {s : LSmo L.N} (hs : SmoI NI smo s) {key : K}
    {closed : Bool} (hl : LowOK low key closed) {rp : PID} (hrp : rp < lim) :
    bNewStep L (e.key key) closed rp s = newStep key closed rp smo := by
  obtain ⟨_, hsz1, hsz2, _⟩ := C22_nodes_fit_partial hc hr hm hn
  have hids := tryConsolidate_ids (P := fun q => q < lim) ht hid
  have hsl := slack_nonneg cfg true
  have step : ∀ {low' : Option K} {n : Node K V} {b : L.N}, NI n b →
      ChainWF cfg true low' (.base n) → n.size ≤ cfg.page → (∀ q, n.Ids q → q < lim) →
      LowOK low' key closed → L.child (e.key key) closed (L.base b) = childStep key closed (.base n) := by
    intro low' n b h1 h2 h3 h4 h5
    refine hL.child (hL.base h1) ⟨h4, Or.inr ⟨true, low', h2, ?_⟩⟩ key closed (base_step_ne_ub h2 h5)
    show n.size ≤ _
    omega
  obtain ⟨_, t2, t3, t4⟩ := tryConsolidate_spec hc.toCfgOK hwf false
  by_cases hs1 : c.size ≤ cfg.page
  · by_cases hs2 : c.size ≤ cfg.minSize
    · rw [t2 rfl hs1 hs2] at ht; cases ht
      cases s with
      | merge b => exact step hs (consNode_wf hwf).1 hs1 hids hl
      | consolidate b => exact hs.elim
      | split a b => exact hs.elim
    · rw [t3 rfl hs1 hs2] at ht; cases ht
      cases s with
      | consolidate b => exact step hs (consNode_wf hwf).1 hs1 hids hl
      | merge b => exact hs.elim
      | split a b => exact hs.elim
  obtain ⟨lr, x, rr, hlr, hcat, _, _, ex⟩ := t4 rfl hs1
  have hsz := hsz2 _ _ ex
  rw [ex] at ht; cases ht
  obtain ⟨v1, v2, _⟩ := split_wf hwf hlr hcat rp
  cases s with
  | consolidate b => exact hs.elim
  | merge b => exact hs.elim
  | split a b =>
    have e1 : L.child (e.key key) closed (L.base (L.setNext a rp)) =
        childStep key closed (.base { splitL cfg true c lr x.1 0 with next := rp }) := by
      refine step (hL.setNext hs.1 rp) v1 hsz.2.1 ?_ hl
      rintro q (h | h)
      · rw [h]; exact hrp
      · exact hids.1 q h
    simp only [bNewStep, newStep]
    rw [e1]
    by_cases hk : HighOK (some x.1) key closed
    · obtain ⟨q, e2, _⟩ := base_step v1 hl hk
      rw [show childStep key closed (.base { splitL cfg true c lr x.1 0 with next := rp }) = .child q
        from e2]
    · have hl' : LowOK (some x.1) key closed := by
        intro l hl; cases hl
        by_contra hx
        exact hk (highOK_after.2 fun b hb => by cases hb; exact hx)
      rw [step hs.2 v2 hsz.2.2.2 hids.2 hl']
      rfl

section
variable {P : VPar} {mk : Nat} [LinearOrder (KStr mk)]

/-- **C78 on bytes, keys of variable length.**  In every execution on bytes, the bytes of an index node
hold the records of a chain, its consolidation succeeds, and every search in the bytes of the new pages
goes on to the child of the last record in force, or beyond the node to its right sibling.  Partial:
executions stop at the events of `Flag`; the page IDs handed out fit in a word. -/
theorem C78_consolidated_bytes_partial (hP : P.OK mk)
    (hlt : ∀ a b : KStr mk, P.lt a.1 b.1 = decide (a < b)) {m : Mem}
    {h : List (Spec.Event Str Str)} {B : BSys (varLay P)}
    (hr : BRun (varLay P) (okCall P mk) (bstart (varLay P) m) h B)
    (hlim : B.sh.npid ≤ 256 ^ P.pid) {p : PID} {hd : Head BChain} (hm : B.sh.mt p = some hd)
    (hn : (varLay P).isRemoved hd.ch = false) (hl : (varLay P).isLeaf hd.ch = false) (m1 m2 : Mem) :
    ∃ (c : Chain (KStr mk) (VStr P.pay)) (s : LSmo VPage), CImg P.c (P.enc mk) c hd.ch ∧
      (varLay P).cons m1 m2 hd.ch = some s ∧
      ∀ (k : KStr mk) closed rp, (∀ l, c.low = some l → Spec.After closed l k) → rp < 256 ^ P.pid →
        Spec.IndexStep c k closed (bNewStep (varLay P) k.1 closed rp s) := by
  have hc := vpar_cfg hP
  have hp := vpar_lay hP hlt
  have hL := varLay_ok hc hp (vpar_cap hP)
  obtain ⟨h', hist, S, h1, h2, h3⟩ := bytes_refine hc hp (vpar_cap hP) okCall_enc hr hlim
  obtain ⟨h4, h5, h6⟩ := h3.sh.head p hd hm
  rw [hL.isRemoved h6] at hn
  rw [hL.isLeaf h6] at hl
  have ho := slots_ok hc .empty h2 (h3.sh.npid ▸ hlim) p _ h5
  have hre : Reachable (P.cfg mk) (fun _ => none) S := ⟨_, _, .empty, h2⟩
  rcases ho.2 with hx | ⟨inner, low, hwf, hsz⟩
  · rw [hn] at hx; cases hx
  · have hin : inner = true := by
      have := hwf.isLeaf
      rw [hl] at this
      simpa using this.symm
    subst hin
    obtain ⟨smo, ht, hst⟩ := C78_consolidated_search hc hre h5 hn hl
    obtain ⟨s, g1, g2⟩ := hL.cons h6 ho ht m1 m2
    refine ⟨_, s, h6.1, g1, fun k closed rp hlo hrp => ?_⟩
    have := lay_new_step hL hc hre h5 hn hwf ho.1 ht g2 (key := k) (closed := closed)
      (fun l e => hlo l (hwf.low_eq.trans e)) hrp
    change bNewStep (varLay P) k.1 closed rp s = _ at this
    rw [this]
    exact hst k closed rp hlo

end

section
open Fix
variable {P : FPar} [LinearOrder (VStr P.c.klen)]

/-- **C78 on bytes, keys of fixed length.**  As `C78_consolidated_bytes_partial`, on the bytes of
fixed-length pages. -/
theorem C78_consolidated_fix_bytes_partial (hP : P.OK)
    (hlt : ∀ a b : VStr P.c.klen, P.lt a.1 b.1 = decide (a < b))
    {m : VStr P.c.klen → Option (VStr P.pay)} {B₀ : BSys (fixLay P)} (hs : FStart P m B₀)
    {h : List (Spec.Event Bytes.Str Bytes.Str)} {B : BSys (fixLay P)} (hr : BRun (fixLay P) (Fix.okCall P) B₀ h B)
    (hlim : B.sh.npid ≤ 256 ^ P.pid) {p : PID} {hd : Head Fix.BChain} (hm : B.sh.mt p = some hd)
    (hn : (fixLay P).isRemoved hd.ch = false) (hl : (fixLay P).isLeaf hd.ch = false) (m1 m2 : Mem) :
    ∃ (c : Chain (VStr P.c.klen) (VStr P.pay)) (s : LSmo FNode), Fix.CImg P P.enc c hd.ch ∧
      (fixLay P).cons m1 m2 hd.ch = some s ∧
      ∀ (k : VStr P.c.klen) closed rp, (∀ l, c.low = some l → Spec.After closed l k) →
        rp < 256 ^ P.pid → Spec.IndexStep c k closed (bNewStep (fixLay P) k.1 closed rp s) := by
  have hc := fpar_cfg hP
  have hp := fpar_lay hP hlt
  have hL := fixLay_ok hc hp
  obtain ⟨sh, h', hist, S, hi, h1, h2, h3⟩ := fix_refine hP hlt hs hr hlim
  obtain ⟨h4, h5, h6⟩ := h3.sh.head p hd hm
  rw [hL.isRemoved h6] at hn
  rw [hL.isLeaf h6] at hl
  have ho := slots_ok hc hi h2 (h3.sh.npid ▸ hlim) p _ h5
  have hre : Reachable P.cfg m S := ⟨_, _, hi, h2⟩
  rcases ho.2 with hx | ⟨inner, low, hwf, hsz⟩
  · rw [hn] at hx; cases hx
  · have hin : inner = true := by
      have := hwf.isLeaf
      rw [hl] at this
      simpa using this.symm
    subst hin
    obtain ⟨smo, ht, hst⟩ := C78_consolidated_search hc hre h5 hn hl
    obtain ⟨s, g1, g2⟩ := hL.cons h6 ho ht m1 m2
    refine ⟨_, s, h6.1, g1, fun k closed rp hlo hrp => ?_⟩
    have := lay_new_step hL hc hre h5 hn hwf ho.1 ht g2 (key := k) (closed := closed)
      (fun l e => hlo l (hwf.low_eq.trans e)) hrp
    change bNewStep (fixLay P) k.1 closed rp s = _ at this
    rw [this]
    exact hst k closed rp hlo

end

/-! ## Examples -/

/-- Insertions. -/
def strIns (n : Nat) : List BCall :=
  (List.range n).map fun i => .op (.insert (strKey (7 * i % 31)) (strVal i))

def fixIns (n : Nat) : List BCall :=
  (List.range n).map fun i => .op (.insert (fixKey (7 * i % 31)) (strVal i))

set_option maxRecDepth 100000 in
/-- After 21 insertions the root is an index node with a delta record; searches in the bytes of its
consolidated page go to the three leaves. -/
example : ∃ h B, BRun (varLay exPar) (okCall exPar 8) (bstart (varLay exPar) fun _ => 7) h B ∧
    ∃ hd s, B.sh.mt 3 = some hd ∧ (varLay exPar).isLeaf hd.ch = false ∧ BChain.isDelta hd.ch = true ∧
      (varLay exPar).cons (fun _ => 7) (fun _ => 9) hd.ch = some s ∧
      [8, 11, 18].map (fun i => bNewStep (varLay exPar) (strKey i) true 9 s) = [.child 1, .child 2, .child 4] ∧
      ∃ c, CImg exPar.c (exPar.enc 8) c hd.ch ∧ ∀ (k : KStr 8), (∀ l, c.low = some l → l ≤ k) →
        Spec.IndexStep c k true (bNewStep (varLay exPar) k.1 true 9 s) := by
  have hx : ((execAll (L := varLay exPar) 40 1000 (bstart (varLay exPar) fun _ => 7) (strIns 21)).elim
      false fun x => decide (x.2.sh.npid = 5) && (x.2.sh.mt 3).elim false fun hd =>
        !(varLay exPar).isLeaf hd.ch && BChain.isDelta hd.ch && !(varLay exPar).isRemoved hd.ch &&
        ((varLay exPar).cons (fun _ => 7) (fun _ => 9) hd.ch).elim false fun s =>
          decide ([8, 11, 18].map (fun i => bNewStep (varLay exPar) (strKey i) true 9 s) =
            [.child 1, .child 2, .child 4])) = true := by decide +kernel
  cases he : execAll (L := varLay exPar) 40 1000 (bstart (varLay exPar) fun _ => 7) (strIns 21) with
  | none => rw [he] at hx; cases hx
  | some x =>
    rw [he] at hx
    obtain ⟨rs, B⟩ := x
    simp only [Option.elim_some, Bool.and_eq_true, decide_eq_true_eq] at hx
    obtain ⟨h1, h2⟩ := hx
    obtain ⟨h', r1, _⟩ := execAll_sound (legal := okCall exPar 8) (by decide +kernel) rfl .nil he
    cases hm : B.sh.mt 3 with
    | none => rw [hm] at h2; cases h2
    | some hd =>
      rw [hm] at h2
      simp only [Option.elim_some, Bool.and_eq_true, Bool.not_eq_true'] at h2
      obtain ⟨⟨⟨h3, h4⟩, h5⟩, h6⟩ := h2
      obtain ⟨c, s, g1, g2, g3⟩ := C78_consolidated_bytes_partial exPar_ok exPar_lt r1
        (by rw [h1]; decide) hm h5 h3 (fun _ => 7) (fun _ => 9)
      rw [g2] at h6
      have h6 := of_decide_eq_true h6
      exact ⟨h', B, r1, hd, s, hm, h3, h4, g2, h6, c, g1, fun k hk =>
        g3 k true 9 (fun l e => by simpa [Spec.After] using hk l e) (by decide)⟩

set_option maxRecDepth 100000 in
/-- After 23 insertions the root is an index node with a delta record; searches in the bytes of its
consolidated page go to the three leaves. -/
example : ∃ h B, BRun (Fix.fixLay fexPar) (Fix.okCall fexPar) (bstart (Fix.fixLay fexPar) fun _ => 7) h B ∧
    ∃ hd s, B.sh.mt 3 = some hd ∧ (Fix.fixLay fexPar).isLeaf hd.ch = false ∧ Fix.BChain.isDelta hd.ch = true ∧
      (Fix.fixLay fexPar).cons (fun _ => 7) (fun _ => 9) hd.ch = some s ∧
      [8, 11, 20].map (fun i => bNewStep (Fix.fixLay fexPar) (fixKey i) true 9 s) = [.child 1, .child 2, .child 4] ∧
      ∃ c, Fix.CImg fexPar fexPar.enc c hd.ch ∧ ∀ (k : VStr fexPar.c.klen), (∀ l, c.low = some l → l ≤ k) →
        Spec.IndexStep c k true (bNewStep (Fix.fixLay fexPar) k.1 true 9 s) := by
  have hx : ((execAll (L := Fix.fixLay fexPar) 40 1000 (bstart (Fix.fixLay fexPar) fun _ => 7) (fixIns 23)).elim
      false fun x => decide (x.2.sh.npid = 5) && (x.2.sh.mt 3).elim false fun hd =>
        !(Fix.fixLay fexPar).isLeaf hd.ch && Fix.BChain.isDelta hd.ch && !(Fix.fixLay fexPar).isRemoved hd.ch &&
        ((Fix.fixLay fexPar).cons (fun _ => 7) (fun _ => 9) hd.ch).elim false fun s =>
          decide ([8, 11, 20].map (fun i => bNewStep (Fix.fixLay fexPar) (fixKey i) true 9 s) =
            [.child 1, .child 2, .child 4])) = true := by decide +kernel
  cases he : execAll (L := Fix.fixLay fexPar) 40 1000 (bstart (Fix.fixLay fexPar) fun _ => 7) (fixIns 23) with
  | none => rw [he] at hx; cases hx
  | some x =>
    rw [he] at hx
    obtain ⟨rs, B⟩ := x
    simp only [Option.elim_some, Bool.and_eq_true, decide_eq_true_eq] at hx
    obtain ⟨h1, h2⟩ := hx
    obtain ⟨h', r1, _⟩ := execAll_sound (legal := Fix.okCall fexPar) (by decide +kernel) rfl .nil he
    cases hm : B.sh.mt 3 with
    | none => rw [hm] at h2; cases h2
    | some hd =>
      rw [hm] at h2
      simp only [Option.elim_some, Bool.and_eq_true, Bool.not_eq_true'] at h2
      obtain ⟨⟨⟨h3, h4⟩, h5⟩, h6⟩ := h2
      obtain ⟨c, s, g1, g2, g3⟩ := C78_consolidated_fix_bytes_partial fexPar_ok fexPar_lt (.empty _) r1
        (by rw [h1]; decide) hm h5 h3 (fun _ => 7) (fun _ => 9)
      rw [g2] at h6
      have h6 := of_decide_eq_true h6
      exact ⟨h', B, r1, hd, s, hm, h3, h4, g2, h6, c, g1, fun k hk =>
        g3 k true 9 (fun l e => by simpa [Spec.After] using hk l e) (by decide)⟩

end BwTree.Props
