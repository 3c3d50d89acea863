import Verif.Bytes.VarSim
import Verif.Bytes.Exec
import Verif.Bytes.Strings
import Verif.Props.Conc
import Verif.Props.Chain
import Mathlib.Data.List.Lex

/-!
# Properties of trees on bytes
-/

namespace BwTree.Props

open Layout Bytes

set_option linter.unusedSectionVars false

variable {K V : Type} [LinearOrder K] {cfg : Cfg K} {e : Enc K V} {P : VPar}

theorem slots_ok (hc : CfgOK2 cfg) {m : K → Option V} {sh : Sh K V} (hi : Init cfg m sh)
    {h : List (Spec.Event K V)} {S : Sys K V} {lim : Nat} (hr : Run cfg (Sys.start sh) h S) (hl : S.sh.npid ≤ lim) (p : PID) (ch : Chain K V)
    (hm : S.sh.mt p = some ch) : HeadOK cfg lim ch := by
  refine ⟨fun q hq => Nat.lt_of_lt_of_le (((init_ids hi).run hr).sh.slots p ch hm q hq) hl, ?_⟩
  cases hrm : ch.isRemoved with
  | true => exact Or.inl rfl
  | false =>
    obtain ⟨s, hS⟩ := (show Reachable cfg m S from ⟨_, _, hi, hr⟩).sound hc
    have hsh : s.mt = S.sh.mt := congrArg Sh.mt hS.sh
    obtain ⟨inner, low, hwf, hsz, _⟩ := hS.inv.slot_wf (by rw [hsh]; exact hm) hrm
    exact Or.inr ⟨inner, low, hwf, hsz⟩

theorem vpar_cfg {mk : Nat} [LinearOrder (KStr mk)] (h : P.OK mk) : CfgOK2 (P.cfg mk) where
  leaf := by
    show P.c.hdr + (8 + P.pay) ≤ P.c.page
    have := h.half false; simp only [Bool.false_eq_true, if_false] at this; omega
  idx := by
    show P.c.hdr + (8 + P.pid) ≤ P.c.page
    have := h.root; omega
  leafPos := by show 0 < 8 + P.pay; omega
  idxPos := by show 0 < 8 + P.pid; omega
  hdrPos := h.hdr
  keys := fun k => k.2.2
  var := Or.inr fun inner => by
    have h1 := h.big inner
    have h2 := h.half inner
    cases inner <;> exact ⟨h1, h2⟩
  maxPos := h.delta
  rootFits := h.root
  min := fun inner => by
    have := h.min
    refine Nat.le_trans ?_ (Nat.le_max_right _ _)
    show P.minSize ≤ (P.c.page - P.c.hdr) / 2
    omega
  minVar := Or.inr h.min

theorem vpar_lay {mk : Nat} [LinearOrder (KStr mk)] (h : P.OK mk)
    (hlt : ∀ a b : KStr mk, P.lt a.1 b.1 = decide (a < b)) : LayPar (P.cfg mk) (P.enc mk) P where
  enc := ⟨rfl, rfl, by have := h.root; omega, h.lim, fun _ => rfl, fun k => k.2.1,
    fun v => by show 8 + P.pay = 8 + v.1.length; rw [v.2],
    fun p => by show 8 + P.pid = 8 + (pidBytes P.pid p).length; rw [pidBytes_length], hlt⟩
  dlt := ⟨h.leaf, h.idx⟩
  pay := rfl
  pid := rfl
  pids := fun _ => rfl
  minSize := rfl
  thr := rfl
  maxDelta := rfl
  buf := rfl

/-- Delta records are shorter than 64 KiB. -/
theorem vpar_cap {mk : Nat} (h : P.OK mk) : CapOK P mk 65535 where
  lim := by decide
  put := by have := h.leaf; omega
  entry := by have := h.idx; omega
  idx := fun l hl => by
    have := h.idx
    rw [alignUp_eq 3 _ (by decide) (by omega)]; omega

/-- Every execution on bytes is an execution on records, in memory and in what calls return. -/
theorem bytes_refine (hc : CfgOK2 cfg) (hp : LayPar cfg e P) {cap : Nat}
    (hcap : CapOK P cfg.maxKey cap) {legal : Spec.Call Str Str → Prop}
    (hlegal : ∀ c, legal c → ∃ c', c = call e c') {m : Mem} {h : List (Spec.Event Str Str)}
    {B : BSys (varLay P)} (hr : BRun (varLay P) legal (bstart (varLay P) m) h B)
    (hlim : B.sh.npid ≤ 256 ^ P.pid) :
    ∃ h' hist S, h = h'.map (event e) ∧ Run cfg (Sys.start (initSh (V := V) cfg)) h' S ∧
      SysI (HeadOK cfg (256 ^ P.pid)) (ChI cap P e) e hist S B :=
  run_sim (varLay_ok hc hp hcap) hlegal (start_sim (varLay_ok hc hp hcap) m)
    (fun _ _ hr => (C01_linearizable_partial hc .empty hr).2)
    (fun _ _ hr hl => slots_ok hc .empty hr hl) hr hlim

/-- A thread on bytes never meets undefined behaviour. -/
theorem bytes_noub (hc : CfgOK2 cfg) {m : K → Option V} {sh : Sh K V} (hi₀ : Init cfg m sh)
    {hist : Nat → Chain K V} {S : Sys K V}
    {OK : Chain K V → Prop} {L : Lay} {Img : Chain K V → L.C → Prop} {h : List (Spec.Event K V)}
    (hr : Run cfg (Sys.start sh) h S) {B : BSys L} (hi : SysI OK Img e hist S B)
    (t : Nat) (c : Spec.Call Str Str) : B.th t ≠ .run c .ub := by
  intro h1
  obtain ⟨c', p, h2, _, h3⟩ := hi.thread h1
  have h4 := h3 hist Agree.rfl
  cases h4 with
  | ub => exact (C01_linearizable_partial hc hi₀ hr).2 t c' h2

/-! ## The example: small pages, keys compared byte by byte -/

/-- `memcmp`, with shorter strings first. -/
def lexLt : Str → Str → Bool
  | [], [] => false
  | [], _ :: _ => true
  | _ :: _, [] => false
  | a :: as, b :: bs => decide (a < b) || (a == b && lexLt as bs)

instance : LinearOrder (KStr 8) := LinearOrder.lift' (fun k => (k.1.map UInt8.toNat : List Nat))
  fun _ _ h => Subtype.ext (List.map_injective_iff.2 (fun _ _ => UInt8.toNat_inj.1) h)

theorem lexLt_eq : ∀ a b : Str, lexLt a b = decide ((a.map UInt8.toNat : List Nat) < b.map UInt8.toNat)
  | [], [] => by simp [lexLt]
  | [], b :: bs => by simp [lexLt]
  | a :: as, [] => by simp [lexLt]
  | a :: as, b :: bs => by
    rw [lexLt, lexLt_eq as bs, Bool.eq_iff_iff]
    simp only [Bool.or_eq_true, Bool.and_eq_true, decide_eq_true_eq, beq_iff_eq, List.map_cons,
      List.cons_lt_cons_iff, UInt8.toNat_inj, UInt8.lt_iff_toNat_lt]

/-- Pages of 272 bytes, payloads of 8 bytes. -/
def exPar : VPar :=
  { c := ⟨272, 32⟩, dh := 32, pay := 8, pid := 8, minSize := 48, thr := 2, maxDelta := 64
    lt := lexLt }

theorem exPar_ok : exPar.OK 8 := by
  refine ⟨?_, ?_, ?_, ?_, ?_, ?_, ?_, ?_, ?_⟩ <;> decide

theorem exPar_lt (a b : KStr 8) : exPar.lt a.1 b.1 = decide (a < b) := by
  show lexLt a.1 b.1 = _
  rw [lexLt_eq]
  exact decide_eq_decide.2 Iff.rfl

/-! ## C61: consolidation on bytes -/

/-- What a reader of `key` gets from the bytes of a split pair; the left page leads to page `rp`. -/
def bReadPair (P : VPar) (key : Str) (rp : PID) (l r : VPage) : BRd :=
  match bRead P.lt P.c P.pay key (.base { l with next := rp }) with
  | .sibling p => if p = rp then bRead P.lt P.c P.pay key (.base r) else .sibling p
  | x => x

/-- A reader gets from the new pages what it got from the chain. -/
def SameReads (P : VPar) (key : Str) (b : BChain) : LSmo VPage → Prop
  | .consolidate pg | .merge pg =>
    bRead P.lt P.c P.pay key (.base pg) = bRead P.lt P.c P.pay key b
  | .split l r => ∀ rp, bReadPair P key rp l r = bRead P.lt P.c P.pay key b

theorem same_reads (hc : CfgOK2 cfg) (hp : LayPar cfg e P) {ch : Chain K V} {b : BChain}
    {low : Option K} (hw : ChainWF cfg false low ch) (hi : CImg P.c e ch b) {smo : SMO K V}
    (ht : tryConsolidate cfg false ch = some smo) {s : LSmo VPage} (hs : SmoI (NImg P.c e) smo s)
    (k : K) : SameReads P (e.key k) b s := by
  have hrd : ∀ {x : Chain K V} {y : BChain}, CImg P.c e x y → readChain k x ≠ .ub →
      bRead P.lt P.c P.pay (e.key k) y = e.rd (readChain k x) :=
    fun h1 h2 => bRead_ok hp h1 k h2
  obtain ⟨_, c2, c3, c4⟩ := C15_chain_read_eq_consolidated_read hc.toCfgOK hw k
  have hub : readChain k ch ≠ .ub := by
    by_cases hk : HighOK ch.high k true
    · obtain ⟨o, e1, _⟩ := (readChain_spec hw k).2 hk
      rw [e1]; exact fun h => by cases h
    · rw [(readChain_spec hw k).1 hk]; exact fun h => by cases h
  have hb := hrd hi hub
  have one : ∀ {n : Node K V} {pg : VPage}, NImg P.c e n pg →
      readChain k (.base n) = readChain k ch →
      bRead P.lt P.c P.pay (e.key k) (.base pg) = bRead P.lt P.c P.pay (e.key k) b := by
    intro n pg hn h1
    rw [hrd (x := .base n) (y := .base pg) hn (by rw [h1]; exact hub), h1, hb]
  cases smo with
  | consolidate n =>
    cases s with
    | consolidate pg => exact one hs (c2 _ _ ht)
    | split l r => exact hs.elim
    | merge pg => exact hs.elim
  | merge n =>
    cases s with
    | merge pg => exact one hs (c3 _ _ ht)
    | split l r => exact hs.elim
    | consolidate pg => exact hs.elim
  | split nl nr =>
    cases s with
    | split l r =>
      intro rp
      have h1 := c4 _ _ _ rp ht
      have h2 : readPair k rp nl nr ≠ .ub := by rw [h1]; exact hub
      rw [hb, ← h1]
      unfold readPair at h2 ⊢
      unfold bReadPair
      have h3 : readChain k (.base { nl with next := rp }) ≠ .ub := by
        intro h; rw [h] at h2; exact h2 rfl
      rw [hrd (x := .base { nl with next := rp }) (y := .base { l with next := rp })
        (setNext_img hs.1 rp) h3]
      cases hq : readChain k (.base { nl with next := rp }) with
      | ret o => rfl
      | removed => rfl
      | ub => exact absurd hq h3
      | sibling p =>
        rw [hq] at h2
        simp only [Enc.rd] at h2 ⊢
        by_cases hpr : p = rp
        · rw [if_pos hpr] at h2 ⊢
          rw [if_pos hpr]
          exact hrd (x := .base nr) hs.2 h2
        · rw [if_neg hpr, if_neg hpr]
    | consolidate pg => exact hs.elim
    | merge pg => exact hs.elim

section
variable {mk : Nat} [LinearOrder (KStr mk)]

/-- In every execution on bytes, consolidation of a leaf succeeds, and a reader of any key gets from
the bytes of the new pages exactly what it gets from the bytes of the chain.  Partial: executions stop
at the events of `Flag`. -/
theorem C61_consolidated_bytes_partial (hP : P.OK mk)
    (hlt : ∀ a b : KStr mk, P.lt a.1 b.1 = decide (a < b)) {m : Mem}
    {h : List (Spec.Event Str Str)} {B : BSys (varLay P)}
    (hr : BRun (varLay P) (okCall P mk) (bstart (varLay P) m) h B)
    (hlim : B.sh.npid ≤ 256 ^ P.pid) {p : PID} {hd : Head BChain} (hm : B.sh.mt p = some hd)
    (hl : (varLay P).liveLeaf hd.ch = true) (m1 m2 : Mem) :
    ∃ s, (varLay P).cons m1 m2 hd.ch = some s ∧
      ∀ k, okKey mk k → SameReads P k hd.ch s := by
  have hc := vpar_cfg hP
  have hp := vpar_lay hP hlt
  have hL := varLay_ok hc hp (vpar_cap hP)
  obtain ⟨h', hist, S, h1, h2, h3⟩ := bytes_refine hc hp (vpar_cap hP) okCall_enc hr hlim
  obtain ⟨h4, h5, h6⟩ := h3.sh.head p hd hm
  have hrem := hL.isRemoved h6
  have hleaf := hL.isLeaf h6
  simp only [Lay.liveLeaf, Bool.and_eq_true, Bool.not_eq_true'] at hl
  rw [hrem] at hl
  rw [hleaf] at hl
  have ho := slots_ok hc .empty h2 (h3.sh.npid ▸ hlim) p _ h5
  rcases ho.2 with hx | ⟨inner, low, hwf, hsz⟩
  · rw [hl.2] at hx; cases hx
  · have hin : inner = false := by
      have := hwf.isLeaf
      rw [hl.1] at this
      simpa using this.symm
    subst hin
    cases ht : tryConsolidate (P.cfg mk) false (hist hd.id) with
    | none =>
      exact absurd ht (C22_nodes_fit_partial hc ⟨_, _, .empty, h2⟩ h5 hl.2).2.2.2.1
    | some smo =>
      obtain ⟨s, g1, g2⟩ := hL.cons h6 ho ht m1 m2
      exact ⟨s, g1, fun k hk => same_reads hc hp hwf h6.1 ht (smoI_img g2) ⟨k, hk⟩⟩

/-! ## C62: executions on bytes -/

/-- Every history of operations and scans on bytes is linearizable to a map from strings to strings,
and no thread meets undefined behaviour, whatever the bytes of recycled pages.  Partial: executions
stop at the events of `Flag`; the page IDs handed out fit in a word. -/
theorem C62_bytes_linearizable_partial (hP : P.OK mk)
    (hlt : ∀ a b : KStr mk, P.lt a.1 b.1 = decide (a < b)) {m : Mem}
    {h : List (Spec.Event Str Str)} {B : BSys (varLay P)}
    (hr : BRun (varLay P) (okCall P mk) (bstart (varLay P) m) h B)
    (hlim : B.sh.npid ≤ 256 ^ P.pid) :
    (∃ h' : List (Spec.Event (KStr mk) (VStr P.pay)), h = h'.map (event (P.enc mk)) ∧
      ∃ log, Spec.Linearizes (fun _ => none) h' log) ∧
    (∀ t c, B.th t ≠ .run c .ub) ∧
    ∃ S : Sys (KStr mk) (VStr P.pay), Reachable (P.cfg mk) (fun _ => none) S ∧
      B.sh.root = S.sh.root ∧ ∀ p, (B.sh.mt p = none → S.sh.mt p = none) ∧
        ∀ hd, B.sh.mt p = some hd → ∃ c, S.sh.mt p = some c ∧ CImg P.c (P.enc mk) c hd.ch := by
  have hc := vpar_cfg hP
  have hp := vpar_lay hP hlt
  obtain ⟨h', hist, S, h1, h2, h3⟩ := bytes_refine hc hp (vpar_cap hP) okCall_enc hr hlim
  refine ⟨⟨h', h1, (C01_linearizable_partial hc .empty h2).1⟩, bytes_noub hc .empty h2 h3,
    S, ⟨_, _, .empty, h2⟩, h3.sh.root, fun p => ⟨h3.sh.null p, fun hd hm => ?_⟩⟩
  obtain ⟨_, h5, h6⟩ := h3.sh.head p hd hm
  exact ⟨_, h5, h6.1⟩

end

/-! ### Examples -/

/-- A key of one to five equal bytes. -/
def strKey (i : Nat) : Str := List.replicate (1 + i % 5) (UInt8.ofNat i)

/-- A payload. -/
def strVal (i : Nat) : Str := [UInt8.ofNat i, 1, 2, 3, 4, 5, 6, 7]

/-- Sixteen insertions (the leaf is split), a read, a scan over two leaves, a removal, a read and
a write. -/
def strCalls : List BCall :=
  (List.range 16).map (fun i => .op (.insert (strKey (7 * i % 31)) (strVal i))) ++
    [.op (.read (strKey 7)), .visit (some (strKey 8, true)) none, .next, .op (.delete (strKey 7)),
     .op (.read (strKey 7)), .op (.write (strKey 3) (strVal 0))]

instance (s : Str) : Decidable (okKey 8 s) := inferInstanceAs (Decidable (_ ∧ _))

instance : (c : Spec.Call Str Str) → Decidable (okCall exPar 8 c)
  | .op (.read _) | .op (.delete _) => inferInstanceAs (Decidable (okKey 8 _))
  | .op (.write _ _) | .op (.insert _ _) | .op (.update _ _) =>
    inferInstanceAs (Decidable (okKey 8 _ ∧ _))
  | .visit none none => isTrue ⟨trivial, trivial⟩
  | .visit (some _) none => inferInstanceAs (Decidable (okKey 8 _ ∧ True))
  | .visit none (some _) => inferInstanceAs (Decidable (True ∧ okKey 8 _))
  | .visit (some _) (some _) => inferInstanceAs (Decidable (okKey 8 _ ∧ okKey 8 _))

instance : (c : BCall) → Decidable (c.Legal (okCall exPar 8))
  | .op o => inferInstanceAs (Decidable (okCall exPar 8 (.op o)))
  | .visit b e => inferInstanceAs (Decidable (okCall exPar 8 (.visit b e)))
  | .next => isTrue trivial

set_option maxRecDepth 100000 in
/-- The execution of `strCalls` reads, scans across the split and removes; the first leaf carries delta
records. -/
theorem strCalls_run : ∃ h B, BRun (varLay exPar) (okCall exPar 8) (bstart (varLay exPar) fun _ => 7) h B ∧
    (brets h).drop 16 =
      [.res (.payload (some (strVal 1))),
       .page [(strKey 8, strVal 10)] (some (strKey 11)),
       .page [(strKey 11, strVal 6), (strKey 12, strVal 15), (strKey 14, strVal 2), (strKey 15, strVal 11),
         (strKey 18, strVal 7), (strKey 21, strVal 3), (strKey 22, strVal 12), (strKey 25, strVal 8),
         (strKey 28, strVal 4), (strKey 29, strVal 13)] none,
       .res .success, .res (.payload none), .res .success] ∧
    B.sh.npid ≤ 256 ^ exPar.pid ∧
    ∃ hd, B.sh.mt 1 = some hd ∧ (varLay exPar).liveLeaf hd.ch = true ∧ BChain.isDelta hd.ch = true := by
  have hx : ((execAll (L := varLay exPar) 40 1000 (bstart (varLay exPar) fun _ => 7) strCalls).elim
      false fun x => decide (x.1.drop 16 =
      [.res (.payload (some (strVal 1))),
       .page [(strKey 8, strVal 10)] (some (strKey 11)),
       .page [(strKey 11, strVal 6), (strKey 12, strVal 15), (strKey 14, strVal 2), (strKey 15, strVal 11),
         (strKey 18, strVal 7), (strKey 21, strVal 3), (strKey 22, strVal 12), (strKey 25, strVal 8),
         (strKey 28, strVal 4), (strKey 29, strVal 13)] none,
       .res .success, .res (.payload none), .res .success]) && decide (x.2.sh.npid = 4) &&
       (x.2.sh.mt 1).elim false fun hd => (varLay exPar).liveLeaf hd.ch && BChain.isDelta hd.ch) =
      true := by decide +kernel
  cases he : execAll (L := varLay exPar) 40 1000 (bstart (varLay exPar) fun _ => 7) strCalls with
  | none => rw [he] at hx; cases hx
  | some x =>
    rw [he] at hx
    obtain ⟨rs, B⟩ := x
    simp only [Option.elim_some, Bool.and_eq_true, decide_eq_true_eq] at hx
    obtain ⟨⟨h1, h2⟩, h3⟩ := hx
    obtain ⟨h', r1, r2⟩ := execAll_sound (legal := okCall exPar 8) (by decide +kernel) rfl .nil he
    refine ⟨h', B, r1, by rw [r2]; exact h1, by rw [h2]; decide, ?_⟩
    cases hm : B.sh.mt 1 with
    | none => rw [hm] at h3; cases h3
    | some hd =>
      rw [hm] at h3
      simp only [Option.elim_some, Bool.and_eq_true] at h3
      exact ⟨hd, rfl, h3⟩

example : ∃ h B, BRun (varLay exPar) (okCall exPar 8) (bstart (varLay exPar) fun _ => 7) h B ∧
    ∃ hd, B.sh.mt 1 = some hd ∧ BChain.isDelta hd.ch = true ∧
      ∃ s, (varLay exPar).cons (fun _ => 7) (fun _ => 9) hd.ch = some s ∧
        SameReads exPar (strKey 7) hd.ch s := by
  obtain ⟨h, B, h1, _, h2, hd, h3, h4, h5⟩ := strCalls_run
  obtain ⟨s, g1, g2⟩ :=
    C61_consolidated_bytes_partial exPar_ok exPar_lt h1 h2 h3 h4 (fun _ => 7) (fun _ => 9)
  exact ⟨h, B, h1, hd, h3, h5, s, g1, g2 _ (by decide)⟩

example : ∃ h B, BRun (varLay exPar) (okCall exPar 8) (bstart (varLay exPar) fun _ => 7) h B ∧
    .res (.payload (some (strVal 1))) ∈ brets h ∧
    ∃ h' : List (Spec.Event (KStr 8) (VStr 8)), h = h'.map (event (exPar.enc 8)) ∧
      ∃ log, Spec.Linearizes (fun _ => none) h' log := by
  obtain ⟨h, B, h1, h0, h2, _⟩ := strCalls_run
  exact ⟨h, B, h1, List.mem_of_mem_drop (by rw [h0]; exact List.mem_cons_self ..),
    (C62_bytes_linearizable_partial exPar_ok exPar_lt h1 h2).1⟩

end BwTree.Props
