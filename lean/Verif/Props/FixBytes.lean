import Verif.Fix.FixSim
import Verif.Fix.Start
import Verif.Fix.BulkSim
import Verif.Props.Bytes
import Verif.Props.Layout

/-!
# Properties of trees on the bytes of fixed-length pages
-/

namespace BwTree.Props

open Fix
open Layout (Mem Enc BRd Framed alignUp fDeltaCap)
open Bytes (VStr Lay LSmo SmoI BSys BRun bstart SysI HeadOK Head BCall brets execAll execAll_sound event pidOf
  pidBytes pidBytes_length split_le size_le_two)

set_option linter.unusedSectionVars false

variable {P : FPar} [LinearOrder (VStr P.c.klen)]

theorem fpar_cfg (h : P.OK) : CfgOK2 P.cfg where
  leaf := h.fits false
  idx := h.fits true
  leafPos := h.len false
  idxPos := h.len true
  hdrPos := h.pos
  keys := fun _ => Nat.le_refl 0
  var := Or.inl rfl
  maxPos := h.delta
  rootFits := h.root
  min := fun inner => by cases inner
                         · exact h.min false
                         · exact h.min true
  minVar := Or.inl rfl

theorem fpar_lay (h : P.OK) (hlt : ∀ a b : VStr P.c.klen, P.lt a.1 b.1 = decide (a < b)) :
    FixPar P.cfg P.enc P where
  enc := ⟨rfl, rfl, rfl, by have := h.fits true; omega, h.pos, h.pow, h.keys, h.blk, fun _ => rfl,
    rfl, fun k => k.2, fun v => v.2, fun p => pidBytes_length _ p, rfl, rfl, hlt, h.lim⟩
  pids := fun _ => rfl
  thr := rfl
  maxDelta := rfl
  buf := rfl

/-- A tree at the start holds a tree of the model. -/
theorem fstart_sim (hP : P.OK) (hlt : ∀ a b : VStr P.c.klen, P.lt a.1 b.1 = decide (a < b))
    {m : VStr P.c.klen → Option (VStr P.pay)} {B₀ : BSys (fixLay P)} (hs : FStart P m B₀) :
    ∃ sh hist, Init P.cfg m sh ∧
      SysI (HeadOK P.cfg (256 ^ P.pid)) (ChI P P.enc) P.enc hist (Sys.start sh) B₀ := by
  cases hs with
  | empty m =>
    exact ⟨_, _, .empty, Bytes.start_sim (fixLay_ok (fpar_cfg hP) (fpar_lay hP hlt)) m⟩
  | @bulk mem ids threads es T root npid pid inj fresh ne sorted run bound =>
    obtain ⟨T', h1, h2⟩ := bulkload_sim (fpar_lay hP hlt) pid run
    have hget : ∀ p n, T' p = some n → ∃ nd, T p = some nd ∧ NR P P.enc mem p n nd := by
      intro p n hp
      rcases h2 p with ⟨e, _⟩ | ⟨n', nd, e1, e2, e3⟩
      · rw [e] at hp; cases hp
      · rw [e1] at hp; cases hp; exact ⟨nd, e2, e3⟩
    refine ⟨bulkSh T' root npid, fun i => match T' i with
        | some n => .base n
        | none => .base (emptyLeaf P.cfg),
      .bulk (Or.inl fun _ => rfl) inj fresh ne sorted h1 fun p n hp => ?_, ⟨fun p hp => ?_, fun p x hp => ?_,
        rfl, rfl, rfl, rfl⟩, fun G _ t => trivial, fun t => rfl⟩
    · obtain ⟨nd, e, _⟩ := hget p n hp
      exact bound p nd e
    · have hp : (T p).map (fun nd => (⟨p, .base nd⟩ : Head Fix.BChain)) = none := hp
      show (T' p).map _ = none
      cases ht : T' p with
      | none => rfl
      | some n =>
        obtain ⟨nd, e, _⟩ := hget p n ht
        rw [e] at hp; cases hp
    · have hp : (T p).map (fun nd => (⟨p, .base nd⟩ : Head Fix.BChain)) = some x := hp
      cases ht : T p with
      | none => rw [ht] at hp; cases hp
      | some nd =>
        rw [ht] at hp
        cases hp
        obtain ⟨n, e1, e2⟩ := h2.get ht
        refine ⟨bound p nd ht, ?_, ?_⟩
        · show (T' p).map _ = some _
          simp only [e1, Option.map_some]
        · show ChI P P.enc (match T' p with | some n => .base n | none => .base (emptyLeaf P.cfg)) _
          simp only [e1]
          exact e2.img

/-- Every execution on bytes is an execution on records, in memory and in what calls return. -/
theorem fix_refine (hP : P.OK) (hlt : ∀ a b : VStr P.c.klen, P.lt a.1 b.1 = decide (a < b))
    {m : VStr P.c.klen → Option (VStr P.pay)} {B₀ : BSys (fixLay P)} (hs : FStart P m B₀)
    {h : List (Spec.Event Str Str)} {B : BSys (fixLay P)} (hr : BRun (fixLay P) (okCall P) B₀ h B)
    (hlim : B.sh.npid ≤ 256 ^ P.pid) :
    ∃ sh h' hist S, Init P.cfg m sh ∧ h = h'.map (event P.enc) ∧ Run P.cfg (Sys.start sh) h' S ∧
      SysI (HeadOK P.cfg (256 ^ P.pid)) (ChI P P.enc) P.enc hist S B := by
  obtain ⟨sh, hist, hi, h0⟩ := fstart_sim hP hlt hs
  obtain ⟨h', hist', S, h1, h2, h3⟩ := Bytes.run_sim (fixLay_ok (fpar_cfg hP) (fpar_lay hP hlt))
    okCall_enc h0 (fun _ _ hr => (C01_linearizable_partial (fpar_cfg hP) hi hr).2)
    (fun _ _ hr hl => slots_ok (fpar_cfg hP) hi hr hl) hr hlim
  exact ⟨sh, h', hist', S, hi, h1, h2, h3⟩

/-! ## C64: consolidation on bytes -/

/-- What a reader of `key` gets from the bytes of a split pair; the left page leads to page `rp`. -/
def fReadPair (P : FPar) (key : Str) (rp : PID) (l r : FNode) : BRd :=
  match Fix.bRead P P.pay key (.base { l with next := rp }) with
  | .sibling p => if p = rp then Fix.bRead P P.pay key (.base r) else .sibling p
  | x => x

/-- A reader gets from the new pages what it got from the chain. -/
def FSameReads (P : FPar) (key : Str) (b : Fix.BChain) : LSmo FNode → Prop
  | .consolidate nd | .merge nd => Fix.bRead P P.pay key (.base nd) = Fix.bRead P P.pay key b
  | .split l r => ∀ rp, fReadPair P key rp l r = Fix.bRead P P.pay key b

theorem fix_same_reads {K V : Type} [LinearOrder K] {cfg : Cfg K} {e : Enc K V} (hc : CfgOK2 cfg)
    (hp : FixPar cfg e P) {ch : Chain K V} {b : Fix.BChain}
    {low : Option K} (hw : ChainWF cfg false low ch) (hi : Fix.CImg P e ch b) {smo : SMO K V}
    (ht : tryConsolidate cfg false ch = some smo) {s : LSmo FNode} (hs : SmoI (Fix.NImg P e) smo s)
    (k : K) : FSameReads P (e.key k) b s := by
  have hrd : ∀ {x : Chain K V} {y : Fix.BChain}, Fix.CImg P e x y → readChain k x ≠ .ub →
      Fix.bRead P P.pay (e.key k) y = e.rd (readChain k x) :=
    fun h1 h2 => Fix.bRead_sim hp.enc k h1 h2
  obtain ⟨_, c2, c3, c4⟩ := C15_chain_read_eq_consolidated_read hc.toCfgOK hw k
  have hub : readChain k ch ≠ .ub := by
    by_cases hk : HighOK ch.high k true
    · obtain ⟨o, e1, _⟩ := (readChain_spec hw k).2 hk
      rw [e1]; exact fun h => by cases h
    · rw [(readChain_spec hw k).1 hk]; exact fun h => by cases h
  have hb := hrd hi hub
  have one : ∀ {n : Node K V} {nd : FNode}, Fix.NImg P e n nd →
      readChain k (.base n) = readChain k ch →
      Fix.bRead P P.pay (e.key k) (.base nd) = Fix.bRead P P.pay (e.key k) b := by
    intro n nd hn h1
    rw [hrd (x := .base n) (y := .base nd) hn (by rw [h1]; exact hub), h1, hb]
  cases smo with
  | consolidate n =>
    cases s with
    | consolidate pg => exact one hs (c2 _ _ ht)
    | split l r => exact hs.elim
    | merge pg => exact hs.elim
  | merge n =>
    cases s with
    | merge pg => exact one hs (c3 _ _ ht)
    | split l r => exact hs.elim
    | consolidate pg => exact hs.elim
  | split nl nr =>
    cases s with
    | split l r =>
      intro rp
      have h1 := c4 _ _ _ rp ht
      have h2 : readPair k rp nl nr ≠ .ub := by rw [h1]; exact hub
      rw [hb, ← h1]
      unfold readPair at h2 ⊢
      unfold fReadPair
      have h3 : readChain k (.base { nl with next := rp }) ≠ .ub := by
        intro h; rw [h] at h2; exact h2 rfl
      rw [hrd (x := .base { nl with next := rp }) (y := .base { l with next := rp })
        (Fix.setNext_img hs.1 rp) h3]
      cases hq : readChain k (.base { nl with next := rp }) with
      | ret o => rfl
      | removed => rfl
      | ub => exact absurd hq h3
      | sibling p =>
        rw [hq] at h2
        simp only [Enc.rd] at h2 ⊢
        by_cases hpr : p = rp
        · rw [if_pos hpr] at h2 ⊢
          rw [if_pos hpr]
          exact hrd (x := .base nr) hs.2 h2
        · rw [if_neg hpr, if_neg hpr]
    | consolidate pg => exact hs.elim
    | merge pg => exact hs.elim

/-- In every execution on the bytes of fixed-length pages, consolidation of a leaf succeeds, and a
reader of any key gets from the bytes of the new pages exactly what it gets from the bytes of the chain.
Partial: executions stop at the events of `Flag`. -/
theorem C64_consolidated_fix_bytes_partial (hP : P.OK)
    (hlt : ∀ a b : VStr P.c.klen, P.lt a.1 b.1 = decide (a < b))
    {m : VStr P.c.klen → Option (VStr P.pay)} {B₀ : BSys (fixLay P)} (hs : FStart P m B₀)
    {h : List (Spec.Event Str Str)} {B : BSys (fixLay P)} (hr : BRun (fixLay P) (okCall P) B₀ h B)
    (hlim : B.sh.npid ≤ 256 ^ P.pid) {p : PID} {hd : Head Fix.BChain} (hm : B.sh.mt p = some hd)
    (hl : (fixLay P).liveLeaf hd.ch = true) (m1 m2 : Mem) :
    ∃ s, (fixLay P).cons m1 m2 hd.ch = some s ∧
      ∀ k, k.length = P.c.klen → FSameReads P k hd.ch s := by
  have hc := fpar_cfg hP
  have hp := fpar_lay hP hlt
  have hL := fixLay_ok hc hp
  obtain ⟨sh, h', hist, S, hi, h1, h2, h3⟩ := fix_refine hP hlt hs hr hlim
  obtain ⟨h4, h5, h6⟩ := h3.sh.head p hd hm
  have hrem := hL.isRemoved h6
  have hleaf := hL.isLeaf h6
  simp only [Lay.liveLeaf, Bool.and_eq_true, Bool.not_eq_true'] at hl
  rw [hrem] at hl
  rw [hleaf] at hl
  have ho := slots_ok hc hi h2 (h3.sh.npid ▸ hlim) p _ h5
  rcases ho.2 with hx | ⟨inner, low, hwf, hsz⟩
  · rw [hl.2] at hx; cases hx
  · have hin : inner = false := by
      have := hwf.isLeaf
      rw [hl.1] at this
      simpa using this.symm
    subst hin
    cases ht : tryConsolidate P.cfg false (hist hd.id) with
    | none =>
      exact absurd ht (C22_nodes_fit_partial hc ⟨_, _, hi, h2⟩ h5 hl.2).2.2.2.1
    | some smo =>
      obtain ⟨s, g1, g2⟩ := hL.cons h6 ho ht m1 m2
      exact ⟨s, g1, fun k hk => fix_same_reads hc hp hwf h6.1 ht (Fix.smoI_img g2) ⟨k, hk⟩⟩

/-! ## C65: executions on bytes -/

/-- Every history of operations and scans on the bytes of fixed-length pages is linearizable to a map
from strings to strings, and no thread meets undefined behaviour, whatever the bytes of recycled pages.
Partial: executions stop at the events of `Flag`; the page IDs handed out fit in a word. -/
theorem C65_fix_bytes_linearizable_partial (hP : P.OK)
    (hlt : ∀ a b : VStr P.c.klen, P.lt a.1 b.1 = decide (a < b))
    {m : VStr P.c.klen → Option (VStr P.pay)} {B₀ : BSys (fixLay P)} (hs : FStart P m B₀)
    {h : List (Spec.Event Str Str)} {B : BSys (fixLay P)} (hr : BRun (fixLay P) (okCall P) B₀ h B)
    (hlim : B.sh.npid ≤ 256 ^ P.pid) :
    (∃ h' : List (Spec.Event (VStr P.c.klen) (VStr P.pay)), h = h'.map (event P.enc) ∧
      ∃ log, Spec.Linearizes m h' log) ∧
    (∀ t c, B.th t ≠ .run c .ub) ∧
    ∃ S : Sys (VStr P.c.klen) (VStr P.pay), Reachable P.cfg m S ∧
      B.sh.root = S.sh.root ∧ ∀ p, (B.sh.mt p = none → S.sh.mt p = none) ∧
        ∀ hd, B.sh.mt p = some hd → ∃ c, S.sh.mt p = some c ∧ Fix.CImg P P.enc c hd.ch := by
  have hc := fpar_cfg hP
  obtain ⟨sh, h', hist, S, hi, h1, h2, h3⟩ := fix_refine hP hlt hs hr hlim
  refine ⟨⟨h', h1, (C01_linearizable_partial hc hi h2).1⟩, bytes_noub hc hi h2 h3,
    S, ⟨_, _, hi, h2⟩, h3.sh.root, fun p => ⟨h3.sh.null p, fun hd hm => ?_⟩⟩
  obtain ⟨_, h5, h6⟩ := h3.sh.head p hd hm
  exact ⟨_, h5, h6.1⟩

/-! ## C66: bytes are read and written inside pages -/

/-- In every execution on the bytes of fixed-length pages, the payloads of the nodes in the mapping
table (and of nodes to be merged) lie behind the keys and inside the page.  Partial: executions stop
at the events of `Flag`. -/
theorem C66_reads_partial (hP : P.OK)
    (hlt : ∀ a b : VStr P.c.klen, P.lt a.1 b.1 = decide (a < b))
    {m : VStr P.c.klen → Option (VStr P.pay)} {B₀ : BSys (fixLay P)} (hs : FStart P m B₀)
    {h : List (Spec.Event Str Str)} {B : BSys (fixLay P)} (hr : BRun (fixLay P) (okCall P) B₀ h B)
    (hlim : B.sh.npid ≤ 256 ^ P.pid) {p : PID} {hd : Head Fix.BChain} (hm : B.sh.mt p = some hd) :
    Fix.BChain.Boxed P hd.ch := by
  obtain ⟨sh, h', hist, S, hi, h1, h2, h3⟩ := fix_refine hP hlt hs hr hlim
  exact (h3.sh.head p hd hm).2.2.2

/-- In every execution on the bytes of fixed-length pages, consolidation of a node succeeds and leaves
the bytes of its pages unchanged before the keys and behind the end of the page; so does consolidation
for a scan, into the page of double size of the thread.  Partial: executions stop at the events of
`Flag`. -/
theorem C66_consolidation_writes_partial (hP : P.OK)
    (hlt : ∀ a b : VStr P.c.klen, P.lt a.1 b.1 = decide (a < b))
    {m : VStr P.c.klen → Option (VStr P.pay)} {B₀ : BSys (fixLay P)} (hs : FStart P m B₀)
    {h : List (Spec.Event Str Str)} {B : BSys (fixLay P)} (hr : BRun (fixLay P) (okCall P) B₀ h B)
    (hlim : B.sh.npid ≤ 256 ^ P.pid) {p : PID} {hd : Head Fix.BChain} (hm : B.sh.mt p = some hd)
    (hl : (fixLay P).isRemoved hd.ch = false) (m1 m2 : Mem) (scan : Bool) :
    ∃ bs, Fix.bTryConsolidate P m1 m2 scan hd.ch = some bs ∧
      Fix.SFrame P (P.c.page * (if scan then 2 else 1)) m1 m2 bs := by
  have hc := fpar_cfg hP
  have hp := fpar_lay hP hlt
  have hL := fixLay_ok hc hp
  obtain ⟨sh, h', hist, S, hi, h1, h2, h3⟩ := fix_refine hP hlt hs hr hlim
  obtain ⟨h4, h5, h6⟩ := h3.sh.head p hd hm
  have hrem := hL.isRemoved h6
  rw [hl] at hrem
  obtain ⟨_, _, _, f4, n, f5, _⟩ := C22_nodes_fit_partial hc ⟨_, _, hi, h2⟩ h5 hrem.symm
  rcases (slots_ok hc hi h2 (h3.sh.npid ▸ hlim) p _ h5).2 with hx | ⟨inner, low, hwf, hsz⟩
  · rw [← hrem] at hx; cases hx
  · have hcons : ∃ smo, tryConsolidate P.cfg scan (hist hd.id) = some smo := by
      cases scan with
      | true => exact ⟨_, f5⟩
      | false => exact Option.ne_none_iff_exists'.1 f4
    obtain ⟨smo, ht⟩ := hcons
    obtain ⟨bs, g1, _, g2⟩ := Fix.bTryConsolidate_sim hp.enc hc.toCfgOK hwf h6.1 m1 m2 scan
      (fun _ => size_le_two hc hsz) (fun l r h => by
        cases scan with
        | true => rw [f5] at h; cases h
        | false => exact split_le hc hwf hsz h) ht
    exact ⟨bs, g1, g2⟩

omit [LinearOrder (VStr P.c.klen)] in
/-- The delta records of reads, writes and structure modifications leave the bytes of their pages
unchanged before the payload and behind the end of the page (`GetMaxDeltaSize`), and the payload that is
read lies in the page. -/
theorem C66_delta_writes (hblk : P.blk ≤ P.dh) (hpid : P.pid = 8) (hlen : P.dh + P.pay < 2 ^ 31)
    (old : Mem) : P.blk + P.pay ≤ fDeltaCap P.dh P.pay ∧ P.blk + P.pid ≤ fDeltaCap P.dh P.pay ∧
    alignUp 3 P.dh + P.pid ≤ fDeltaCap P.dh P.pay ∧
    (∀ k v : Str, v.length = P.pay →
      Framed P.blk (fDeltaCap P.dh P.pay) old (FRec.put P old k v).mem) ∧
    (∀ k : Str, Framed P.blk (fDeltaCap P.dh P.pay) old (FRec.del P old k).mem) ∧
    ∀ (r : FRec) (word : Str), word.length = P.pid →
      (∀ inner, Framed P.blk (fDeltaCap P.dh P.pay) old (FRec.entry P old inner r word).mem) ∧
      Framed P.blk (fDeltaCap P.dh P.pay) old (FRec.idxDel P old r word).mem := by
  have hcap : fDeltaCap P.dh P.pay = (P.dh + max P.pay 8 + 63) / 64 * 64 := by
    unfold fDeltaCap; exact Layout.alignUp_eq 6 _ (by decide) (by omega)
  have hal : alignUp 3 P.dh = (P.dh + 7) / 8 * 8 := Layout.alignUp_eq 3 _ (by decide) (by omega)
  have h0 : Framed P.blk (fDeltaCap P.dh P.pay) old old := fun _ _ => rfl
  have h1 : P.blk + P.pay ≤ fDeltaCap P.dh P.pay := by omega
  have h2 : P.blk + P.pid ≤ fDeltaCap P.dh P.pay := by omega
  have h3 : alignUp 3 P.dh + P.pid ≤ fDeltaCap P.dh P.pay := by omega
  refine ⟨h1, h2, h3, fun k v hv => ?_, fun k => h0, fun r word hw => ⟨fun inner => ?_, ?_⟩⟩
  · exact Fix.framed_write h0 (Nat.le_refl _) (by omega)
  · exact Fix.framed_write h0 (Nat.le_refl _) (by omega)
  · exact Fix.framed_write h0 (by omega) (by omega)

omit [LinearOrder (VStr P.c.klen)] in
/-- A new root is written inside its page. -/
theorem C66_root_writes (hP : P.OK) (old : Mem) (left : Str) (hl : left.length = P.pid) (d : FRec)
    (hk : d.key.length = P.c.klen) :
    Framed P.c.keys P.c.page old (FNode.newRoot P.c old left d).pg.mem := by
  have h1 := hP.root
  have h2 := hP.keys
  have plen : (d.mem.read P.c.keys left.length).length = left.length := Mem.length_read ..
  refine Fix.framed_write (Fix.framed_write (Fix.framed_write (fun _ _ => rfl) ?_ ?_) ?_ ?_) ?_ ?_ <;>
    (try simp only [plen]) <;> omega

/-! ### Examples -/

theorem pidOf_inj : ∀ (w : Nat) (a b : Str), a.length = w → b.length = w → pidOf a = pidOf b → a = b
  | 0, [], [], _, _, _ => rfl
  | w + 1, x :: xs, y :: ys, h1, h2, h => by
    simp only [pidOf] at h
    have hx := x.toNat_lt
    have hy := y.toNat_lt
    have key : ∀ p q : Nat, x.toNat + 256 * p = y.toNat + 256 * q → x.toNat = y.toNat ∧ p = q := by
      intro p q h; omega
    obtain ⟨e1, e2⟩ := key (pidOf xs) (pidOf ys) h
    rw [UInt8.toNat_inj.1 e1, pidOf_inj w xs ys (by simpa using h1) (by simpa using h2) e2]

/-- Keys of eight bytes, little endian. -/
instance : LinearOrder (VStr 8) := LinearOrder.lift' (fun k => (pidOf k.1 : Nat))
  fun a b h => Subtype.ext (pidOf_inj 8 _ _ a.2 b.2 h)

/-- Pages of 256 bytes, payloads of 8 bytes, keys are unsigned integers of eight bytes. -/
def fexPar : FPar :=
  { c := ⟨256, 32, 32, 8⟩, dh := 32, blk := 32, pay := 8, pid := 8, minSize := 48, thr := 2
    maxDelta := 64, lt := fun a b => Nat.blt (pidOf a) (pidOf b) }

theorem fexPar_ok : fexPar.OK where
  pow := ⟨8, by decide, rfl⟩
  pos := by decide
  keys := by decide
  blk := rfl
  len := by decide
  fits := by decide
  lim := by decide
  root := by decide
  delta := by decide
  min := by decide

instance : LinearOrder (VStr fexPar.c.klen) := inferInstanceAs (LinearOrder (VStr 8))

theorem fexPar_lt (a b : VStr fexPar.c.klen) : fexPar.lt a.1 b.1 = decide (a < b) := by
  show Nat.blt (pidOf a.1) (pidOf b.1) = _
  rw [Bool.eq_iff_iff, Nat.blt_eq, decide_eq_true_eq]
  exact Iff.rfl

/-- A key. -/
def fixKey (i : Nat) : Str := pidBytes 8 (i * 100)

/-- Sixteen insertions (the leaf is split), a read, a scan over two leaves, a removal, a read and
a write. -/
def fixCalls : List BCall :=
  (List.range 16).map (fun i => .op (.insert (fixKey (7 * i % 31)) (strVal i))) ++
    [.op (.read (fixKey 7)), .visit (some (fixKey 8, true)) none, .next, .op (.delete (fixKey 7)),
     .op (.read (fixKey 7)), .op (.write (fixKey 3) (strVal 0))]

instance : (c : Spec.Call Str Str) → Decidable (okCall fexPar c)
  | .op (.read _) | .op (.delete _) => inferInstanceAs (Decidable (_ = _))
  | .op (.write _ _) | .op (.insert _ _) | .op (.update _ _) =>
    inferInstanceAs (Decidable (_ = _ ∧ _))
  | .visit none none => isTrue ⟨trivial, trivial⟩
  | .visit (some _) none => inferInstanceAs (Decidable (_ = _ ∧ True))
  | .visit none (some _) => inferInstanceAs (Decidable (True ∧ _ = _))
  | .visit (some _) (some _) => inferInstanceAs (Decidable (_ = _ ∧ _ = _))

instance : (c : BCall) → Decidable (c.Legal (okCall fexPar))
  | .op o => inferInstanceAs (Decidable (okCall fexPar (.op o)))
  | .visit b e => inferInstanceAs (Decidable (okCall fexPar (.visit b e)))
  | .next => isTrue trivial

set_option maxRecDepth 100000 in
/-- The execution of `fixCalls` reads, scans across the split and removes; the right leaf carries a
delta record. -/
theorem fixCalls_run : ∃ h B, BRun (fixLay fexPar) (okCall fexPar) (bstart (fixLay fexPar) fun _ => 7) h B ∧
    (brets h).drop 16 =
      [.res (.payload (some (strVal 1))),
       .page [(fixKey 8, strVal 10)] (some (fixKey 11)),
       .page [(fixKey 11, strVal 6), (fixKey 12, strVal 15), (fixKey 14, strVal 2), (fixKey 15, strVal 11),
         (fixKey 18, strVal 7), (fixKey 21, strVal 3), (fixKey 22, strVal 12), (fixKey 25, strVal 8),
         (fixKey 28, strVal 4), (fixKey 29, strVal 13)] none,
       .res .success, .res (.payload none), .res .success] ∧
    B.sh.npid ≤ 256 ^ fexPar.pid ∧
    ∃ hd, B.sh.mt 2 = some hd ∧ (fixLay fexPar).liveLeaf hd.ch = true ∧
      Fix.BChain.isDelta hd.ch = true := by
  have hx : ((execAll (L := fixLay fexPar) 40 1000 (bstart (fixLay fexPar) fun _ => 7) fixCalls).elim
      false fun x => decide (x.1.drop 16 =
      [.res (.payload (some (strVal 1))),
       .page [(fixKey 8, strVal 10)] (some (fixKey 11)),
       .page [(fixKey 11, strVal 6), (fixKey 12, strVal 15), (fixKey 14, strVal 2), (fixKey 15, strVal 11),
         (fixKey 18, strVal 7), (fixKey 21, strVal 3), (fixKey 22, strVal 12), (fixKey 25, strVal 8),
         (fixKey 28, strVal 4), (fixKey 29, strVal 13)] none,
       .res .success, .res (.payload none), .res .success]) && decide (x.2.sh.npid = 4) &&
       (x.2.sh.mt 2).elim false fun hd => (fixLay fexPar).liveLeaf hd.ch && Fix.BChain.isDelta hd.ch) =
      true := by decide +kernel
  cases he : execAll (L := fixLay fexPar) 40 1000 (bstart (fixLay fexPar) fun _ => 7) fixCalls with
  | none => rw [he] at hx; cases hx
  | some x =>
    rw [he] at hx
    obtain ⟨rs, B⟩ := x
    simp only [Option.elim_some, Bool.and_eq_true, decide_eq_true_eq] at hx
    obtain ⟨⟨h1, h2⟩, h3⟩ := hx
    obtain ⟨h', r1, r2⟩ := execAll_sound (legal := okCall fexPar) (by decide +kernel) rfl .nil he
    refine ⟨h', B, r1, by rw [r2]; exact h1, by rw [h2]; decide, ?_⟩
    cases hm : B.sh.mt 2 with
    | none => rw [hm] at h3; cases h3
    | some hd =>
      rw [hm] at h3
      simp only [Option.elim_some, Bool.and_eq_true] at h3
      exact ⟨hd, rfl, h3⟩

example : ∃ h B, BRun (fixLay fexPar) (okCall fexPar) (bstart (fixLay fexPar) fun _ => 7) h B ∧
    ∃ hd, B.sh.mt 2 = some hd ∧ Fix.BChain.isDelta hd.ch = true ∧
      ∃ s, (fixLay fexPar).cons (fun _ => 7) (fun _ => 9) hd.ch = some s ∧
        FSameReads fexPar (fixKey 7) hd.ch s := by
  obtain ⟨h, B, h1, _, h2, hd, h3, h4, h5⟩ := fixCalls_run
  obtain ⟨s, g1, g2⟩ :=
    C64_consolidated_fix_bytes_partial fexPar_ok fexPar_lt (.empty _) h1 h2 h3 h4 (fun _ => 7) (fun _ => 9)
  exact ⟨h, B, h1, hd, h3, h5, s, g1, g2 _ (by decide)⟩

example : ∃ h B, BRun (fixLay fexPar) (okCall fexPar) (bstart (fixLay fexPar) fun _ => 7) h B ∧
    .res (.payload (some (strVal 1))) ∈ brets h ∧
    ∃ h' : List (Spec.Event (VStr 8) (VStr 8)), h = h'.map (event fexPar.enc) ∧
      ∃ log, Spec.Linearizes (fun _ => none) h' log := by
  obtain ⟨h, B, h1, h0, h2, _⟩ := fixCalls_run
  exact ⟨h, B, h1, List.mem_of_mem_drop (by rw [h0]; exact List.mem_cons_self ..),
    (C65_fix_bytes_linearizable_partial fexPar_ok fexPar_lt (.empty _) h1 h2).1⟩

example : ∃ h B, BRun (fixLay fexPar) (okCall fexPar) (bstart (fixLay fexPar) fun _ => 7) h B ∧
    ∃ hd, B.sh.mt 2 = some hd ∧ Fix.BChain.isDelta hd.ch = true ∧
      Fix.BChain.Boxed fexPar hd.ch ∧ ∀ scan, ∃ bs,
        Fix.bTryConsolidate fexPar (fun _ => 7) (fun _ => 9) scan hd.ch = some bs ∧
          Fix.SFrame fexPar (256 * (if scan then 2 else 1)) (fun _ => 7) (fun _ => 9) bs := by
  obtain ⟨h, B, h1, _, h2, hd, h3, h4, h5⟩ := fixCalls_run
  simp only [Lay.liveLeaf, Bool.and_eq_true, Bool.not_eq_true'] at h4
  exact ⟨h, B, h1, hd, h3, h5, C66_reads_partial fexPar_ok fexPar_lt (.empty _) h1 h2 h3,
    fun scan => C66_consolidation_writes_partial fexPar_ok fexPar_lt (.empty _) h1 h2 h3 h4.2 _ _ scan⟩

example : fDeltaCap fexPar.dh fexPar.pay = 64 ∧
    (FRec.idxDel fexPar (fun _ => 7) ⟨true, fixKey 1, false, [], fun _ => 0, 0, 0⟩
      (pidBytes 8 0)).mem 39 = 0 := by decide +kernel

end BwTree.Props
