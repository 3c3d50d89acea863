import Verif.Fix.Cons
import Verif.Conc.System

/-!
# The constructors of delta records and nodes write what the model says (proofs, fixed-length layout)
-/

namespace BwTree.Fix

open Layout (Mem FCfg FPage Enc Framed)

variable {K V : Type} [LinearOrder K] {cfg : Cfg K} {P : FPar} {e : Enc K V}

set_option linter.unusedSectionVars false

theorem bnd_none (e : Enc K V) (bytes : Str) : Bnd e none false bytes :=
  ⟨rfl, fun _ h => (by cases h)⟩

theorem put_img (old : Mem) (ty : DType) (k : K) (v : V) :
    DImg P e (putDelta ty k v) ty (FRec.put P old (e.key k) (e.val v)) := by
  refine ⟨rfl, rfl, rfl, rfl, rfl, ?_, bnd_none e _⟩
  intro x _ hx
  cases hx
  exact Mem.read_write_self _ _ _

theorem del_img (old : Mem) (k : K) :
    DImg P e (delDelta (V := V) k) .delete (FRec.del P old (e.key k)) :=
  ⟨rfl, rfl, rfl, rfl, rfl, fun _ h => absurd rfl h, bnd_none e _⟩

theorem entry_img (old : Mem) {n : Node K V} {nd : FNode} (hn : NImg P e n nd) {sep : K}
    (hl : n.low = some sep) (p : PID) :
    DImg P e (entryDelta (V := V) sep n.high p) .insert
      (FRec.entry P old true nd.asRec (e.pid p)) := by
  refine ⟨rfl, rfl, rfl, rfl, hn.low.2 sep hl, ?_, hn.high⟩
  intro x _ hx
  cases hx
  exact Mem.read_write_self _ _ _

theorem merge_img (old : Mem) {n : Node K V} {nd : FNode} (hn : NImg P e n nd) {dk : K}
    (hl : n.low = some dk) (word : Str) :
    DImg P e (mergeDelta n dk) .merge (FRec.entry P old nd.inner nd.asRec word) := by
  refine ⟨rfl, hn.inner, rfl, rfl, hn.low.2 dk hl, ?_, hn.high⟩
  intro x _ hx
  cases hx

theorem idxDel_img (old : Mem) {n : Node K V} {nd : FNode} (hn : NImg P e n nd) {dk : K}
    (hl : n.low = some dk) (w : Nat) (word : Str) :
    DImg P e (deleteDelta (V := V) dk n.high w) .delete (FRec.idxDel P old nd.asRec word) :=
  ⟨rfl, rfl, rfl, rfl, hn.low.2 dk hl, fun _ h => absurd rfl h, hn.high⟩

theorem CImg.isDelta {ch : Chain K V} {b : BChain} (h : CImg P e ch b) : b.isDelta = ch.isDelta := by
  cases ch <;> cases b <;> first | exact h.elim | rfl

theorem CImg.cnt {ch : Chain K V} {b : BChain} (h : CImg P e ch b) : b.cnt = ch.cnt := by
  cases ch <;> cases b <;> try exact h.elim
  · exact NImg.cnt h
  · rfl
  · exact h.1.cnt

theorem push_img {d : Delta K V} {ty : DType} {r : FRec} {ref : BRef} {ch : Chain K V} {b : BChain}
    (hd : DImg P e d ty r) (h : CImg P e ch b)
    (h1 : ∀ n, d.pay = .node n → ∃ nd, ref = .node nd ∧ NImg P e n nd)
    (h2 : ∀ w, d.pay = .cell w → ref = .word w) (diff : Int) :
    CImg P e (Chain.push d ch diff) (BChain.push ty r ref b diff) := by
  refine ⟨⟨hd.ty, hd.inner, ?_, ?_, hd.key, hd.cell, hd.high⟩, h1, h2, h⟩
  · simp only [h.isDelta, h.cnt]
  · simp only [h.size]

theorem nodeDiff_img (he : FEncOK cfg P e) {n : Node K V} {nd : FNode} (h : NImg P e n nd) :
    nd.nodeDiff P.c = cfg.nodeDiff n := by
  unfold FNode.nodeDiff Cfg.nodeDiff
  have : cfg.olen n.low = 0 := by
    unfold Cfg.olen
    cases n.low <;> simp [he.klen]
  rw [h.size, he.hdr, this]
  simp

theorem setNext_img {n : Node K V} {nd : FNode} (h : NImg P e n nd) (p : PID) :
    NImg P e { n with next := p } { nd with next := p } :=
  ⟨h.inner, h.cnt, h.size, h.keys, h.pays, h.low, h.high, rfl⟩

theorem empty_img (he : FEncOK cfg P e) (old : Mem) :
    NImg P e (emptyLeaf cfg) (FNode.init P.c old false) :=
  ⟨rfl, rfl, congrArg Int.ofNat he.hdr.symm, fun _ hi => absurd hi (Nat.not_lt_zero _),
    fun _ hi => absurd hi (Nat.not_lt_zero _), bnd_none e _, bnd_none e _, rfl⟩

theorem empty_box (old : Mem) : (FNode.init P.c old false).InPage P P.c.page :=
  fun i hi => absurd hi (Nat.not_lt_zero i)

theorem framed_write {lo hi off : Nat} {old mem : Mem} {bs : Str} (h : Framed lo hi old mem)
    (h1 : lo ≤ off) (h2 : off + bs.length ≤ hi) : Framed lo hi old (mem.write off bs) := by
  intro a ha
  rcases ha with ha | ha
  · rw [Mem.write_apply_of_lt (by omega)]; exact h a (Or.inl ha)
  · rw [Mem.write_apply_of_ge (by omega)]; exact h a (Or.inr ha)

theorem newRoot_img (he : FEncOK cfg P e) (old : Mem) {d : FRec} {sep : K} {lp rp : PID}
    (hk : d.key = e.key sep) (hp : d.mem.read P.blk P.pid = e.pid rp)
    (hfit : cfg.hdr + 2 * cfg.idxLen ≤ cfg.page) :
    NImg P e (newRoot (V := V) cfg sep lp rp) (FNode.newRoot P.c old (e.pid lp) d) ∧
      (FNode.newRoot P.c old (e.pid lp) d).InPage P P.c.page ∧
      Framed P.c.keys P.c.page old (FNode.newRoot P.c old (e.pid lp) d).pg.mem := by
  have h1 := he.pid lp
  have h2 := he.pid rp
  have h3 := he.key sep
  have h4 := he.page
  have h5 := he.hdr
  have h6 := he.keys
  have h7 := he.idxLen
  have h8 := he.pos
  obtain ⟨q, hq, hpow⟩ := he.pow
  rw [h4, h5, h7] at hfit
  generalize hmem : ((old.write (P.c.keys + 1 * P.c.klen) (e.key sep)).write (P.c.page - P.pid)
      (e.pid lp)).write (P.c.page - P.pid - P.pid) (e.pid rp) = mem
  have hnd : FNode.newRoot P.c old (e.pid lp) d = { FNode.init P.c old true with
      pg := ⟨mem, 2, P.c.hdr + 2 * (P.c.klen + P.pid)⟩ } := by
    unfold FNode.newRoot
    rw [he.blk] at hp
    rw [h1, hk, hp, hmem]
  rw [hnd]
  have hadr : ∀ i, i < 2 → FPage.payAddr P.c ⟨mem, 2, P.c.hdr + 2 * (P.c.klen + P.pid)⟩ P.pid i =
      P.c.page - P.pid * (i + 1) := by
    intro i hi
    have hm : P.pid * (i + 1) ≤ P.pid * 2 := Nat.mul_le_mul_left _ hi
    have := Layout.payAddr_eq (c := P.c) hpow hq
      (pg := ⟨mem, 2, P.c.hdr + 2 * (P.c.klen + P.pid)⟩) (q := 1) (Or.inl rfl)
      (by show (1 - 1) * P.c.page < P.c.hdr + 2 * (P.c.klen + P.pid); simp; omega)
      (by show P.c.hdr + 2 * (P.c.klen + P.pid) ≤ 1 * P.c.page; omega)
      (plen := P.pid) (pos := i) (by omega)
    rw [this, Nat.one_mul]
  refine ⟨⟨rfl, rfl, ?_, ?_, ?_, bnd_none e _, bnd_none e _, rfl⟩, ?_, ?_⟩
  · show ((P.c.hdr + 2 * (P.c.klen + P.pid) : Nat) : Int) = cfg.hdr + 2 * cfg.idxLen + cfg.klen sep
    rw [h5, h7, he.klen]; omega
  · intro i hi hne
    have hi' : i < 2 := hi
    rcases (show i = 0 ∨ i = 1 by omega) with rfl | rfl
    · exact absurd ⟨rfl, rfl, rfl⟩ hne
    · show mem.read (P.c.keys + 1 * P.c.klen) P.c.klen = e.key sep
      rw [← hmem, Mem.read_write_of_disj (Or.inl (by omega)),
        Mem.read_write_of_disj (Or.inl (by omega)), ← h3, Mem.read_write_self]
  · intro i hi
    have hi' : i < 2 := hi
    rcases (show i = 0 ∨ i = 1 by omega) with rfl | rfl
    · show mem.read (FPage.payAddr P.c _ (e.pid lp).length 0) (e.pid lp).length = e.pid lp
      rw [h1, hadr 0 (by omega), Nat.zero_add, Nat.mul_one, ← hmem,
        Mem.read_write_of_disj (Or.inr (by omega)), ← h1, Mem.read_write_self]
    · show mem.read (FPage.payAddr P.c _ (e.pid rp).length 1) (e.pid rp).length = e.pid rp
      rw [h2, hadr 1 (by omega), ← hmem,
        show P.c.page - P.pid * (1 + 1) = P.c.page - P.pid - P.pid by omega, ← h2,
        Mem.read_write_self]
  · intro i hi
    have hi' : i < 2 := hi
    have hm : P.pid * (i + 1) ≤ P.pid * 2 := Nat.mul_le_mul_left _ hi'
    have hm' : P.pid * (i + 1) = P.pid * i + P.pid := Nat.mul_succ _ _
    show P.c.keys + 2 * P.c.klen ≤ FPage.payAddr P.c _ P.pid i ∧
      FPage.payAddr P.c _ P.pid i + P.pid ≤ P.c.page
    rw [hadr i hi']
    omega
  · show Framed P.c.keys P.c.page old mem
    rw [← hmem]
    refine framed_write (framed_write (framed_write (fun _ _ => rfl) ?_ ?_) ?_ ?_) ?_ ?_ <;> omega

end BwTree.Fix
