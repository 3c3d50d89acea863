import Verif.Layout.DeltaImg
import Verif.Bytes.VarLay

/-!
# Delta records stay inside their pages (lemmas)
-/

namespace BwTree.Bytes

open Layout Util

/-- `cap` bytes (`GetMaxDeltaSize`) are enough for delta records with keys of at most `mk` bytes. -/
structure CapOK (P : VPar) (mk cap : Nat) : Prop where
  lim : cap < 65536
  put : P.dh + mk + P.pay ≤ cap
  entry : P.dh + 2 * mk + P.pid ≤ cap
  idx : ∀ l, l ≤ mk → alignUp 3 (P.dh + l) + P.pid + mk ≤ cap

variable {P : VPar} {mk cap : Nat}

theorem inside_mk {off k len a b : Nat} (h1 : off < 65536) (h2 : len < 65536) (h3 : a ≤ off)
    (h4 : off + len ≤ b) : Inside (Metadata.mk' off k len) a b := by
  refine ⟨?_, ?_⟩
  · rw [mk'_offset h1]; exact h3
  · rw [mk'_offset h1, mk'_recLen h2]; exact h4

theorem _root_.BwTree.Layout.Framed.write {lo hi off : Nat} {old mem : Mem} {bs : Str} (h : Framed lo hi old mem)
    (h1 : lo ≤ off) (h2 : off + bs.length ≤ hi) : Framed lo hi old (mem.write off bs) := by
  intro a ha
  rcases ha with ha | ha
  · rw [Mem.write_apply_of_lt (by omega)]; exact h a (Or.inl ha)
  · rw [Mem.write_apply_of_ge (by omega)]; exact h a (Or.inr ha)

theorem _root_.BwTree.Layout.Framed.refl (lo hi : Nat) (old : Mem) : Framed lo hi old old := fun _ _ => rfl

theorem put_box (h : CapOK P mk cap) (old : Mem) {k v : Str} (hk : k.length ≤ mk)
    (hv : v.length = P.pay) : Framed P.dh cap old (VRec.put P.dh old k v).mem ∧
      (VRec.put P.dh old k v).InRec P.dh cap := by
  have := h.lim
  have := h.put
  refine ⟨((Framed.refl _ _ _).write (by omega) (by omega)).write (by omega) (by omega), ?_,
    Or.inl rfl⟩
  exact inside_mk (by omega) (by omega) (by omega) (by omega)

theorem del_box (h : CapOK P mk cap) (old : Mem) {k : Str} (hk : k.length ≤ mk) :
    Framed P.dh cap old (VRec.del P.dh old k).mem ∧ (VRec.del P.dh old k).InRec P.dh cap := by
  have := h.lim
  have := h.put
  exact ⟨(Framed.refl _ _ _).write (by omega) (by omega),
    inside_mk (by omega) (by omega) (by omega) (by omega), Or.inl rfl⟩

theorem entry_box (h : CapOK P mk cap) (old : Mem) (inner : Bool) {r : VRec} {word : Str}
    (hk : r.low.keyLen.toNat ≤ mk) (hh : r.high.keyLen.toNat ≤ mk) (hw : word.length = P.pid) :
    Framed P.dh cap old (VRec.entry P.dh old inner r word).mem ∧
      (VRec.entry P.dh old inner r word).InRec P.dh cap := by
  have := h.lim
  have := h.entry
  refine ⟨(((Framed.refl _ _ _).write (by omega) ?_).write (by omega) (by omega)).write (by omega) ?_,
    inside_mk (by omega) (by omega) (by omega) (by omega),
    Or.inr (inside_mk (by omega) (by omega) (by omega) (by omega))⟩
  · rw [Mem.length_read]; omega
  · rw [Mem.length_read]; omega

theorem idxDel_box (h : CapOK P mk cap) (old : Mem) {r : VRec} {word : Str}
    (hk : r.low.keyLen.toNat ≤ mk) (hh : r.high.keyLen.toNat ≤ mk) (hw : word.length = P.pid) :
    Framed P.dh cap old (VRec.idxDel P.dh old r word).mem ∧
      (VRec.idxDel P.dh old r word).InRec P.dh cap := by
  have := h.lim
  have h1 := h.idx _ hk
  have h2 : P.dh + r.low.keyLen.toNat ≤ alignUp 3 (P.dh + r.low.keyLen.toNat) := by
    have := h.entry
    rw [alignUp_eq 3 _ (by decide) (by omega)]; omega
  refine ⟨(((Framed.refl _ _ _).write (by omega) ?_).write (by omega) (by omega)).write (by omega) ?_,
    inside_mk (by omega) (by omega) (by omega) (by omega),
    Or.inr (inside_mk (by omega) (by omega) (by omega) (by omega))⟩
  · rw [Mem.length_read]; omega
  · rw [Mem.length_read]; omega

end BwTree.Bytes
