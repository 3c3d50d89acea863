import Verif.Fix.FixLay
import Verif.Bytes.Strings

/-!
# Calls with strings of fixed length (specification)

The callers of a tree on fixed-length pages: keys are strings of `sizeof(Key)` bytes, payloads are
strings of `sizeof(Payload)` bytes.
-/

namespace BwTree.Fix

open Layout (Enc BBound)
open Bytes (VStr pidBytes call)

/-- The configuration of the model: keys have no variable part. -/
def FPar.cfg (P : FPar) : Cfg (VStr P.c.klen) :=
  { page := P.c.page, hdr := P.c.hdr, leafLen := P.c.klen + P.pay, idxLen := P.c.klen + P.pid
    minSize := P.minSize, thr := P.thr, maxDelta := P.maxDelta
    klen := fun _ => 0, maxKey := 0, buf := false }

/-- Strings are their own bytes. -/
def FPar.enc (P : FPar) : Enc (VStr P.c.klen) (VStr P.pay) :=
  { key := Subtype.val, val := Subtype.val, pid := pidBytes P.pid }

/-- Conditions on the constants: the size of a page is a power of two, the keys follow the fields of
the header and so does the payload of a delta record, a record and a new root fit in a page, the number
of records fits in 16 bits, and half a page is more than `kMinNodeSize`. -/
structure FPar.OK (P : FPar) : Prop where
  pow : ∃ q, q ≤ 31 ∧ P.c.page = 2 ^ q
  pos : 0 < P.c.hdr
  keys : P.c.keys ≤ P.c.hdr
  blk : P.blk = P.c.keys
  len : ∀ inner, 0 < P.c.klen + P.plen inner
  fits : ∀ inner, P.c.hdr + (P.c.klen + P.plen inner) ≤ P.c.page
  lim : ∀ inner, 2 * P.c.page < P.c.hdr + 65536 * (P.c.klen + P.plen inner)
  root : P.c.hdr + 2 * (P.c.klen + P.pid) ≤ P.c.page
  delta : 0 < P.maxDelta
  min : ∀ inner, P.minSize ≤
    max (P.c.hdr + (P.c.klen + P.plen inner)) ((P.c.page - P.c.hdr) / 2)

/-- A legal bound of a scan. -/
def okBound (P : FPar) : BBound → Prop
  | none => True
  | some (k, _) => k.length = P.c.klen

/-- A legal operation. -/
def okOp (P : FPar) : Spec.Op Str Str → Prop
  | .read k | .delete k => k.length = P.c.klen
  | .write k v | .insert k v | .update k v => k.length = P.c.klen ∧ v.length = P.pay

/-- A legal call. -/
def okCall (P : FPar) : Spec.Call Str Str → Prop
  | .op o => okOp P o
  | .visit b e => okBound P b ∧ okBound P e

theorem okBound_enc {P : FPar} {b : BBound} (h : okBound P b) : ∃ b', b = P.enc.bound b' := by
  cases b with
  | none => exact ⟨none, rfl⟩
  | some x => exact ⟨some (⟨x.1, h⟩, x.2), rfl⟩

theorem okCall_enc {P : FPar} (c : Spec.Call Str Str) (h : okCall P c) : ∃ c', c = call P.enc c' := by
  cases c with
  | op o =>
    cases o with
    | read k => exact ⟨.op (.read ⟨k, h⟩), rfl⟩
    | delete k => exact ⟨.op (.delete ⟨k, h⟩), rfl⟩
    | write k v => exact ⟨.op (.write ⟨k, h.1⟩ ⟨v, h.2⟩), rfl⟩
    | insert k v => exact ⟨.op (.insert ⟨k, h.1⟩ ⟨v, h.2⟩), rfl⟩
    | update k v => exact ⟨.op (.update ⟨k, h.1⟩ ⟨v, h.2⟩), rfl⟩
  | visit b e =>
    obtain ⟨b', hb⟩ := okBound_enc h.1
    obtain ⟨e', he⟩ := okBound_enc h.2
    exact ⟨.visit b' e', by rw [hb, he]; rfl⟩

end BwTree.Fix
