import Verif.Bytes.VarLay
import Verif.Bytes.System
import Verif.Layout.Img
import Verif.Bytes.Sim

/-!
# Calls with strings (specification)

The callers of a tree on bytes: keys are strings of 1 to `mk` bytes, payloads are strings of
`sizeof(Payload)` bytes.
-/

namespace BwTree.Bytes

open Layout

/-- Keys: 1 to `mk` bytes. -/
def KStr (mk : Nat) := { s : Str // 0 < s.length ∧ s.length ≤ mk }

/-- Payloads: `n` bytes. -/
def VStr (n : Nat) := { s : Str // s.length = n }

/-- The configuration of the model. -/
def VPar.cfg (P : VPar) (mk : Nat) : Cfg (KStr mk) :=
  { page := P.c.page, hdr := P.c.hdr, leafLen := 8 + P.pay, idxLen := 8 + P.pid
    minSize := P.minSize, thr := P.thr, maxDelta := P.maxDelta
    klen := fun k => k.1.length, maxKey := mk, buf := true }

/-- Strings are their own bytes. -/
def VPar.enc (P : VPar) (mk : Nat) : Enc (KStr mk) (VStr P.pay) :=
  { key := Subtype.val, val := Subtype.val, pid := pidBytes P.pid }

/-- Conditions on the constants: offsets fit in 16 bits, a node has room for its bounds, a record and
half of its records, a new root fits. -/
structure VPar.OK (P : VPar) (mk : Nat) : Prop where
  lim : 2 * P.c.page < 65536
  hdr : 0 < P.c.hdr
  leaf : P.dh + mk + (8 + P.pay) < 65536
  idx : P.dh + 8 + 2 * mk + (8 + P.pid) < 65536
  big : ∀ inner : Bool, (P.c.page - P.c.hdr) / 2 + (8 + if inner then P.pid else P.pay) + 3 * mk ≤ P.c.page
  half : ∀ inner : Bool, P.c.hdr + (8 + if inner then P.pid else P.pay) + 2 * mk ≤ (P.c.page - P.c.hdr) / 2
  root : P.c.hdr + 2 * (8 + P.pid) + mk ≤ P.c.page
  delta : 0 < P.maxDelta
  min : P.minSize + mk ≤ (P.c.page - P.c.hdr) / 2

/-- A legal key. -/
def okKey (mk : Nat) (s : Str) : Prop := 0 < s.length ∧ s.length ≤ mk

/-- A legal bound of a scan. -/
def okBound (mk : Nat) : BBound → Prop
  | none => True
  | some (k, _) => okKey mk k

/-- A legal operation. -/
def okOp (P : VPar) (mk : Nat) : Spec.Op Str Str → Prop
  | .read k | .delete k => okKey mk k
  | .write k v | .insert k v | .update k v => okKey mk k ∧ v.length = P.pay

/-- A legal call. -/
def okCall (P : VPar) (mk : Nat) : Spec.Call Str Str → Prop
  | .op o => okOp P mk o
  | .visit b e => okBound mk b ∧ okBound mk e

theorem okBound_enc {P : VPar} {mk : Nat} {b : BBound} (h : okBound mk b) :
    ∃ b', b = (P.enc mk).bound b' := by
  cases b with
  | none => exact ⟨none, rfl⟩
  | some x => exact ⟨some (⟨x.1, h⟩, x.2), rfl⟩

theorem okCall_enc {P : VPar} {mk : Nat} (c : Spec.Call Str Str) (h : okCall P mk c) :
    ∃ c', c = call (P.enc mk) c' := by
  cases c with
  | op o =>
    cases o with
    | read k => exact ⟨.op (.read ⟨k, h⟩), rfl⟩
    | delete k => exact ⟨.op (.delete ⟨k, h⟩), rfl⟩
    | write k v => exact ⟨.op (.write ⟨k, h.1⟩ ⟨v, h.2⟩), rfl⟩
    | insert k v => exact ⟨.op (.insert ⟨k, h.1⟩ ⟨v, h.2⟩), rfl⟩
    | update k v => exact ⟨.op (.update ⟨k, h.1⟩ ⟨v, h.2⟩), rfl⟩
  | visit b e =>
    obtain ⟨b', hb⟩ := okBound_enc (P := P) h.1
    obtain ⟨e', he⟩ := okBound_enc (P := P) h.2
    exact ⟨.visit b' e', by rw [hb, he]; rfl⟩

end BwTree.Bytes
