import Verif.Tree.Assoc

/-!
# Utilities: `CompareAsCString`, `Log2`, `Metadata` (model)
-/

namespace BwTree.Util

/-- `strcmp` as used in `utility.hpp` 75: bytes are compared as unsigned characters up to the first
difference or the terminating NUL.  A list holds the readable bytes from the pointer on; `none` is a
read past them (undefined behaviour). -/
def strcmp : List UInt8 → List UInt8 → Option Ordering
  | a :: as, b :: bs =>
    if a < b then some .lt
    else if b < a then some .gt
    else if a = 0 then some .eq
    else strcmp as bs
  | _, _ => none

/-- `CompareAsCString::operator()`, `utility.hpp` 66-77.  `none` pointers are `nullptr`; the outer
`Option` is `none` on undefined behaviour. -/
def compareAsCString (a b : Option (List UInt8)) : Option Bool :=
  match a, b with
  | none, _ => some false
  | some _, none => some true
  | some a, some b => (strcmp a b).map (fun o => decide (o = .lt))

/-- `Log2`, `utility.hpp` 100-106. -/
def log2 (val : Nat) : Nat :=
  if val = 0 then 0
  else if val = 1 then 0
  else log2 (val >>> 1) + 1
termination_by val
decreasing_by rw [Nat.shiftRight_eq_div_pow]; omega

/-- `Metadata`, `varlen/metadata.hpp` 91-99: a 32-bit offset and two 16-bit lengths. -/
structure Metadata where
  offset : UInt32
  keyLen : UInt16
  recLen : UInt16
  deriving DecidableEq

/-- The constructor of `Metadata`, `varlen/metadata.hpp` 46-54: every argument goes through
`static_cast<uint16_t>`, the offset too. -/
def Metadata.mk' (offset keyLen totalLen : Nat) : Metadata :=
  { offset := (UInt16.ofNat offset).toUInt32, keyLen := UInt16.ofNat keyLen,
    recLen := UInt16.ofNat totalLen }

/-- `GetPayloadLength`, `varlen/metadata.hpp` 79-84 (`int` arithmetic, then `size_t`). -/
def Metadata.payloadLength (m : Metadata) : Nat := m.recLen.toNat - m.keyLen.toNat

end BwTree.Util
