import Verif.Model.Go

/-!
# What a float64 or float32 bit pattern means (IEEE 754, section 3.4)

Independent of the arithmetic of the model (`Model/Float.lean`).
-/

namespace Rap

/-- A floating-point datum. Both zeros are the number 0. -/
inductive Number where
  | nan
  | ninf
  | pinf
  | fin (q : Rat)
  deriving DecidableEq, Repr

namespace Number

/-- The order of IEEE 754; a NaN is not comparable. -/
def lt : Number → Number → Prop
  | fin a, fin b => a < b
  | ninf, fin _ => True
  | ninf, pinf => True
  | fin _, pinf => True
  | _, _ => False

def le (a b : Number) : Prop := a.lt b ∨ (a = b ∧ a ≠ nan)

end Number

/-- The datum of sign `s`, biased exponent `e` and fraction `f`, with `mb` fraction bits, largest exponent `emax`
(infinities and NaNs) and `2 ^ -sc` the smallest positive number. -/
def number (mb emax sc s e f : Nat) : Number :=
  if e = emax then (if f = 0 then (if s = 0 then .pinf else .ninf) else .nan)
  else .fin ((if s = 0 then 1 else -1) *
    (if e = 0 then (f : Rat) / 2 ^ sc else ((2 ^ mb + f : Nat) : Rat) * 2 ^ (e - 1) / 2 ^ sc))

/-- binary64: 1 sign bit, 11 exponent bits, 52 fraction bits. -/
def number64 (x : BitVec 64) : Number :=
  number 52 2047 1074 (x.toNat / 2 ^ 63) (x.toNat / 2 ^ 52 % 2048) (x.toNat % 2 ^ 52)

/-- binary32: 1 sign bit, 8 exponent bits, 23 fraction bits. -/
def number32 (x : BitVec 32) : Number :=
  number 23 255 149 (x.toNat / 2 ^ 31) (x.toNat / 2 ^ 23 % 256) (x.toNat % 2 ^ 23)

/-- 1.0, -2.5 and the smallest positive float64. -/
example : number64 0x3FF0000000000000 = .fin 1 ∧ number64 0xC004000000000000 = .fin (-5 / 2) ∧
    number64 1 = .fin (1 / 2 ^ 1074) ∧ number32 0xBF800000 = .fin (-1) ∧ number64 0x7FF0000000000000 = .pinf := by
  decide +kernel

end Rap
