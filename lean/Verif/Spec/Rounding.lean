import Verif.Spec.Number
import Mathlib.Algebra.Order.Ring.Rat
import Mathlib.Algebra.Order.Group.Abs

/-!
# Rounding to nearest (IEEE 754, section 4.3.1)

Independent of the arithmetic of the model: only the meaning of bit patterns (`Spec/Number.lean`) is used.
-/

namespace Rap

/-- The bit pattern `y` is the rational number `q` rounded to nearest, ties to even: from `limit` on (half a unit past
the largest finite number) an infinity; below it, no finite number is closer to `q`, and if another one is as close, the
last bit of `y` is 0. -/
def Nearest {w : Nat} (number : BitVec w → Number) (limit q : Rat) (y : BitVec w) : Prop :=
  if limit ≤ |q| then number y = if q < 0 then .ninf else .pinf
  else ∃ r, number y = .fin r ∧ ∀ z r', number z = .fin r' →
    |r - q| ≤ |r' - q| ∧ (r' ≠ r → |r' - q| = |r - q| → y.toNat % 2 = 0)

/-- `y` is the double nearest to `q`. -/
def Nearest64 (q : Rat) (y : BitVec 64) : Prop := Nearest number64 (2 ^ 1024 - 2 ^ 970) q y

/-- `y` is the float32 nearest to `q`. -/
def Nearest32 (q : Rat) (y : BitVec 32) : Prop := Nearest number32 (2 ^ 128 - 2 ^ 103) q y

/-- `y` is the float32 nearest to the datum `n`: numbers are rounded to nearest, infinities and NaNs stay what they
are. -/
def Rounds32 (n : Number) (y : BitVec 32) : Prop :=
  match n with
  | .fin q => Nearest32 q y
  | n => number32 y = n

/-- The double `y` stands for the float32 nearest to the double `x`, with the sign of `x` (also if it is a zero or
a NaN). -/
def Single (x y : BitVec 64) : Prop :=
  ∃ z : BitVec 32, Rounds32 (number64 x) z ∧ number64 y = number32 z ∧ z.msb = x.msb ∧ y.msb = x.msb

end Rap
