import Verif.Spec.Rounding
import Mathlib.Algebra.Order.Floor.Defs
import Mathlib.Data.Rat.Floor

/-!
# Arithmetic of IEEE 754 (sections 4.3, 6.1, 6.2, 6.3, 7.2 and 7.3)

The result of an operation as a function of the data and the signs of the operands. Independent of the arithmetic of the
model: only the meaning of bit patterns (`Spec/Number.lean`) and rounding to nearest (`Spec/Rounding.lean`) are used.
-/

namespace Rap

/-- What the standard says about the result of an operation. -/
inductive Outcome where
  /-- some NaN -/
  | nan
  /-- the infinity of the sign -/
  | inf (minus : Bool)
  /-- the number, rounded, with the sign -/
  | num (q : Rat) (minus : Bool)

/-- The bit pattern `z` is what the standard says. -/
def Outcome.Is {w : Nat} (number : BitVec w → Number) (limit : Rat) (o : Outcome) (z : BitVec w) : Prop :=
  match o with
  | nan => number z = .nan
  | inf minus => number z = if minus then .ninf else .pinf
  | num q minus => Nearest number limit q z ∧ z.msb = minus

/-- As a double. -/
def Outcome.Is64 (o : Outcome) (z : BitVec 64) : Prop := o.Is number64 (2 ^ 1024 - 2 ^ 970) z

/-- As a float32. -/
def Outcome.Is32 (o : Outcome) (z : BitVec 32) : Prop := o.Is number32 (2 ^ 128 - 2 ^ 103) z

/-- Addition of data `a` and `b` with signs `s` and `t`. An exact zero is positive unless both operands are
negative. -/
def ieeeSum (a b : Number) (s t : Bool) : Outcome :=
  match a, b with
  | .nan, _ => .nan
  | _, .nan => .nan
  | .pinf, .ninf => .nan
  | .ninf, .pinf => .nan
  | .pinf, _ => .inf false
  | _, .pinf => .inf false
  | .ninf, _ => .inf true
  | _, .ninf => .inf true
  | .fin p, .fin q => .num (p + q) (if p + q = 0 then s && t else decide (p + q < 0))

/-- Subtraction. An exact zero is positive unless the first operand is negative and the second is not. -/
def ieeeDifference (a b : Number) (s t : Bool) : Outcome :=
  match a, b with
  | .nan, _ => .nan
  | _, .nan => .nan
  | .pinf, .pinf => .nan
  | .ninf, .ninf => .nan
  | .pinf, _ => .inf false
  | _, .pinf => .inf true
  | .ninf, _ => .inf true
  | _, .ninf => .inf false
  | .fin p, .fin q => .num (p - q) (if p - q = 0 then s && !t else decide (p - q < 0))

/-- Multiplication: the sign is the product of the signs. -/
def ieeeProduct (a b : Number) (s t : Bool) : Outcome :=
  match a, b with
  | .nan, _ => .nan
  | _, .nan => .nan
  | .fin p, .fin q => .num (p * q) (s != t)
  | .fin p, _ => if p = 0 then .nan else .inf (s != t)
  | _, .fin q => if q = 0 then .nan else .inf (s != t)
  | _, _ => .inf (s != t)

/-- Division: the sign is the product of the signs. -/
def ieeeQuotient (a b : Number) (s t : Bool) : Outcome :=
  match a, b with
  | .nan, _ => .nan
  | _, .nan => .nan
  | .fin p, .fin q =>
    if q = 0 then (if p = 0 then .nan else .inf (s != t)) else .num (p / q) (s != t)
  | .fin _, _ => .num 0 (s != t)
  | _, .fin _ => .inf (s != t)
  | _, _ => .nan

/-- The largest integer not above a number; other data stay what they are. -/
def Number.floor : Number → Number
  | .fin q => .fin ⌊q⌋
  | n => n

/-- 1 + -1 is +0, -0 + -0 is -0, -3 / 0 is -Inf, 0 * -Inf is a
NaN. -/
example : ieeeSum (.fin 1) (.fin (-1)) false true = .num 0 false ∧ ieeeSum (.fin 0) (.fin 0) true true = .num 0 true ∧
    ieeeQuotient (.fin (-3)) (.fin 0) true false = .inf true ∧ ieeeProduct (.fin 0) .ninf false true = .nan := by
  refine ⟨?_, ?_, ?_, ?_⟩ <;> simp [ieeeSum, ieeeQuotient, ieeeProduct]

end Rap
