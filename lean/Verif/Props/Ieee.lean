import Verif.Proof.Ieee

/-!
# C71: the arithmetic is that of IEEE 754

The operations of `Model/Float.lean`, on every pair of bit patterns (also NaNs, infinities, zeros of both signs and
subnormal numbers), against `Spec/Ieee.lean`.
-/

namespace Rap

/-- Addition of float64s. -/
theorem C71_add (x y : F64) : (ieeeSum (number64 x) (number64 y) x.msb y.msb).Is64 (x.add y) := by
  rw [F64.number_fp, F64.number_fp, F64.msb_fp, F64.msb_fp]
  exact is64_of_meets (FP.meets_add b64_mb x.fp y.fp)

/-- 0.1 + 0.2 is the double above 0.3; -0 + -0 is -0 and 1 + -1 is +0; the largest double twice is +Inf; +Inf + -Inf is
a NaN. -/
example : F64.add 0x3FB999999999999A 0x3FC999999999999A = 0x3FD3333333333334 ∧
    F64.add 0x8000000000000000 0x8000000000000000 = 0x8000000000000000 ∧
    F64.add 0x3FF0000000000000 0xBFF0000000000000 = 0 ∧
    F64.add 0x7FEFFFFFFFFFFFFF 0x7FEFFFFFFFFFFFFF = 0x7FF0000000000000 ∧
    number64 (F64.add 0x7FF0000000000000 0xFFF0000000000000) = .nan := by decide +kernel

/-- Subtraction of float64s. -/
theorem C71_sub (x y : F64) : (ieeeDifference (number64 x) (number64 y) x.msb y.msb).Is64 (x.sub y) := by
  rw [F64.number_fp, F64.number_fp, F64.msb_fp, F64.msb_fp]
  exact is64_of_meets (FP.meets_sub b64_mb x.fp y.fp)

/-- 0.3 - 0.1 is the double below 0.2; -0 - 0 is -0; +Inf - +Inf is a NaN. -/
example : F64.sub 0x3FD3333333333333 0x3FB999999999999A = 0x3FC9999999999999 ∧
    F64.sub 0x8000000000000000 0 = 0x8000000000000000 ∧
    number64 (F64.sub 0x7FF0000000000000 0x7FF0000000000000) = .nan := by decide +kernel

/-- Subtraction of float32s. -/
theorem C71_sub32 (x y : F32) : (ieeeDifference (number32 x) (number32 y) x.msb y.msb).Is32 (x.sub y) := by
  rw [F32.number_fp, F32.number_fp, F32.msb_fp, F32.msb_fp]
  exact is32_of_meets (FP.meets_sub b32_mb x.fp y.fp)

/-- The largest float32 less its opposite is +Inf; -Inf - -Inf is a NaN. -/
example : F32.sub 0x7F7FFFFF 0xFF7FFFFF = 0x7F800000 ∧ number32 (F32.sub 0xFF800000 0xFF800000) = .nan := by
  decide +kernel

/-- Multiplication of float64s. -/
theorem C71_mul (x y : F64) : (ieeeProduct (number64 x) (number64 y) x.msb y.msb).Is64 (x.mul y) := by
  rw [F64.number_fp, F64.number_fp, F64.msb_fp, F64.msb_fp]
  exact is64_of_meets (FP.meets_mul b64_mb (by decide) x.fp y.fp)

/-- 0.1 * 3 is the double above 0.3; the smallest negative number times a half is -0; 0 * -Inf is a NaN. -/
example : F64.mul 0x3FB999999999999A 0x4008000000000000 = 0x3FD3333333333334 ∧
    F64.mul 0x8000000000000001 0x3FE0000000000000 = 0x8000000000000000 ∧
    number64 (F64.mul 0 0xFFF0000000000000) = .nan := by decide +kernel

/-- Division of float64s. -/
theorem C71_div (x y : F64) : (ieeeQuotient (number64 x) (number64 y) x.msb y.msb).Is64 (x.div y) := by
  rw [F64.number_fp, F64.number_fp, F64.msb_fp, F64.msb_fp]
  exact is64_of_meets (FP.meets_div b64_mb x.fp y.fp)

/-- 1 / 3; -1 / 0 is -Inf; 1 / -Inf is -0; 0 / 0 is a NaN. -/
example : F64.div 0x3FF0000000000000 0x4008000000000000 = 0x3FD5555555555555 ∧
    F64.div 0xBFF0000000000000 0 = 0xFFF0000000000000 ∧
    F64.div 0x3FF0000000000000 0xFFF0000000000000 = 0x8000000000000000 ∧
    number64 (F64.div 0 0) = .nan := by decide +kernel

/-- `math.Floor`: the largest integer not above the number, with the sign of the argument. -/
theorem C71_floor (x : F64) : number64 x.floor = (number64 x).floor ∧ x.floor.msb = x.msb := floor_number x

/-- The floor of -0.5 is -1, of -0 is -0, of 0.5 is 0. -/
example : F64.floor 0xBFE0000000000000 = 0xBFF0000000000000 ∧ F64.floor 0x8000000000000000 = 0x8000000000000000 ∧
    F64.floor 0x3FE0000000000000 = 0 := by decide +kernel

/-- Conversions: an integer becomes the nearest double; a double becomes an integer by dropping the fraction, if the
integer fits 64 bits; a double becomes the nearest float32 (an infinity or a NaN stays one); a float32 keeps its
value as a double. Conversions of floats keep the sign. -/
theorem C71_convert :
    (∀ i : Int, (Outcome.num i (decide (i < 0))).Is64 (F64.ofInt i)) ∧
    (∀ (x : F64) (q : Rat) (i : Int), number64 x = .fin q → |(i : Rat)| ≤ |q| → |q| < |(i : Rat)| + 1 →
      (0 ≤ q → 0 ≤ i) → (q ≤ 0 → i ≤ 0) → -2 ^ 63 ≤ i → i < 2 ^ 63 → toInt64 x = i) ∧
    (∀ x : F64, Rounds32 (number64 x) (narrow x) ∧ (narrow x).msb = x.msb) ∧
    (∀ x : F32, number64 (widen x) = number32 x ∧ (widen x).msb = x.msb) := by
  refine ⟨fun i => is64_of_meets (FP.meets_ofInt b64_mb i), ?_, ?_, ?_⟩
  · intro x q i h h1 h2 h3 h4 h5 h6
    exact toInt64_trunc h h1 h2 h3 h4 h5 h6
  · intro x
    refine ⟨rounds_narrow x, ?_⟩
    rw [F64.msb_fp, F32.msb_fp, narrow_fp, convert_s]
  · intro x
    refine ⟨number_widen x, ?_⟩
    rw [F64.msb_fp, F32.msb_fp, widen_fp, convert_s]

/-- 2^53 + 1 becomes 2^53; -2.5 becomes -2; 0.1 as a float32; -0 as a double. -/
example : F64.ofInt (2 ^ 53 + 1) = 0x4340000000000000 ∧ number64 0xC004000000000000 = .fin (-5 / 2) ∧
    toInt64 0xC004000000000000 = -2 ∧ narrow 0x3FB999999999999A = 0x3DCCCCCD ∧
    widen 0x80000000 = 0x8000000000000000 := by decide +kernel

/-- Comparisons of float64s: those of the numbers, never true of a NaN. -/
theorem C71_compare (x y : F64) :
    (x.lt y = true ↔ (number64 x).lt (number64 y)) ∧ (x.le y = true ↔ (number64 x).le (number64 y)) ∧
    (FP.eq b64 x.fp y.fp = true ↔ number64 x = number64 y ∧ number64 x ≠ .nan) :=
  ⟨F64.lt_number x y, F64.le_number x y, eq_number64 x y⟩

/-- -0 = 0; -Inf < -1; a NaN is not below itself nor equal to itself. -/
example : FP.eq b64 (F64.fp 0x8000000000000000) (F64.fp 0) = true ∧
    F64.lt 0xFFF0000000000000 0xBFF0000000000000 = true ∧
    F64.le 0x7FF8000000000000 0x7FF8000000000000 = false ∧
    FP.eq b64 (F64.fp 0x7FF8000000000000) (F64.fp 0x7FF8000000000000) = false := by decide +kernel

end Rap
