import Verif.Spec.Text
import Verif.Spec.Rounding
import Verif.Model.Str

/-!
# Specification: numbers written with a fixed number of decimals
-/

namespace Rap

/-- The text `b` is the number `n / 10 ^ p`: digits without superfluous zeros in front, a point, and `p` digits. -/
def HasDecimals (p : Nat) (b : Bytes) (n : Nat) : Prop :=
  ∃ i fr, b = i ++ 46 :: fr ∧ IsDecimal i (n / 10 ^ p) ∧ fr.length = p ∧ (∀ c ∈ fr, 48 ≤ c.toNat ∧ c.toNat ≤ 57) ∧
    fr.foldl (fun v c => 10 * v + (c.toNat - 48)) 0 = n % 10 ^ p

/-- `n / 10 ^ p` is as near to `q` as a number with `p` decimals can be; halfway between two of them, its last digit is even. -/
def NearestDecimal (p : Nat) (q : Rat) (n : Nat) : Prop :=
  |(n : Rat) / 10 ^ p - q| ≤ 1 / (2 * 10 ^ p) ∧ (|(n : Rat) / 10 ^ p - q| = 1 / (2 * 10 ^ p) → n % 2 = 0)

/-- The text of a floating-point datum with `p` decimals. Negative numbers keep their sign also if all digits are zero;
`minus` is the sign bit. -/
def FixedText (p : Nat) (v : Number) (minus : Bool) (b : Bytes) : Prop :=
  match v with
  | .nan => b = b!"NaN"
  | .pinf => b = b!"+Inf"
  | .ninf => b = b!"-Inf"
  | .fin q => ∃ n t, HasDecimals p t n ∧ NearestDecimal p |q| n ∧ b = if minus then 45 :: t else t

/-- The text of a double with two decimals. -/
def TwoDecimals (x : BitVec 64) (b : Bytes) : Prop := FixedText 2 (number64 x) x.msb b

end Rap
