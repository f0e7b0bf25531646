import Verif.Spec.Text
import Verif.Spec.Rounding
import Verif.Model.Str
import Mathlib.Algebra.Field.Rat

/-!
# Specification: the numbers of JSON (RFC 8259, section 6)

A text is read as the double nearest to the number it writes.
-/

namespace Rap

/-- Decimal digits only. -/
def Digits (b : Bytes) : Prop := ∀ c ∈ b, 48 ≤ c.toNat ∧ c.toNat ≤ 57

/-- The number the digits write. -/
def digitsValue (b : Bytes) : Nat := b.foldl (fun v c => 10 * v + (c.toNat - 48)) 0

/-- A fraction: nothing, or a point and digits. -/
def FractionText (t fr : Bytes) : Prop := (t = [] ∧ fr = []) ∨ (fr ≠ [] ∧ Digits fr ∧ t = 46 :: fr)

/-- An exponent: nothing, or the letter e or E, maybe a sign, and digits. -/
def ExponentText (t : Bytes) (e : Int) : Prop :=
  (t = [] ∧ e = 0) ∨ ∃ c s d, (c = 101 ∨ c = 69) ∧ d ≠ [] ∧ Digits d ∧ t = c :: (s ++ d) ∧
    (((s = [] ∨ s = [43]) ∧ e = digitsValue d) ∨ (s = [45] ∧ e = -(digitsValue d : Int)))

/-- The text is a number of magnitude `v`, with a minus sign or without: an integer without superfluous zeros, a fraction, an
exponent. -/
def NumberText (t : Bytes) (minus : Bool) (v : Rat) : Prop :=
  ∃ i f x fr n e, t = (if minus then [45] else []) ++ (i ++ (f ++ x)) ∧ IsDecimal i n ∧ FractionText f fr ∧
    ExponentText x e ∧ v = digitsValue (i ++ fr) * (10 : Rat) ^ (e - fr.length)

/-- The text is read as the double `d`: the finite one nearest to the number, with its sign. -/
def JsonNumber (t : Bytes) (d : BitVec 64) : Prop :=
  ∃ minus v q, NumberText t minus v ∧ Nearest64 (if minus then -v else v) d ∧ d.msb = minus ∧ number64 d = .fin q

end Rap
