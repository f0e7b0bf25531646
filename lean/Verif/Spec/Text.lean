import Verif.Spec.Query

/-!
# Specification: decimal numbers in text, counting captures
-/

namespace Rap

/-- The text `b` is the natural number `n` in decimal, without leading zeros. -/
def IsDecimal (b : Bytes) (n : Nat) : Prop :=
  b ≠ [] ∧ (∀ c ∈ b, 48 ≤ c.toNat ∧ c.toNat ≤ 57) ∧ b.foldl (fun v c => 10 * v + (c.toNat - 48)) 0 = n ∧
    (b.head? = some 48 → b = [48])

/-- The text `b` is the integer `i` in decimal. -/
def IsInteger (b : Bytes) (i : Int) : Prop :=
  (0 ≤ i ∧ IsDecimal b i.toNat) ∨ (i < 0 ∧ ∃ d, b = 45 :: d ∧ IsDecimal d (-i).toNat)

/-- The number of captures in the collections of the tree that satisfy `p`. -/
def countCaptures (p : Coll → Bool) (rec : Rec) : Nat := ((rec.flat.filter p).map fun c => c.captures.length).sum

/-- Collections of each type. -/
def Coll.isPosition : Coll → Bool | .position .. => true | _ => false
def Coll.isEuler : Coll → Bool | .euler .. => true | _ => false
def Coll.isEvent : Coll → Bool | .event .. => true | _ => false
def Coll.isEnum : Coll → Bool | .enum .. => true | _ => false
/-- Float collections and those of types from outside the package. -/
def Coll.isOther : Coll → Bool | .float .. => true | .other .. => true | _ => false

end Rap
