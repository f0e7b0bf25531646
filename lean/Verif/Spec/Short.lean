import Verif.Spec.Layout

/-!
# Specification: data that ends early

What a decoder that does not notice the end of its data takes for the missing bytes: whatever its buffer, or its
variables, hold from before.
-/

namespace Rap

/-- Items come in groups of `w`. The item at place `k` of group `i`, or, where the list has none there, of the last
group before it that has one; `none` if there is no such group. -/
def lastOf {α : Type} (w : Nat) (l : List α) (none : α) (i k : Nat) : α :=
  l.getD (w * min i ((l.length - 1 - k) / w) + k) none

/-- Group `i` of `w` bytes, missing bytes being those of the last group that has them, or 0. -/
def held (w : Nat) (d : Bytes) (i : Nat) : Bytes := (List.range w).map (lastOf w d 0 i)

/-- The number in some bytes, the low byte first. -/
def littleNat (b : Bytes) : Nat := b.foldr (fun c n => c.toNat + 256 * n) 0

/-- The complete groups of four bytes, as float32s. -/
def wholeWords (d : Bytes) : List F32 :=
  (List.range (d.length / 4)).map fun i => BitVec.ofNat 32 (littleNat ((d.drop (4 * i)).take 4))

/-- The complete groups of eight bytes, as float64s. -/
def wholeDoubles (d : Bytes) : List F64 :=
  (List.range (d.length / 8)).map fun i => BitVec.ofNat 64 (littleNat ((d.drop (8 * i)).take 8))

/-- Five bytes are two groups of four, the second of which lacks three: they are those of the first. -/
example : held 4 [1, 2, 3, 4, 9] 1 = [9, 2, 3, 4] ∧ held 4 [1, 2, 3, 4, 9] 7 = [9, 2, 3, 4] ∧ held 4 [7] 0 = [7, 0, 0, 0] ∧
    wholeWords [0, 0, 0x80, 0x3F, 9] = [0x3F800000] := by decide +kernel

end Rap
