import Verif.Spec.Stored

/-!
# Specification: how many bytes a storage technique takes
-/

namespace Rap

/-- Bytes of a number of variable length: seven bits each. -/
def varintSize (n : Nat) : Nat := if n < 128 then 1 else 1 + varintSize (n / 128)
termination_by n
decreasing_by omega

/-- Bytes of `n` times: the technique, the count, and 8 (Raw64) or 4 (Raw32) bytes each; with BST16 two floats and 2 bytes
for each time but the first. -/
def timesSize : (tech : Nat) → (n : Nat) → Nat
  | 0, n => 1 + varintSize n + 8 * n
  | 1, n => 1 + varintSize n + 4 * n
  | _, 0 => 1 + varintSize 0
  | _, 1 => 1 + varintSize 1 + 4
  | _, n => 1 + varintSize n + 8 + 2 * (n - 1)

/-- Bytes of `n` positions, with Raw64, Raw32, Oct48, Oct24. -/
def positionsSize (tech : Fin 4) (n : Nat) : Nat :=
  if tech = 0 then 1 + 24 * n
  else if tech = 1 then 1 + 12 * n
  else if n = 0 then 1
  else if n = 1 then 13
  else if tech = 2 then 37 + 6 * (n - 1)
  else 37 + 3 * (n - 1)

/-- Bytes of `n` rotations, with Raw64 (of 80 bits each), Raw32, Raw16. -/
def rotationsSize : Fin 3 → (n : Nat) → Nat
  | 0, n => 1 + 30 * n
  | 1, n => 1 + 12 * n
  | 2, 1 => 13
  | 2, n => 1 + 6 * n

/-- Bytes of `n` floats, with Raw64, Raw32, BST16. -/
def floatsSize : Fin 3 → (n : Nat) → Nat
  | 0, n => 1 + 8 * n
  | 1, n => 1 + 4 * n
  | 2, n => 9 + 2 * n

/-- Bytes of the block of a collection of `n` captures, for the encoders that have techniques. -/
def blockSize : Builtin → (n : Nat) → Option Nat
  | .position t, n => some (positionsSize t n)
  | .euler t, n => some (rotationsSize t n)
  | .float t, n => some (floatsSize t n)
  | .event, _ => none
  | .enum, _ => none

/-- Encoders of the same kind of collections; their techniques may differ. -/
inductive SameKind : Builtin → Builtin → Prop
  | position (t t' : Fin 4) : SameKind (.position t) (.position t')
  | euler (t t' : Fin 3) : SameKind (.euler t) (.euler t')
  | float (t t' : Fin 3) : SameKind (.float t) (.float t')
  | event : SameKind .event .event
  | enum : SameKind .enum .enum

/-- The encoders are of the same kinds in the same order. -/
def SameKinds (ws ws' : List Builtin) : Prop := List.Forall₂ SameKind ws ws'

/-- What the techniques contribute to the size of a collection: its times, and its block with the length in front. Blocks of
events and enums do not depend on any technique and are left out. -/
def techniqueCost (ws : List Builtin) (tech : Nat) (c : Coll) : Nat :=
  timesSize tech c.times.length +
    match (Builtin.chosen ws c).bind fun b => blockSize b c.times.length with
    | some k => varintSize k + k
    | none => 0

end Rap
