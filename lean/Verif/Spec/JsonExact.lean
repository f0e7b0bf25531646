import Verif.Spec.Json

/-!
# Specification: exactly what the importer makes of JSON values

`Means` (Spec/Json.lean) says what JSON values should become. `Becomes` adds the values for which the importer returns
something although they have no such meaning.
-/

namespace Rap

/-- The value is the boolean `true`. -/
def IsTrue (j : JVal) : Prop := j = .bool true

open Classical in
/-- The properties that the importer returns without an error. -/
inductive Becomes (X : JsonExt) : JVal → Property → Prop
  | null : Becomes X .null .nil
  | bool {b : Bool} : Becomes X (.bool b) (.bool b)
  /-- integers in the range of int32 -/
  | int {d : F64} {i : Int} : number64 d = .fin i → -2 ^ 31 ≤ i → i < 2 ^ 31 →
      Becomes X (.num d) (.int32 (BitVec.ofInt 32 i))
  /-- fractions, and integers outside the range of int64 -/
  | float {d : F64} {f : F32} : (∀ i : Int, number64 d = .fin i → i < -2 ^ 63 ∨ 2 ^ 63 ≤ i) → X.float32 d = some f →
      Becomes X (.num d) (.f32 f)
  | byte {text : Bytes} {b : UInt8} : HexText text [b] → Becomes X (.str (b!"0x" ++ text)) (.byte b)
  | binary {text bytes : Bytes} : HexText text bytes → bytes.length ≠ 1 →
      Becomes X (.str (b!"0x" ++ text)) (.newBinaryArray bytes)
  | time {s : Bytes} {t : BitVec 64} : ¬ b!"0x" <+: s → X.parseTime s = some t → Becomes X (.str s) (.time t)
  /-- escapes are resolved a second time -/
  | text {s t : Bytes} : ¬ b!"0x" <+: s → X.parseTime s = none → Unescapes s t → Becomes X (.str s) (.str t)
  | vec2 {d : List (Bytes × JVal)} {x y : F64} : d.Perm [(b!"x", .num x), (b!"y", .num y)] →
      Becomes X (.obj d) (.vec2 x y)
  | vec3 {d : List (Bytes × JVal)} {x y z : F64} : d.Perm [(b!"x", .num x), (b!"y", .num y), (b!"z", .num z)] →
      Becomes X (.obj d) (.vec3 x y z)
  | block {d : List (Bytes × JVal)} {kvs : Block} :
      ¬ (d.map (·.1)).Perm [b!"x", b!"y"] → ¬ (d.map (·.1)).Perm [b!"x", b!"y", b!"z"] →
      d.map (·.1) = kvs.map (·.1) → List.Forall₂ (Becomes X) (d.map (·.2)) (kvs.map (·.2)) →
      Becomes X (.obj d) (.block kvs)
  /-- if the first item is a boolean, whatever is not `true` counts as false -/
  | bools {b : Bool} {items : List JVal} :
      Becomes X (.arr (.bool b :: items)) (.newBoolArray (b :: items.map fun j => decide (IsTrue j)))
  /-- otherwise the kind of the array is that of the first item, whatever the others are -/
  | array {first : JVal} {rest : List JVal} {p : Property} {props : List Property} {c : UInt8} : (∀ b, first ≠ .bool b) →
      List.Forall₂ (Becomes X) (first :: rest) (p :: props) → p.code = .ok c →
      Becomes X (.arr (first :: rest)) (.array c (p :: props))

end Rap
