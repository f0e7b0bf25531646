import Verif.Spec.JsonText
import Verif.Model.Unmarshal

/-!
# Metadata values and the texts they are read from, type by type
-/

namespace Rap

/-- Assumed of encoding/json and strconv: JSON texts are accepted for what they are, integers and float32s are read as
written. -/
structure UnmarshalExt.Lawful (U : UnmarshalExt) (M : MarshalExt) (N : Bytes → F64 → Prop) : Prop where
  /-- Texts are read by the grammar. -/
  value : ∀ b j, U.value b = some j ↔ JText N b j
  /-- Integers within the range. -/
  int32 : ∀ t (i : BitVec 32), IsInteger t i.toInt → U.int32 t = some i
  /-- The text of a float32 identifies it. -/
  float32 : ∀ f t, M.float32 f = some t → U.float32 t = some f

/-- Values that their own type reads back: all but texts that are not UTF-8, infinities, NaNs, times beyond 292 years, and what
`Portable` excludes inside blocks and arrays. -/
inductive Recoverable (X : JsonExt) : Property → Prop
  | str {s : Bytes} : Utf8 s → Recoverable X (.str s)
  | int32 {i : BitVec 32} : Recoverable X (.int32 i)
  | f32 {f : F32} {q : Rat} : number32 f = .fin q → Recoverable X (.f32 f)
  | bool {b : Bool} : Recoverable X (.bool b)
  | byte {b : UInt8} : Recoverable X (.byte b)
  | vec2 {x y : F64} {p q : Rat} : number64 x = .fin p → number64 y = .fin q → Recoverable X (.vec2 x y)
  | vec3 {x y z : F64} {p q r : Rat} : number64 x = .fin p → number64 y = .fin q → number64 z = .fin r →
      Recoverable X (.vec3 x y z)
  | time {t : BitVec 64} : -2 ^ 63 ≤ t.toInt * 1000 → t.toInt * 1000 < 2 ^ 63 → Recoverable X (.time t)
  | other {p : Property} : Portable X p → Recoverable X p

/-- The property is of a type that is read from values like `j`. -/
def Suits : Property → JVal → Prop
  | .str _, .str _ => True
  | .int32 _, .num _ => True
  | .f32 _, .num _ => True
  | .bool _, .bool _ => True
  | .byte _, .str _ => True
  | .vec2 _ _, .obj _ => True
  | .vec3 _ _ _, .obj _ => True
  | .block _, .obj _ => True
  | .time _, .str _ => True
  | .array _ _, .arr _ => True
  | .raw _ _, _ => True
  | _, _ => False

/-- `x` is the last number among the members with one of the names, or 0 if there is none. -/
def LastOf (names : List Bytes) (d : List (Bytes × JVal)) (x : F64) : Prop :=
  (∃ pre k post, d = pre ++ (k, .num x) :: post ∧ k ∈ names ∧ ∀ m ∈ post, m.1 ∈ names → m.2 = .null) ∨
    (x = 0 ∧ ∀ m ∈ d, m.1 ∈ names → m.2 = .null)

end Rap
