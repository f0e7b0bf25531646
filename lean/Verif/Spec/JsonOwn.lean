import Verif.Spec.Unmarshal
import Verif.Spec.JsonDecode

/-!
# How deep metadata is nested
-/

namespace Rap

/-- Written as JSON, the property is nested at most `n` deep. (Byte strings are written as texts, other raw arrays as arrays.) -/
inductive NestsProp : Nat → Property → Prop
  | str {n : Nat} {s : Bytes} : NestsProp n (.str s)
  | int32 {n : Nat} {i : BitVec 32} : NestsProp n (.int32 i)
  | f32 {n : Nat} {f : F32} : NestsProp n (.f32 f)
  | bool {n : Nat} {b : Bool} : NestsProp n (.bool b)
  | byte {n : Nat} {b : UInt8} : NestsProp n (.byte b)
  | time {n : Nat} {t : BitVec 64} : NestsProp n (.time t)
  | nil {n : Nat} : NestsProp n .nil
  | vec2 {n : Nat} {x y : F64} : NestsProp (n + 1) (.vec2 x y)
  | vec3 {n : Nat} {x y z : F64} : NestsProp (n + 1) (.vec3 x y z)
  | binary {n : Nat} {data : Bytes} : NestsProp n (.raw 5 data)
  | raw {n : Nat} {base : UInt8} {data : Bytes} : NestsProp (n + 1) (.raw base data)
  | block {n : Nat} {kvs : Block} : (∀ kv ∈ kvs, NestsProp n kv.2) → NestsProp (n + 1) (.block kvs)
  | array {n : Nat} {c : UInt8} {props : List Property} : (∀ p ∈ props, NestsProp n p) → NestsProp (n + 1) (.array c props)

end Rap
