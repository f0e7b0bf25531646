import Verif.Model.RapV1
import Verif.Spec.JsonText
import Verif.Spec.Layout

/-!
# Specification: a version 1 message in the protobuf wire format

The format as in the document "Encoding" of Protocol Buffers: a message is a sequence of fields in any order; a field is a tag
(number and wire type) and a payload. The message itself is recording.proto, as in the tags of internal/io/rapv1/recording.pb.go.
-/

namespace Rap.Wire

/-- Base 128, low digit first; the high bit of a byte says that more follow. Leading zeros are allowed. -/
inductive Digits : Nat → Bytes → Prop where
  | last (c : UInt8) : c.toNat < 128 → Digits c.toNat [c]
  | more (c : UInt8) {n : Nat} {b : Bytes} : 128 ≤ c.toNat → Digits n b → Digits (c.toNat - 128 + 128 * n) (c :: b)

/-- A varint: a number below 2^64 in at most ten digits. -/
def Varint (n : Nat) (b : Bytes) : Prop := Digits n b ∧ b.length ≤ 10 ∧ n < 2 ^ 64

/-- What the payload of a field says. -/
inductive Value where
  | varint (n : Nat)
  | fixed32 (n : Nat)
  | bytes (s : Bytes)
  | other
  deriving DecidableEq

mutual
/-- The payload of a field with this number and wire type. At most `depth` groups are nested. -/
inductive Payload : (depth num typ : Nat) → Value → Bytes → Prop where
  | varint {depth num n : Nat} {b : Bytes} : Varint n b → Payload depth num 0 (.varint n) b
  | fixed64 {depth num : Nat} {b : Bytes} : b.length = 8 → Payload depth num 1 .other b
  | bytes {depth num : Nat} {n s : Bytes} : Varint s.length n → Payload depth num 2 (.bytes s) (n ++ s)
  | group {depth num : Nat} {b : Bytes} : Group depth num b → Payload (depth + 1) num 3 .other b
  | fixed32 {depth num n : Nat} {b : Bytes} : Layout.Fixed 4 n b → Payload depth num 5 (.fixed32 n) b

/-- The fields of a group, and its end tag. -/
inductive Group : (depth num : Nat) → Bytes → Prop where
  | stop {depth num : Nat} {t : Bytes} : 1 ≤ num → num < 2 ^ 31 → Varint (8 * num + 4) t → Group depth num t
  | field {depth num num' typ : Nat} {v : Value} {t p r : Bytes} : 1 ≤ num' → num' < 2 ^ 31 → Varint (8 * num' + typ) t →
      Payload depth num' typ v p → Group depth num r → Group depth num (t ++ (p ++ r))
end

/-- The fields of a message. -/
inductive Fields : List (Nat × Value) → Bytes → Prop where
  | nil : Fields [] []
  | cons {num typ : Nat} {v : Value} {t p r : Bytes} {fs : List (Nat × Value)} : 1 ≤ num → num < 2 ^ 29 →
      Varint (8 * num + typ) t → Payload 10001 num typ v p → Fields fs r → Fields ((num, v) :: fs) (t ++ (p ++ r))

/-- The values of a field of strings or messages, in order. Those in another wire type do not count. -/
def bytesOf (num : Nat) (fs : List (Nat × Value)) : List Bytes :=
  fs.filterMap fun | (k, .bytes s) => if k = num then some s else none | _ => none

/-- The values of a field of integers. -/
def varintsOf (num : Nat) (fs : List (Nat × Value)) : List Nat :=
  fs.filterMap fun | (k, .varint n) => if k = num then some n else none | _ => none

/-- The values of a field of floats. -/
def fixedOf (num : Nat) (fs : List (Nat × Value)) : List Nat :=
  fs.filterMap fun | (k, .fixed32 n) => if k = num then some n else none | _ => none

/-- A string: the last one, or the empty string; all of them are UTF-8. -/
def IsString (num : Nat) (fs : List (Nat × Value)) (s : Bytes) : Prop :=
  (∀ x ∈ bytesOf num fs, Utf8 x) ∧ (bytesOf num fs).getLastD [] = s

/-- A float: the last one, or 0. -/
def IsFloat (num : Nat) (fs : List (Nat × Value)) (f : F32) : Prop := BitVec.ofNat 32 ((fixedOf num fs).getLastD 0) = f

/-- An int32 or enum: the last one, or 0; larger numbers are cut to 32 bits. -/
def IsInt (num : Nat) (fs : List (Nat × Value)) (i : BitVec 32) : Prop := BitVec.ofNat 32 ((varintsOf num fs).getLastD 0) = i

/-- A repeated message: all of them, in order. -/
def IsList {α : Type} (R : α → Bytes → Prop) (num : Nat) (fs : List (Nat × Value)) (l : List α) : Prop :=
  List.Forall₂ R l (bytesOf num fs)

/-- An entry of a map. -/
def Entry (kv : Bytes × Bytes) (b : Bytes) : Prop := ∃ fs, Fields fs b ∧ IsString 1 fs kv.1 ∧ IsString 2 fs kv.2

/-- A map, in any order: the last entry with a key counts. -/
def IsMap (num : Nat) (fs : List (Nat × Value)) (m : List (Bytes × Bytes)) : Prop :=
  ∃ kvs, IsList Entry num fs kvs ∧ (m.map (·.1)).Nodup ∧ ∀ k v, (k, v) ∈ m ↔ kvs.reverse.lookup k = some v

/-- `VectorCapture`. -/
def Vector (v : V1.VectorCapture) (b : Bytes) : Prop :=
  ∃ fs, Fields fs b ∧ IsFloat 1 fs v.time ∧ IsFloat 2 fs v.x ∧ IsFloat 3 fs v.y ∧ IsFloat 4 fs v.z

/-- `LifeCycleEventCapture`. -/
def Life (e : V1.LifeEvent) (b : Bytes) : Prop := ∃ fs, Fields fs b ∧ IsFloat 1 fs e.time ∧ IsInt 2 fs e.type

/-- `CustomEventCapture`. -/
def Event (e : V1.CustomEvent) (b : Bytes) : Prop :=
  ∃ fs, Fields fs b ∧ IsFloat 1 fs e.time ∧ IsString 2 fs e.name ∧ IsString 3 fs e.contents ∧ IsMap 4 fs e.data

/-- `SubjectRecording`. -/
def Subject (s : V1.Subject) (b : Bytes) : Prop :=
  ∃ fs, Fields fs b ∧ IsInt 1 fs s.id ∧ IsString 2 fs s.name ∧ IsMap 3 fs s.metadata ∧ IsList Event 4 fs s.events ∧
    IsList Life 5 fs s.lifecycle ∧ IsList Vector 6 fs s.positions ∧ IsList Vector 7 fs s.rotations

/-- `Recording`. -/
def Message (r : V1.Recording) (b : Bytes) : Prop :=
  ∃ fs, Fields fs b ∧ IsString 1 fs r.name ∧ IsMap 2 fs r.metadata ∧ IsList Subject 3 fs r.subjects ∧ IsList Event 4 fs r.events

/-- The same event, whatever the order of its map. -/
def SameEvent (e e' : V1.CustomEvent) : Prop :=
  e.time = e'.time ∧ e.name = e'.name ∧ e.contents = e'.contents ∧ e.data.Perm e'.data

/-- The same subject, whatever the order of its maps. -/
def SameSubject (s s' : V1.Subject) : Prop :=
  s.id = s'.id ∧ s.name = s'.name ∧ s.metadata.Perm s'.metadata ∧ List.Forall₂ SameEvent s.events s'.events ∧
    s.lifecycle = s'.lifecycle ∧ s.positions = s'.positions ∧ s.rotations = s'.rotations

/-- The same recording, whatever the order of its maps. -/
def SameMessage (r r' : V1.Recording) : Prop :=
  r.name = r'.name ∧ r.metadata.Perm r'.metadata ∧ List.Forall₂ SameSubject r.subjects r'.subjects ∧
    List.Forall₂ SameEvent r.events r'.events

end Rap.Wire
