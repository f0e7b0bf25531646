import Verif.Spec.JsonText
import Verif.Spec.Number
import Verif.Spec.Text

/-!
# BSON (bsonspec.org, version 1.1)

The grammar of documents, and the BSON value a metadata property stands for. Only the types of values that metadata can
have are listed.
-/

namespace Rap

/-- The values of a BSON document. Documents and arrays are lists of names and values. -/
inductive BVal where
  | double (x : BitVec 64)
  | string (s : Bytes)
  | doc (es : List (Bytes × BVal))
  | arr (es : List (Bytes × BVal))
  | bin (subtype : UInt8) (b : Bytes)
  | bool (b : Bool)
  | datetime (ms : BitVec 64)
  | null
  | int32 (i : BitVec 32)

/-- `k` bytes, least significant first. -/
def Little (t : Bytes) (k n : Nat) : Prop := t.length = k ∧ t.foldr (fun c v => c.toNat + 256 * v) 0 = n

/-- A name: UTF-8 without zeros. -/
def BsonName (k : Bytes) : Prop := Utf8 k ∧ 0 ∉ k

/-- `e_list`: the elements of a document. An element is the byte of its type, its name, a zero, and its value. -/
inductive BsonElems : Bytes → List (Bytes × BVal) → Prop
  | nil : BsonElems [] []
  | double {k t rest : Bytes} {x : BitVec 64} {es : List (Bytes × BVal)} : BsonName k → Little t 8 x.toNat →
      BsonElems rest es → BsonElems (1 :: (k ++ 0 :: (t ++ rest))) ((k, .double x) :: es)
  | string {k n s rest : Bytes} {es : List (Bytes × BVal)} : BsonName k → Utf8 s → s.length + 1 < 2 ^ 31 →
      Little n 4 (s.length + 1) → BsonElems rest es →
      BsonElems (2 :: (k ++ 0 :: (n ++ (s ++ 0 :: rest)))) ((k, .string s) :: es)
  | doc {k n body rest : Bytes} {ds es : List (Bytes × BVal)} : BsonName k → BsonElems body ds →
      body.length + 5 < 2 ^ 31 → Little n 4 (body.length + 5) → BsonElems rest es →
      BsonElems (3 :: (k ++ 0 :: (n ++ (body ++ 0 :: rest)))) ((k, .doc ds) :: es)
  | arr {k n body rest : Bytes} {ds es : List (Bytes × BVal)} : BsonName k → BsonElems body ds →
      body.length + 5 < 2 ^ 31 → Little n 4 (body.length + 5) → BsonElems rest es →
      BsonElems (4 :: (k ++ 0 :: (n ++ (body ++ 0 :: rest)))) ((k, .arr ds) :: es)
  | bin {k n b rest : Bytes} {sub : UInt8} {es : List (Bytes × BVal)} : BsonName k → b.length < 2 ^ 31 →
      Little n 4 b.length → BsonElems rest es →
      BsonElems (5 :: (k ++ 0 :: (n ++ sub :: (b ++ rest)))) ((k, .bin sub b) :: es)
  | no {k rest : Bytes} {es : List (Bytes × BVal)} : BsonName k → BsonElems rest es →
      BsonElems (8 :: (k ++ 0 :: 0 :: rest)) ((k, .bool false) :: es)
  | yes {k rest : Bytes} {es : List (Bytes × BVal)} : BsonName k → BsonElems rest es →
      BsonElems (8 :: (k ++ 0 :: 1 :: rest)) ((k, .bool true) :: es)
  | datetime {k t rest : Bytes} {ms : BitVec 64} {es : List (Bytes × BVal)} : BsonName k → Little t 8 ms.toNat →
      BsonElems rest es → BsonElems (9 :: (k ++ 0 :: (t ++ rest))) ((k, .datetime ms) :: es)
  | null {k rest : Bytes} {es : List (Bytes × BVal)} : BsonName k → BsonElems rest es →
      BsonElems (10 :: (k ++ 0 :: rest)) ((k, .null) :: es)
  | int32 {k t rest : Bytes} {i : BitVec 32} {es : List (Bytes × BVal)} : BsonName k → Little t 4 i.toNat →
      BsonElems rest es → BsonElems (16 :: (k ++ 0 :: (t ++ rest))) ((k, .int32 i) :: es)

/-- `document`: the number of bytes, the elements, a zero. -/
def BsonDoc (t : Bytes) (es : List (Bytes × BVal)) : Prop :=
  ∃ n body, t = n ++ (body ++ [0]) ∧ BsonElems body es ∧ t.length < 2 ^ 31 ∧ Little n 4 t.length

/-- The names of an array are the decimal numbers from zero up. -/
def Numbered (names : List Bytes) : Prop := ∀ i k, names[i]? = some k → IsDecimal k i

/-- The BSON value of a property. Single floats are doubles of the same value, bytes are integers, times are cut to
milliseconds. -/
inductive BsonMeans : Property → BVal → Prop
  | str {s : Bytes} : BsonMeans (.str s) (.string s)
  | int32 {i : BitVec 32} : BsonMeans (.int32 i) (.int32 i)
  | f32 {f : F32} {d : BitVec 64} : number64 d = number32 f → BsonMeans (.f32 f) (.double d)
  | bool {b : Bool} : BsonMeans (.bool b) (.bool b)
  | byte {b : UInt8} {i : BitVec 32} : i.toInt = b.toNat → BsonMeans (.byte b) (.int32 i)
  | vec2 {x y : F64} : BsonMeans (.vec2 x y) (.doc [(b!"x", .double x), (b!"y", .double y)])
  | vec3 {x y z : F64} :
      BsonMeans (.vec3 x y z) (.doc [(b!"x", .double x), (b!"y", .double y), (b!"z", .double z)])
  | block {kvs : Block} {d : List (Bytes × BVal)} : kvs.map (·.1) = d.map (·.1) →
      List.Forall₂ BsonMeans (kvs.map (·.2)) (d.map (·.2)) → BsonMeans (.block kvs) (.doc d)
  | time {t ms : BitVec 64} : 1000 * ms.toInt ≤ t.toInt → t.toInt < 1000 * (ms.toInt + 1) →
      BsonMeans (.time t) (.datetime ms)
  | array {c : UInt8} {props : List Property} {d : List (Bytes × BVal)} : Numbered (d.map (·.1)) →
      List.Forall₂ BsonMeans props (d.map (·.2)) → BsonMeans (.array c props) (.arr d)
  | binary {b : Bytes} : BsonMeans (.newBinaryArray b) (.bin 0 b)
  | bools {bs : List Bool} {d : List (Bytes × BVal)} : Numbered (d.map (·.1)) → d.map (·.2) = bs.map .bool →
      BsonMeans (.newBoolArray bs) (.arr d)
  | nil : BsonMeans .nil .null

/-- Properties that BSON has room for: texts in UTF-8, times within 292 years of 1970, raw arrays as made by the
constructors. -/
inductive BsonReady : Property → Prop
  | str {s : Bytes} : Utf8 s → BsonReady (.str s)
  | int32 {i : BitVec 32} : BsonReady (.int32 i)
  | f32 {f : F32} : BsonReady (.f32 f)
  | bool {b : Bool} : BsonReady (.bool b)
  | byte {b : UInt8} : BsonReady (.byte b)
  | vec2 {x y : F64} : BsonReady (.vec2 x y)
  | vec3 {x y z : F64} : BsonReady (.vec3 x y z)
  | block {kvs : Block} : (∀ kv ∈ kvs, Utf8 kv.1) → (∀ kv ∈ kvs, BsonReady kv.2) → BsonReady (.block kvs)
  | time {t : BitVec 64} : -2 ^ 63 ≤ t.toInt * 1000 → t.toInt * 1000 < 2 ^ 63 → BsonReady (.time t)
  | array {c : UInt8} {props : List Property} : (∀ p ∈ props, BsonReady p) → BsonReady (.array c props)
  | binary {b : Bytes} : b.length ≤ maxAlloc → BsonReady (.newBinaryArray b)
  | bools {bs : List Bool} : bs.length ≤ maxAlloc → BsonReady (.newBoolArray bs)
  | nil : BsonReady .nil

mutual
/-- No name within the property contains a zero. -/
def zeroFree : Property → Bool
  | .block kvs => zeroFreeMembers kvs
  | .array _ props => zeroFreeItems props
  | _ => true

def zeroFreeMembers : List (Bytes × Property) → Bool
  | [] => true
  | (k, p) :: rest => !k.contains 0 && zeroFree p && zeroFreeMembers rest

def zeroFreeItems : List Property → Bool
  | [] => true
  | p :: rest => zeroFree p && zeroFreeItems rest
end

mutual
/-- Bytes that are enough for the value of a property (the numbers of array items are counted as ten digits). -/
def bsonRoom : Property → Nat
  | .str s => s.length + 5
  | .int32 _ => 4
  | .f32 _ => 8
  | .bool _ => 1
  | .byte _ => 4
  | .vec2 .. => 27
  | .vec3 .. => 38
  | .block kvs => bsonRoomMembers kvs + 5
  | .time _ => 8
  | .array _ props => bsonRoomItems props + 5
  | .raw base data => if base = 5 then data.length + 5 else 13 * data.length + 5
  | .nil => 0

def bsonRoomMembers : List (Bytes × Property) → Nat
  | [] => 0
  | (k, p) :: rest => k.length + 2 + bsonRoom p + bsonRoomMembers rest

def bsonRoomItems : List Property → Nat
  | [] => 0
  | p :: rest => 12 + bsonRoom p + bsonRoomItems rest
end

end Rap
