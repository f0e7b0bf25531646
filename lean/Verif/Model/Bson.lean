import Verif.Model.Marshal

/-!
# Metadata written as BSON

format/metadata/property.go, `MarshalBSONValue` and `MarshalBSON` of each property type. They hand their value to
go.mongodb.org/mongo-driver v1.11.6 (go.mod), whose source is not in the sandbox. What it does is written here from its
documented behaviour: the tests at property_test.go:372-424 confirm it for bytes, booleans, floats and vectors.

Simplifications. A map is an association list whose order is the order in which Go goes through the map. A nil slice of
properties is an empty one (the driver writes null for it). The driver's limit on nesting does not exist in v1.11.6.
-/

namespace Rap

/-- The driver on the end of a document or an array: the size goes in front (an int32, larger ones are refused). -/
def bsonDocument (body : Bytes) : GoE Bytes :=
  if body.length + 5 < 2 ^ 31 then pure (leBytes 4 (body.length + 5) ++ body ++ [0]) else GoE.fail 90

/-- The driver on one member: the type, the key, a zero, the value. A key with a zero in it is refused. -/
def bsonElement (key : Bytes) (v : UInt8 × Bytes) : GoE Bytes :=
  if 0 ∈ key then GoE.fail 91 else pure (v.1 :: (key ++ 0 :: v.2))

/-- The driver on `[]bool`: the items of an array from item `i`. -/
def bsonBools (i : Nat) : List Bool → GoE Bytes
  | [] => pure []
  | b :: bs => do
    let e ← bsonElement (V1.decimalNat i) (8, [if b then 1 else 0])
    let es ← bsonBools (i + 1) bs
    pure (e ++ es)

/-- The driver on a struct of float64s (property.go:360-366, 440-448). -/
def bsonFloats : List (Bytes × F64) → GoE Bytes
  | [] => pure []
  | (k, x) :: xs => do
    let e ← bsonElement k (1, leBytes 8 x.toNat)
    let es ← bsonFloats xs
    pure (e ++ es)

/-- The driver on a `time.Time`, `primitive.NewDateTimeFromTime`: `t.Unix()*1e3 + int64(t.Nanosecond())/1e6`. -/
def bsonTime (ns : BitVec 64) : BitVec 64 :=
  BitVec.ofInt 64 (ns.toInt / 1000000000 * 1000 + ns.toInt % 1000000000 / 1000000)

mutual
/-- `MarshalBSONValue` and `MarshalBSON` of each property type (property.go:66-68, 119-121, 172-174, 233-235, 292-294,
359-368, 439-450, 536-538, 593-595, 658-660, 783-805): the type byte and the bytes of the value. The driver gives a
nested `MarshalBSON` the type of a document. A nil property only occurs inside others and is null. -/
def bsonValue : Property → GoE (UInt8 × Bytes)
  | .str s => pure (2, leBytes 4 (s.length + 1) ++ s ++ [0])
  | .int32 i => pure (16, leBytes 4 i.toNat)
  | .f32 f => pure (1, leBytes 8 (widen f).toNat)
  | .bool b => pure (8, [if b then 1 else 0])
  | .byte b => pure (16, leBytes 4 b.toNat)
  | .vec2 x y => do
    let body ← bsonFloats [(b!"x", x), (b!"y", y)]
    let t ← bsonDocument body
    pure (3, t)
  | .vec3 x y z => do
    let body ← bsonFloats [(b!"x", x), (b!"y", y), (b!"z", z)]
    let t ← bsonDocument body
    pure (3, t)
  | .block kvs => do
    let body ← bsonMembers kvs
    let t ← bsonDocument body
    pure (3, t)
  | .time t => pure (9, leBytes 8 (bsonTime (t * 1000)).toNat)
  | .array _ props => do
    let body ← bsonItems 0 props
    let t ← bsonDocument body
    pure (4, t)
  | .raw base data => do
    let b ← rawBytes data
    if base = 5 then pure (5, leBytes 4 b.length ++ 0 :: b)
    else if base = 3 then do
      let body ← bsonBools 0 (b.map fun c => c &&& 1 == 1)
      let t ← bsonDocument body
      pure (4, t)
    else pure (10, [])
  | .nil => pure (10, [])

/-- The driver on a map: its members. -/
def bsonMembers : List (Bytes × Property) → GoE Bytes
  | [] => pure []
  | (k, p) :: rest => do
    let v ← bsonValue p
    let e ← bsonElement k v
    let es ← bsonMembers rest
    pure (e ++ es)

/-- The driver on a slice of properties: the items of an array from item `i`, with decimal numbers for keys. -/
def bsonItems (i : Nat) : List Property → GoE Bytes
  | [] => pure []
  | p :: rest => do
    let v ← bsonValue p
    let e ← bsonElement (V1.decimalNat i) v
    let es ← bsonItems (i + 1) rest
    pure (e ++ es)
end

/-- `MetadataProperty.MarshalBSON` (property.go:536-538). -/
def bsonBlock (kvs : List (Bytes × Property)) : GoE Bytes := do
  let body ← bsonMembers kvs
  bsonDocument body

end Rap
