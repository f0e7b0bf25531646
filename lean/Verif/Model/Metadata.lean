import Verif.Model.Binary
import Verif.Model.Float

/-!
# format/metadata: property values and their byte form

A `metadata.Block` (format/metadata/metadata.go:3-17) wraps a Go map; it is an association list whose order is the
order in which the runtime iterates the map. `deriving` and JSON/BSON methods of the Go types are not part of this file.
-/

namespace Rap

/-- `metadata.Property` and its implementations (format/metadata/property.go). `nil` is the nil interface value.
`ArrayPropertyRaw.division` (property.go:723) is always 1 and only used for printing; it is left out. -/
inductive Property where
  /-- property.go:31-39 -/
  | str (s : Bytes)
  /-- property.go:71-79 -/
  | int32 (i : BitVec 32)
  /-- property.go:124-132 -/
  | f32 (f : F32)
  /-- property.go:177-185 -/
  | bool (b : Bool)
  /-- property.go:238-246 -/
  | byte (b : UInt8)
  /-- property.go:297-307 -/
  | vec2 (x y : F64)
  /-- property.go:371-383 -/
  | vec3 (x y z : F64)
  /-- property.go:453-459 -/
  | block (kvs : List (Bytes × Property))
  /-- property.go:541-549, microseconds -/
  | time (micros : BitVec 64)
  /-- property.go:598-608 -/
  | array (base : UInt8) (props : List Property)
  /-- property.go:720-724 -/
  | raw (base : UInt8) (data : Bytes)
  /-- a nil interface value -/
  | nil

/-- `metadata.Block` (format/metadata/metadata.go:3-5). -/
abbrev Block := List (Bytes × Property)

namespace Property

/-- `NewIntProperty` (property.go:75-79): conversion `int32(i)`. -/
def newInt (i : Int) : Property := .int32 (BitVec.ofInt 32 i)

/-- `NewStringArrayProperty` (property.go:662-668). -/
def newStringArray (l : List Bytes) : Property := .array 0 (l.map .str)
/-- `NewIntArrayProperty` (property.go:670-676). -/
def newIntArray (l : List Int) : Property := .array 1 (l.map newInt)
/-- `NewFloat32ArrayProperty` (property.go:678-684). -/
def newFloat32Array (l : List F32) : Property := .array 2 (l.map .f32)
/-- `NewVector2ArrayProperty` (property.go:686-692). -/
def newVector2Array (l : List (F64 × F64)) : Property := .array 6 (l.map fun v => .vec2 v.1 v.2)
/-- `NewVector3ArrayProperty` (property.go:694-700). -/
def newVector3Array (l : List (F64 × F64 × F64)) : Property := .array 7 (l.map fun v => .vec3 v.1 v.2.1 v.2.2)
/-- `NewMetadataArrayProperty` (property.go:702-708). -/
def newMetadataArray (l : List Block) : Property := .array 11 (l.map .block)
/-- `NewTimestampArrayProperty` (property.go:710-716), from the microseconds of each time. -/
def newTimestampArray (l : List (BitVec 64)) : Property := .array 12 (l.map .time)
/-- `NewBinaryArrayProperty` (property.go:806-812). -/
def newBinaryArray (b : Bytes) : Property := .raw 5 (bytesArrayToBytes b)
/-- `NewBoolArrayProperty` (property.go:814-829). -/
def newBoolArray (l : List Bool) : Property := .raw 3 (bytesArrayToBytes (l.map fun b => if b then 1 else 0))

/-- `Property.Code()` (property.go:41,81,134,187,248,309,385,465,551,610,726). Calling it on a nil interface panics. -/
def code : Property → Go UInt8
  | .str _ => .ok 0
  | .int32 _ => .ok 1
  | .f32 _ => .ok 2
  | .bool b => .ok (if b then 3 else 4)
  | .byte _ => .ok 5
  | .vec2 .. => .ok 6
  | .vec3 .. => .ok 7
  | .block _ => .ok 11
  | .time _ => .ok 12
  | .array base _ => .ok (13 + base)
  | .raw base _ => .ok (13 + base)
  | .nil => .error .nilDeref

mutual
/-- `Property.Data()` (property.go:49,89,142,201,256,317,393,485,559,618,734). -/
def data : Property → Go Bytes
  | .str s => .ok (stringToBytes s)
  | .int32 i => .ok (leBytes 4 i.toNat)
  | .f32 f => .ok (leBytes 4 f.toNat)
  | .bool _ => .ok []
  | .byte b => .ok [b]
  | .vec2 x y => .ok (leBytes 8 x.toNat ++ leBytes 8 y.toNat)
  | .vec3 x y z => .ok (leBytes 8 x.toNat ++ leBytes 8 y.toNat ++ leBytes 8 z.toNat)
  | .block kvs => do
    let rest ← dataBlock kvs
    .ok (stringArrayToBytes (kvs.map (·.1)) ++ rest)
  | .time t => .ok (leBytes 8 t.toNat)
  | .array _ props => do
    let rest ← dataList props
    .ok (putUvarint (u64 props.length) ++ rest)
  | .raw _ data => .ok data
  | .nil => .error .nilDeref

/-- The loop of `MetadataProperty.Data()` (property.go:497-500). -/
def dataBlock : List (Bytes × Property) → Go Bytes
  | [] => .ok []
  | (_, p) :: kvs => do
    let c ← code p
    let d ← data p
    let rest ← dataBlock kvs
    .ok (c :: d ++ rest)

/-- The loop of `ArrayProperty.Data()` (property.go:625-627). -/
def dataList : List Property → Go Bytes
  | [] => .ok []
  | p :: ps => do
    let d ← data p
    let rest ← dataList ps
    .ok (d ++ rest)
end

/-- `WriteProprty` (format/metadata/io.go:12-19): the bytes it writes. -/
def bytes (p : Property) : Go Bytes := do
  let c ← p.code
  let d ← p.data
  .ok (c :: d)

end Property

/-- `m[key] = v` on a Go map. -/
def mapSet {β : Type} (m : List (Bytes × β)) (k : Bytes) (v : β) : List (Bytes × β) :=
  match m with
  | [] => [(k, v)]
  | (k', v') :: rest => if k' = k then (k, v) :: rest else (k', v') :: mapSet rest k v

/-- `m[key]` on a Go map. -/
def mapGet {β : Type} (m : List (Bytes × β)) (k : Bytes) : Option β :=
  match m with
  | [] => none
  | (k', v') :: rest => if k' = k then some v' else mapGet rest k

/-- `binary.Read` of a fixed-size value of `k` bytes: its bits, or the error. -/
def readFixed (k : Nat) : Prog (Except Err Nat) :=
  .readFull k fun b err =>
    match err with
    | some e => .pure (.error e)
    | none => .pure (.ok (leNat b))

/-- `readFloat64s` (format/metadata/io.go:21-32). -/
def readFloat64s : (count : Nat) → Prog (Except Err (List F64))
  | 0 => pure (.ok [])
  | n + 1 => do
    match ← readFixed 8 with
    | .error e => pure (.error e)
    | .ok v =>
      match ← readFloat64s n with
      | .error e => pure (.error e)
      | .ok vs => pure (.ok (BitVec.ofNat 64 v :: vs))

/-- `NewTimeProperty(time.UnixMicro(v))` (format/metadata/io.go:115, property.go:545-549): the microseconds after the
detour through `time.Time`. `time.UnixMicro(u) = time.Unix(u/1e6, (u%1e6)*1e3)`, which normalises negative
nanoseconds; `UnixMicro()` is `sec*1e6 + nsec/1e3` (Go standard library). -/
def timeRoundTrip (v : BitVec 64) : BitVec 64 :=
  let u := v.toInt
  let sec := u.tdiv 1000000
  let nsec := u.tmod 1000000 * 1000
  if nsec < 0 then BitVec.ofInt 64 ((sec - 1) * 1000000 + (nsec + 1000000000).tdiv 1000)
  else BitVec.ofInt 64 (sec * 1000000 + nsec.tdiv 1000)

/-- `ReadProperty` (format/metadata/io.go:165-172), given the function reading the data after the type code. -/
def readPropertyWith (rd : UInt8 → Prog (Except Err Property)) : Prog (Except Err Property) :=
  .read 1 fun got err =>
    match err with
    | some e => .pure (.error e)
    | none => rd (got.headD 0)

/-- The loop of `readNestedMetadatablock` (format/metadata/io.go:42-49). -/
def readBlockLoop (rd : UInt8 → Prog (Except Err Property)) : List Bytes → Block → Prog (Except Err Property)
  | [], acc => pure (.ok (.block acc))
  | key :: keys, acc => do
    match ← readPropertyWith rd with
    | .error e => pure (.error e)
    | .ok p => readBlockLoop rd keys (mapSet acc key p)

/-- The loop over array elements (format/metadata/io.go:154-160); `base` is `adjustedType`. -/
def readElemLoop (rd : Prog (Except Err Property)) (base : UInt8) :
    Nat → List Property → Prog (Except Err Property)
  | 0, acc => pure (.ok (.array base acc.reverse))
  | n + 1, acc => do
    match ← rd with
    | .error e => pure (.error e)
    | .ok p => readElemLoop rd base n (p :: acc)

/-- `readPropData` (format/metadata/io.go:52-163), with `readNestedMetadatablock` (io.go:34-50) in case 11. The
recursion depth is bounded by `fuel`. -/
def readPropData : (fuel : Nat) → (code : UInt8) → Prog (Except Err Property)
  | 0, _ => .panic .outOfFuel
  | fuel + 1, code =>
    if code = 0 then do
      let (str, _, err) ← readString
      match err with
      | some e => pure (.error e)
      | none => pure (.ok (.str str))
    else if code = 1 then do
      match ← readFixed 4 with
      | .error e => pure (.error e)
      | .ok v => pure (.ok (Property.newInt (BitVec.ofNat 32 v).toInt))
    else if code = 2 then do
      match ← readFixed 4 with
      | .error e => pure (.error e)
      | .ok v => pure (.ok (.f32 (BitVec.ofNat 32 v)))
    else if code = 3 then pure (.ok (.bool true))
    else if code = 4 then pure (.ok (.bool false))
    else if code = 5 then
      .read 1 fun got err =>
        match err with
        | some e => .pure (.error e)
        | none => .pure (.ok (.byte (got.headD 0)))
    else if code = 6 then do
      match ← readFloat64s 2 with
      | .error e => pure (.error e)
      | .ok vals => pure (.ok (.vec2 (vals.getD 0 0) (vals.getD 1 0)))
    else if code = 7 then do
      match ← readFloat64s 3 with
      | .error e => pure (.error e)
      | .ok vals => pure (.ok (.vec3 (vals.getD 0 0) (vals.getD 1 0) (vals.getD 2 0)))
    else if code = 11 then do
      let (keys, _, err) ← readStringArray
      match err with
      | some e => pure (.error e)
      | none => readBlockLoop (readPropData fuel) keys []
    else if code = 12 then do
      match ← readFixed 8 with
      | .error e => pure (.error e)
      | .ok v => pure (.ok (.time (timeRoundTrip (BitVec.ofNat 64 v))))
    else if code = 16 then do
      let (all, _, err) ← readBytesArray
      match err with
      | some e => pure (.error e)
      | none => pure (.ok (.raw 3 (bytesArrayToBytes all)))
    else if code = 18 then do
      let (all, _, err) ← readBytesArray
      match err with
      | some e => pure (.error e)
      | none => pure (.ok (Property.newBinaryArray all))
    else if code = 13 ∨ code = 14 ∨ code = 15 ∨ code = 19 ∨ code = 20 ∨ code = 24 ∨ code = 25 then do
      let (len, _, err) ← readUvarint
      match err with
      | some e => pure (.error e)
      | none =>
        Prog.make len 16
        readElemLoop (readPropData fuel (code - 13)) (code - 13) len []
    else pure (.error (.badProperty code.toNat))

/-- `ReadProperty` (format/metadata/io.go:165-172). -/
def readProperty (fuel : Nat) : Prog (Except Err Property) := readPropertyWith (readPropData fuel)

end Rap
