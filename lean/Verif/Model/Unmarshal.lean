import Verif.Model.Marshal

/-!
# Metadata from JSON: the typed UnmarshalJSON methods of format/metadata/property.go

Each property type reads itself from a text; `UnmarshalNewInt32Property` and its like (property.go:95-99, 148-152, 209-213,
265-269, 325-329, 398-402, 505-509, 564-568) call `json.Unmarshal`, which checks the text and calls the method.

Simplification: a text in which an object has the same key twice is taken as a list of members; encoding/json keeps the
last one when it builds a map.
-/

namespace Rap

/-- What encoding/json makes of a text. -/
structure UnmarshalExt where
  /-- `json.Unmarshal` into an `interface{}`; `none` is an error -/
  value : Bytes → Option JVal
  /-- the text of a number as an int32 (`strconv.ParseInt` and `OverflowInt`); `none` is an error -/
  int32 : Bytes → Option (BitVec 32)
  /-- the text of a number as a float32 (`strconv.ParseFloat(s, 32)`); `none` is an error -/
  float32 : Bytes → Option F32

/-- `json.Unmarshal` into a string (property.go:54-57, 276-279, 576-579); null leaves it empty. -/
def decodeString (U : UnmarshalExt) (b : Bytes) : GoE Bytes :=
  match U.value b with
  | some (.str s) => pure s
  | some .null => pure []
  | _ => GoE.fail 40

/-- `Int32Property.UnmarshalJSON` (property.go:106-113); null leaves the number 0. -/
def unmarshalInt32 (U : UnmarshalExt) (b : Bytes) : GoE (BitVec 32) :=
  match U.value b with
  | some (.num _) => GoE.get 41 (U.int32 b)
  | some .null => pure 0
  | _ => GoE.fail 42

/-- `Float32Property.UnmarshalJSON` (property.go:159-166). -/
def unmarshalFloat32 (U : UnmarshalExt) (b : Bytes) : GoE F32 :=
  match U.value b with
  | some (.num _) => GoE.get 43 (U.float32 b)
  | some .null => pure 0
  | _ => GoE.fail 44

/-- `BoolProperty.UnmarshalJSON` (property.go:220-227). -/
def unmarshalBool (U : UnmarshalExt) (b : Bytes) : GoE Bool :=
  match U.value b with
  | some (.bool x) => pure x
  | some .null => pure false
  | _ => GoE.fail 45

/-- `ByteProperty.UnmarshalJSON` (property.go:275-286): the first of the bytes, which may be missing. -/
def unmarshalByte (U : UnmarshalExt) (b : Bytes) : GoE UInt8 := do
  let s ← decodeString U b
  let bs ← GoE.get 46 (hexDecode (if b!"0x" <+: s then s.drop 2 else s))
  match bs with
  | [] => GoE.panic .indexOutOfRange
  | c :: _ => pure c

/-- encoding/json: the key of a member is the name of the field, or that name in other case. `lower` and `upper` are the two
spellings of a name of one letter. -/
def isField (lower upper : UInt8) (k : Bytes) : Bool := k == [lower] || k == [upper]

/-- encoding/json: storing a value into a float64 field; null leaves it as it is. -/
def setFloat (v : JVal) (old : F64) : GoE F64 :=
  match v with
  | .num d => pure d
  | .null => pure old
  | _ => GoE.fail 47

/-- encoding/json: the members of an object are stored into the fields X, Y and Z of a struct, others are passed over. (An error is
reported at the end only; that is the same, since nothing else is done on error.) -/
def setFields : List (Bytes × JVal) → F64 × F64 × F64 → (three : Bool) → GoE (F64 × F64 × F64)
  | [], v, _ => pure v
  | (k, j) :: rest, (x, y, z), three =>
    if isField 120 88 k then do
      let x ← setFloat j x
      setFields rest (x, y, z) three
    else if isField 121 89 k then do
      let y ← setFloat j y
      setFields rest (x, y, z) three
    else if three && isField 122 90 k then do
      let z ← setFloat j z
      setFields rest (x, y, z) three
    else setFields rest (x, y, z) three

/-- `json.Unmarshal` into the structs of property.go:337-340 and 409-413. -/
def unmarshalFields (U : UnmarshalExt) (three : Bool) (b : Bytes) : GoE (F64 × F64 × F64) :=
  match U.value b with
  | some (.obj d) => setFields d (0, 0, 0) three
  | some .null => pure (0, 0, 0)
  | _ => GoE.fail 48

/-- `Vector2Property.UnmarshalJSON` (property.go:336-347). -/
def unmarshalVector2 (U : UnmarshalExt) (b : Bytes) : GoE (F64 × F64) := do
  let v ← unmarshalFields U false b
  pure (v.1, v.2.1)

/-- `Vector3Property.UnmarshalJSON` (property.go:408-421). -/
def unmarshalVector3 (U : UnmarshalExt) (b : Bytes) : GoE (F64 × F64 × F64) := unmarshalFields U true b

/-- `MetadataProperty.UnmarshalJSON` (property.go:515-530); null is a nil map. -/
def unmarshalBlock (U : UnmarshalExt) (X : JsonExt) (b : Bytes) : GoE Block :=
  match U.value b with
  | some (.obj d) => unmarshalMetadata X d
  | some .null => unmarshalMetadata X []
  | _ => GoE.fail 49

/-- `TimeProperty.UnmarshalJSON` (property.go:575-587). -/
def unmarshalTime (U : UnmarshalExt) (X : JsonExt) (b : Bytes) : GoE (BitVec 64) := do
  let s ← decodeString U b
  GoE.get 50 (X.parseTime s)

/-- `ArrayProperty.UnmarshalJSON` (property.go:635-651); null is a nil slice, whose first item `getProperties` asks for. -/
def unmarshalArray (U : UnmarshalExt) (X : JsonExt) (b : Bytes) : GoE Property :=
  let read (items : List JVal) : GoE Property := do
    let p ← getProperties X (.arr items)
    match p with
    | .array c ps => pure (.array c ps)
    | _ => GoE.fail 51
  match U.value b with
  | some (.arr items) => read items
  | some .null => read []
  | _ => GoE.fail 52

/-- `ArrayPropertyRaw.UnmarshalJSON` (property.go:739-755). -/
def unmarshalRaw (U : UnmarshalExt) (X : JsonExt) (b : Bytes) : GoE Property :=
  match U.value b with
  | some j => do
    let p ← getProperties X j
    match p with
    | .raw base data => pure (.raw base data)
    | _ => GoE.fail 53
  | none => GoE.fail 54

/-- `UnmarshalJSON` of the type of the given property (property.go:53-60 for strings, the others as above). -/
def unmarshalLike (U : UnmarshalExt) (X : JsonExt) : Property → Bytes → GoE Property
  | .str _, b => do
    let s ← decodeString U b
    pure (.str s)
  | .int32 _, b => do
    let i ← unmarshalInt32 U b
    pure (.int32 i)
  | .f32 _, b => do
    let f ← unmarshalFloat32 U b
    pure (.f32 f)
  | .bool _, b => do
    let x ← unmarshalBool U b
    pure (.bool x)
  | .byte _, b => do
    let c ← unmarshalByte U b
    pure (.byte c)
  | .vec2 _ _, b => do
    let v ← unmarshalVector2 U b
    pure (.vec2 v.1 v.2)
  | .vec3 _ _ _, b => do
    let v ← unmarshalVector3 U b
    pure (.vec3 v.1 v.2.1 v.2.2)
  | .block _, b => do
    let kvs ← unmarshalBlock U X b
    pure (.block kvs)
  | .time _, b => do
    let t ← unmarshalTime U X b
    pure (.time t)
  | .array _ _, b => unmarshalArray U X b
  | .raw _ _, b => unmarshalRaw U X b
  | .nil, _ => GoE.panic .nilDeref

end Rap
