import Verif.Model.Metadata

/-!
# Specification: metadata values

The values a user of the package can build: one rule per public constructor of format/metadata/property.go, and the one
kind of value that only comes out of files.
-/

namespace Rap

/-- Encoded sizes up to 1 TiB: beyond it Go's own allocation limit interferes. -/
def sizeLimit : Nat := 2 ^ 40

/-- Built with the public constructors, or by `ReadProperty`, which makes the same values and boolean arrays of arbitrary
bytes (`rawBools`). Keys of one map are distinct; the list order stands for any iteration order. -/
inductive Constructible : Property → Prop where
  | str (s) : Constructible (.str s)
  | int (i : Int) : Constructible (.newInt i)
  | f32 (f) : Constructible (.f32 f)
  | bool (b) : Constructible (.bool b)
  | byte (b) : Constructible (.byte b)
  | vec2 (x y) : Constructible (.vec2 x y)
  | vec3 (x y z) : Constructible (.vec3 x y z)
  | time (t) : Constructible (.time t)
  | block (kvs : Block) : (kvs.map (·.1)).Nodup → (∀ kv ∈ kvs, Constructible kv.2) → Constructible (.block kvs)
  | stringArray (l) : Constructible (.newStringArray l)
  | intArray (l) : Constructible (.newIntArray l)
  | float32Array (l) : Constructible (.newFloat32Array l)
  | vector2Array (l) : Constructible (.newVector2Array l)
  | vector3Array (l) : Constructible (.newVector3Array l)
  | timestampArray (l) : Constructible (.newTimestampArray l)
  | metadataArray (l : List Block) : (∀ b ∈ l, Constructible (.block b)) → Constructible (.newMetadataArray l)
  | binaryArray (b) : Constructible (.newBinaryArray b)
  | boolArray (l) : Constructible (.newBoolArray l)
  | rawBools (b) : Constructible (.raw 3 (bytesArrayToBytes b))

/-- Kinds of metadata values. -/
inductive Kind where
  | str | int | f32 | bool | byte | vec2 | vec3 | time | block
  | stringArray | intArray | float32Array | vector2Array | vector3Array | timestampArray | metadataArray | binaryArray
  | boolArray
  deriving DecidableEq, Repr

/-- The kind is the public constructor used. -/
inductive HasKind : Property → Kind → Prop where
  | str (s) : HasKind (.str s) .str
  | int (i : Int) : HasKind (.newInt i) .int
  | f32 (f) : HasKind (.f32 f) .f32
  | bool (b) : HasKind (.bool b) .bool
  | byte (b) : HasKind (.byte b) .byte
  | vec2 (x y) : HasKind (.vec2 x y) .vec2
  | vec3 (x y z) : HasKind (.vec3 x y z) .vec3
  | time (t) : HasKind (.time t) .time
  | block (kvs) : HasKind (.block kvs) .block
  | stringArray (l) : HasKind (.newStringArray l) .stringArray
  | intArray (l) : HasKind (.newIntArray l) .intArray
  | float32Array (l) : HasKind (.newFloat32Array l) .float32Array
  | vector2Array (l) : HasKind (.newVector2Array l) .vector2Array
  | vector3Array (l) : HasKind (.newVector3Array l) .vector3Array
  | timestampArray (l) : HasKind (.newTimestampArray l) .timestampArray
  | metadataArray (l) : HasKind (.newMetadataArray l) .metadataArray
  | binaryArray (b) : HasKind (.newBinaryArray b) .binaryArray
  | boolArray (l) : HasKind (.newBoolArray l) .boolArray

/-- A metadata block as a user can build it. -/
def GoodBlock (b : Block) : Prop := (b.map (·.1)).Nodup ∧ ∀ kv ∈ b, Constructible kv.2

end Rap
