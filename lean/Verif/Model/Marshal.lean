import Verif.Model.Json
import Verif.Model.RapV1

/-!
# Metadata to JSON: the MarshalJSON methods of format/metadata/property.go

Texts are bytes. `json.Marshal` of strings, floats and times is a parameter; of the rest of encoding/json it is used that
an object is written member by member, an array item by item, a nil interface as null, and that a `MarshalJSON` method
that returns no bytes is an error for the value around it.

Simplifications: encoding/json writes the members of a map in the order of their keys, the model in the order of the
list (which stands for a map); maps and slices are not nil.
-/

namespace Rap

/-- Standard library calls that produce text. -/
structure MarshalExt where
  /-- what `json.Marshal` puts between the quotes for a string -/
  quote : Bytes → Bytes
  /-- `json.Marshal` of a float64; `none` is an error -/
  float64 : F64 → Option Bytes
  /-- `json.Marshal` of a float32; `none` is an error -/
  float32 : F32 → Option Bytes
  /-- `time.Unix(0, n).Format(time.RFC3339Nano)` -/
  time : BitVec 64 → Bytes
  /-- `fmt.Sprintf("%f", x)` -/
  fixed : F64 → Bytes

/-- `json.Marshal` of a string. -/
def MarshalExt.str (M : MarshalExt) (s : Bytes) : Bytes := [34] ++ M.quote s ++ [34]

/-- A hexadecimal digit as encoding/hex writes it. -/
def hexChar (n : Nat) : UInt8 := if n < 10 then UInt8.ofNat (48 + n) else UInt8.ofNat (87 + n)

/-- `hex.EncodeToString`. -/
def hexEncode : Bytes → Bytes
  | [] => []
  | b :: rest => hexChar (b.toNat / 16) :: hexChar (b.toNat % 16) :: hexEncode rest

/-- The texts with commas between them. -/
def commas : List Bytes → Bytes
  | [] => []
  | [t] => t
  | t :: ts => t ++ [44] ++ commas ts

/-- `json.Marshal` of a bool. -/
def boolText (b : Bool) : Bytes := if b then b!"true" else b!"false"

/-- `rapbin.ReadBytesArray(bytes.NewBuffer(data))` (property.go:760, 766). -/
def rawBytes (data : Bytes) : GoE Bytes :=
  match readBytesArray.run (⟨data, .eof⟩ : Flat) with
  | .error p => GoE.panic p
  | .ok ((_, _, some e), _) => ExceptT.mk (.ok (.error e))
  | .ok ((b, _, none), _) => pure b

/-- encoding/json on the result of a nested `MarshalJSON`: no bytes are not a JSON value. -/
def nested (t : Bytes) : GoE Bytes := if t = [] then GoE.fail 20 else pure t

mutual
/-- `MarshalJSON` of each property type (property.go:62-64, 115-117, 168-170, 229-231, 288-290, 348-357, 426-437, 532-534,
589-591, 654-656, 757-781). A nil property only occurs inside others and is null. -/
def marshal (M : MarshalExt) : Property → GoE Bytes
  | .str s => pure (M.str s)
  | .int32 i => pure (V1.decimal i.toInt)
  | .f32 f => GoE.get 21 (M.float32 f)
  | .bool b => pure (boolText b)
  | .byte b => pure (M.str (b!"0x" ++ hexEncode [b]))
  | .vec2 x y => do
    let x ← GoE.get 22 (M.float64 x)
    let y ← GoE.get 22 (M.float64 y)
    pure (b!"{\"x\":" ++ x ++ b!",\"y\":" ++ y ++ b!"}")
  | .vec3 x y z => do
    let x ← GoE.get 22 (M.float64 x)
    let y ← GoE.get 22 (M.float64 y)
    let z ← GoE.get 22 (M.float64 z)
    pure (b!"{\"x\":" ++ x ++ b!",\"y\":" ++ y ++ b!",\"z\":" ++ z ++ b!"}")
  | .block kvs => do
    let ms ← marshalMembers M kvs
    pure ([123] ++ commas ms ++ [125])
  | .time t => pure (M.str (M.time (t * 1000)))
  | .array _ props => do
    let ts ← marshalItems M props
    pure ([91] ++ commas ts ++ [93])
  | .raw base data =>
    if base = 5 then do
      let b ← rawBytes data
      pure (M.str (b!"0x" ++ hexEncode b))
    else if base = 3 then do
      let b ← rawBytes data
      pure ([91] ++ commas (b.map fun c => boolText (c &&& 1 == 1)) ++ [93])
    else pure []
  | .nil => pure b!"null"

/-- The members of a map (encoding/json). -/
def marshalMembers (M : MarshalExt) : List (Bytes × Property) → GoE (List Bytes)
  | [] => pure []
  | (k, p) :: rest => do
    let t ← marshal M p
    let t ← nested t
    let ts ← marshalMembers M rest
    pure ((M.str k ++ [58] ++ t) :: ts)

/-- The items of a slice (encoding/json). -/
def marshalItems (M : MarshalExt) : List Property → GoE (List Bytes)
  | [] => pure []
  | p :: rest => do
    let t ← marshal M p
    let t ← nested t
    let ts ← marshalItems M rest
    pure (t :: ts)
end

end Rap
