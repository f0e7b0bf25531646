import Verif.Model.JsonOwn

/-!
# The UnmarshalProperty methods of format/metadata/property.go

They print their argument with `%v` and read the result as JSON. The receiver is a copy: what is read is thrown away, and only
whether there was an error is reported.
-/

namespace Rap

/-- Data as callers have it: `interface{}` holding a string, an integer, a boolean, nothing, a slice or a map with strings as
keys. Other types (floats, structs, pointers) are not modelled. -/
inductive GoData where
  | str (s : Bytes)
  | int (i : Int)
  | bool (b : Bool)
  | nil
  | slice (items : List GoData)
  | map (kvs : List (Bytes × GoData))

mutual
/-- `fmt.Sprintf("%v", data)` (fmt, `printValue`); the keys of a map are in the order given. -/
def GoData.format : GoData → Bytes
  | .str s => s
  | .int i => V1.decimal i
  | .bool b => if b then b!"true" else b!"false"
  | .nil => b!"<nil>"
  | .slice items => [91] ++ formatItems items ++ [93]
  | .map kvs => b!"map[" ++ formatMembers kvs ++ [93]
/-- Items with a space between them. -/
def formatItems : List GoData → Bytes
  | [] => []
  | [d] => d.format
  | d :: e :: rest => d.format ++ [32] ++ formatItems (e :: rest)
/-- Members with a space between them. -/
def formatMembers : List (Bytes × GoData) → Bytes
  | [] => []
  | [(k, d)] => k ++ [58] ++ d.format
  | (k, d) :: m :: rest => k ++ [58] ++ d.format ++ [32] ++ formatMembers (m :: rest)
end

/-- The text given to `json.Unmarshal` (property.go:101-104, 154-157, 215-218, 270-273, 330-333, 407-409, 511-513, 571-574, 631-634):
some types put it into quotes. Strings and raw arrays do not have the method. -/
def handedText : Property → Bytes → Option Bytes
  | .int32 _, v => some v
  | .f32 _, v => some v
  | .bool _, v => some v
  | .byte _, v => some ([34] ++ v ++ [34])
  | .vec2 _ _, v => some ([34] ++ v ++ [34])
  | .vec3 _ _ _, v => some v
  | .block _, v => some ([34] ++ v ++ [34])
  | .time _, v => some ([34] ++ v ++ [34])
  | .array _ _, v => some v
  | _, _ => none

/-- `UnmarshalProperty` of the type of the property; `none` if the type has no such method. -/
def unmarshalProperty (U : UnmarshalExt) (X : JsonExt) (p : Property) (data : GoData) : Option (GoE Unit) :=
  (handedText p data.format).map fun t => do
    let _ ← unmarshalLike U X p t
    pure ()

end Rap
