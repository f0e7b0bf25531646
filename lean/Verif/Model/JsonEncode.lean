import Verif.Model.JsonDecode

/-!
# Writing JSON values: `json.Marshal` of an empty interface

`parseMetadata` (format/parsing/json.go:28-43) writes the metadata of a document as text again and gives it to
`MetadataProperty.UnmarshalJSON`. `Model/Json.lean` leaves this detour out; here it is. The text is made by `Container.String` of
github.com/Jeffail/gabs v1.4.0, which calls `json.Marshal`. Neither is in /repo; modelled is encoding/json, encode.go: `mapEncoder`,
`arrayEncoder`, `floatEncoder`, `stringEncoder`, `boolEncoder`, `interfaceEncoder`.
-/

namespace Rap

/-- `a < b` for strings, or equal: compared byte by byte. -/
def textLe : Bytes → Bytes → Bool
  | [], _ => true
  | _ :: _, [] => false
  | a :: s, b :: t => if a = b then textLe s t else decide (a.toNat < b.toNat)

/-- `json.Marshal` of a string. -/
def stringText (s : Bytes) : Bytes := [34] ++ quoteGo s.length s ++ [34]

/-- A member put among members sorted by name. -/
def insertMember (m : Bytes × Bytes) : List (Bytes × Bytes) → List (Bytes × Bytes)
  | [] => [m]
  | n :: rest => if textLe m.1 n.1 then m :: n :: rest else n :: insertMember m rest

/-- The sorting in `mapEncoder.encode`. Simplification: by insertion; names of members are distinct, so every way of sorting gives
the same. -/
def sortMembers (ms : List (Bytes × Bytes)) : List (Bytes × Bytes) := ms.foldr insertMember []

mutual
/-- `json.Marshal` of a value as `json.Unmarshal` makes them; `none` is an error. Members are sorted by name
(`mapEncoder.encode`). -/
def JVal.print : JVal → Option Bytes
  | .null => some b!"null"
  | .bool b => some (boolText b)
  | .num x => jsonFloat b64 x.fp
  | .str s => some (stringText s)
  | .arr items => (printItems items).map fun ts => [91] ++ commas ts ++ [93]
  | .obj members => (printMembers members).map fun ms =>
      [123] ++ commas ((sortMembers ms).map fun m => stringText m.1 ++ [58] ++ m.2) ++ [125]
def printItems : List JVal → Option (List Bytes)
  | [] => some []
  | v :: vs => do
    let t ← v.print
    let ts ← printItems vs
    some (t :: ts)
def printMembers : List (Bytes × JVal) → Option (List (Bytes × Bytes))
  | [] => some []
  | (k, v) :: ms => do
    let t ← v.print
    let ts ← printMembers ms
    some ((k, t) :: ts)
end

/-- `Container.String` (gabs v1.4.0): `{}` for nil and for values that cannot be written. -/
def nodeText : JVal → Bytes
  | .null => b!"{}"
  | v => v.print.getD b!"{}"

/-- `MetadataProperty.UnmarshalJSON` (format/metadata/property.go:515-530) on a text: null leaves the map nil, of which
`getProperties` makes an empty block (format/metadata/utils.go:76-140). -/
def unmarshalMetadataText (X : JsonExt) (t : Bytes) : GoE Block :=
  match jsonUnmarshal t with
  | some (.obj d) => unmarshalMetadata X d
  | some .null => unmarshalMetadata X []
  | _ => GoE.fail 61

/-- `parseMetadata` (format/parsing/json.go:28-43), with the text in between. -/
def parseMetadataText (X : JsonExt) (c : Option JVal) : GoE Block :=
  match path c b!"metadata" with
  | none => pure []
  | some (.obj d) =>
    match (unmarshalMetadataText X (nodeText (.obj d))).run with
    | .error p => GoE.panic p
    | .ok (.error _) => pure []
    | .ok (.ok md) => pure md
  | some _ => GoE.fail 10

end Rap
