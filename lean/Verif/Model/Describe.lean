import Verif.Model.Str
import Verif.Model.Metadata
import Verif.Model.RapV1
import Verif.Model.Marshal

/-!
# Metadata as text: the String methods of format/metadata/property.go

Simplifications: `sort.Strings` is insertion sort (the keys of a map are distinct, so every sorting gives the same list), and
sorts the entries of the map instead of its keys; `ArrayPropertyRaw.division` is 1, as every constructor sets it.
-/

namespace Rap

/-- `fmt.Sprintf("%f", x)` for float32 and float64. -/
structure FmtExt where
  single : F32 → Bytes
  double : F64 → Bytes

/-- One step of `sort.Strings` (property.go:474). -/
def insertEntry {α : Type} (e : Bytes × α) : List (Bytes × α) → List (Bytes × α)
  | [] => [e]
  | f :: rest => if f.1 < e.1 then f :: insertEntry e rest else e :: f :: rest

/-- `sort.Strings` (property.go:474). -/
def sortEntries {α : Type} : List (Bytes × α) → List (Bytes × α)
  | [] => []
  | e :: rest => insertEntry e (sortEntries rest)

/-- The loop of `MetadataProperty.String` (property.go:478-480). -/
def entryLines : List (Bytes × Go Bytes) → Go Bytes
  | [] => .ok []
  | (k, v) :: rest => do
    let t ← v
    let ts ← entryLines rest
    .ok (b!"\t\"" ++ k ++ b!"\": " ++ t ++ b!";\n" ++ ts)

mutual
/-- `String()` of each property type (property.go:45-47, 85-87, 138-140, 194-199, 252-254, 313-315, 389-391, 469-483, 555-557,
614-616, 730-732). -/
def describe (F : FmtExt) : Property → Go Bytes
  | .str s => .ok s
  | .int32 i => .ok (V1.decimal i.toInt)
  | .f32 f => .ok (F.single f)
  | .bool b => .ok (boolText b)
  | .byte b => .ok (V1.decimal b.toNat)
  | .vec2 x y => .ok (F.double x ++ b!", " ++ F.double y)
  | .vec3 x y z => .ok (F.double x ++ b!", " ++ F.double y ++ b!", " ++ F.double z)
  | .block kvs => do
    let ls ← entryLines (sortEntries (describeEntries F kvs))
    .ok (b!"{\n" ++ ls ++ b!"}")
  | .time t => .ok (V1.decimal t.toInt ++ b!" μs")
  | .array base props =>
    .ok (b!"Type " ++ V1.decimal base.toNat ++ b!" Array of " ++ V1.decimal props.length ++ b!" elements")
  | .raw base data =>
    .ok (b!"Type " ++ V1.decimal base.toNat ++ b!" Array of " ++ V1.decimal data.length ++ b!" elements")
  | .nil => .error .nilDeref

/-- The text of every value of a map (property.go:479). -/
def describeEntries (F : FmtExt) : List (Bytes × Property) → List (Bytes × Go Bytes)
  | [] => []
  | (k, p) :: rest => (k, describe F p) :: describeEntries F rest
end

end Rap
