import Verif.Model.Recording
import Verif.Model.Str

/-!
# Recordings from JSON: format/parsing/json.go and format/metadata/utils.go

The text of a document is parsed outside the module (encoding/json through github.com/Jeffail/gabs v1.4.0); the model
starts from the parsed value (`Model/JsonDecode.lean` has the parser). Modelled of gabs: `Path`, `Data`, `Children`, `ChildrenMap`, all with a path of one key
(no key used here contains a dot). A container is an option: `none` is the nil container.

Simplifications: the metadata node is not printed and parsed again (`metadataNode.String()`, json.go:40, followed by
`json.Unmarshal`, format/metadata/property.go:516-519, gives back the same value, C76); strings are the bytes of valid
UTF-8, as encoding/json delivers them; maps are association lists in iteration order.
-/

namespace Rap

/-- A parsed JSON value: the `interface{}` of encoding/json. -/
inductive JVal where
  | null
  | bool (b : Bool)
  | num (x : F64)
  | str (s : Bytes)
  | arr (items : List JVal)
  | obj (members : List (Bytes × JVal))

/-- Standard library calls on numbers and times. -/
structure JsonExt where
  /-- `time.Parse(time.RFC3339Nano, s)` followed by `UnixMicro()`; `none` is an error -/
  parseTime : Bytes → Option (BitVec 64)
  /-- `json.Unmarshal([]byte(fmt.Sprintf("%v", d)), &f)` with a float32 `f`; `none` is an error -/
  float32 : F64 → Option F32
  /-- `strconv.Atoi` of the JSON text of a number; `none` is an error -/
  atoi : F64 → Option Int

/-- A computation that returns a value, returns an error or panics. -/
abbrev GoE := ExceptT Err Go

/-- `return nil, errors.New(..)`; the text is replaced by a number. -/
def GoE.fail {α : Type} (n : Nat) : GoE α := ExceptT.mk (.ok (.error (.parse n)))

/-- `panic` of the runtime. -/
def GoE.panic {α : Type} (p : Panic) : GoE α := ExceptT.mk (.error p)

/-- The result `(v, nil)`, or an error when there is no value. -/
def GoE.get {α : Type} (n : Nat) : Option α → GoE α
  | some a => pure a
  | none => GoE.fail n

/-- A loop that fills a slice and returns at the first error. -/
def GoE.each {α β : Type} (f : α → GoE β) : List α → GoE (List β)
  | [] => pure []
  | a :: as => do
    let b ← f a
    let bs ← GoE.each f as
    pure (b :: bs)

/-! ## Standard library: hex digits and quoted strings -/

/-- The value of a hexadecimal digit (`fromHexChar` of encoding/hex). -/
def hexDigit (c : UInt8) : Option Nat :=
  if 48 ≤ c ∧ c ≤ 57 then some (c.toNat - 48)
  else if 97 ≤ c ∧ c ≤ 102 then some (c.toNat - 87)
  else if 65 ≤ c ∧ c ≤ 70 then some (c.toNat - 55)
  else none

/-- `hex.DecodeString`; `none` is an error. -/
def hexDecode : Bytes → Option Bytes
  | [] => some []
  | [_] => none
  | a :: b :: rest => do
    let x ← hexDigit a
    let y ← hexDigit b
    let r ← hexDecode rest
    some (UInt8.ofNat (16 * x + y) :: r)

/-- A piece of the text between the quotes of a JSON string: a byte, or the code unit of `\uXXXX`. -/
inductive Piece where
  | byte (b : UInt8)
  | unit (u : Nat)

/-- The text between the quotes of a JSON string, as the scanner of encoding/json accepts it: no control characters,
no bare quote, only the escapes of the grammar. -/
def pieces : Bytes → Option (List Piece)
  | [] => some []
  | b :: rest =>
    if b < 32 ∨ b = 34 then none
    else if b ≠ 92 then (pieces rest).map (.byte b :: ·)
    else match rest with
      | 34 :: r => (pieces r).map (.byte 34 :: ·)
      | 92 :: r => (pieces r).map (.byte 92 :: ·)
      | 47 :: r => (pieces r).map (.byte 47 :: ·)
      | 98 :: r => (pieces r).map (.byte 8 :: ·)
      | 102 :: r => (pieces r).map (.byte 12 :: ·)
      | 110 :: r => (pieces r).map (.byte 10 :: ·)
      | 114 :: r => (pieces r).map (.byte 13 :: ·)
      | 116 :: r => (pieces r).map (.byte 9 :: ·)
      | 117 :: h0 :: h1 :: h2 :: h3 :: r =>
        match hexDigit h0, hexDigit h1, hexDigit h2, hexDigit h3 with
        | some x0, some x1, some x2, some x3 =>
          (pieces r).map (.unit (((x0 * 16 + x1) * 16 + x2) * 16 + x3) :: ·)
        | _, _, _, _ => none
      | _ => none

/-- `utf8.EncodeRune` for a rune below 0x110000 that is not a surrogate. -/
def encodeRune (r : Nat) : Bytes :=
  if r < 0x80 then [r.toUInt8]
  else if r < 0x800 then [(0xC0 + r / 64).toUInt8, (0x80 + r % 64).toUInt8]
  else if r < 0x10000 then [(0xE0 + r / 4096).toUInt8, (0x80 + r / 64 % 64).toUInt8, (0x80 + r % 64).toUInt8]
  else [(0xF0 + r / 262144).toUInt8, (0x80 + r / 4096 % 64).toUInt8, (0x80 + r / 64 % 64).toUInt8,
    (0x80 + r % 64).toUInt8]

/-- The bytes the pieces stand for; surrogates that do not form a pair become U+FFFD. -/
def joinPieces : List Piece → Bytes
  | [] => []
  | .byte b :: rest => b :: joinPieces rest
  | .unit u :: rest =>
    if u < 0xD800 ∨ 0xE000 ≤ u then encodeRune u ++ joinPieces rest
    else match rest with
      | .unit v :: rest' =>
        if u < 0xDC00 ∧ 0xDC00 ≤ v ∧ v < 0xE000 then
          encodeRune (0x10000 + (u - 0xD800) * 1024 + (v - 0xDC00)) ++ joinPieces rest'
        else encodeRune 0xFFFD ++ joinPieces (.unit v :: rest')
      | rest' => encodeRune 0xFFFD ++ joinPieces rest'

/-- ``json.Unmarshal([]byte(fmt.Sprintf(`"%v"`, s)), &str)`` with a string `str`: the text `s` is not escaped before
it is read as a JSON string. `none` is an error. -/
def requote (s : Bytes) : Option Bytes := (pieces s).map joinPieces

/-- `int64(d)` as amd64 computes it: truncation, and -2^63 for everything out of range. -/
def toInt64 (d : F64) : Int :=
  let t := (d.fp.int b64).tdiv ((2 ^ b64.scale : Nat) : Int)
  if d.isFinite && decide (-2 ^ 63 ≤ t) && decide (t < 2 ^ 63) then t else -2 ^ 63

/-! ## format/metadata/utils.go -/

/-- The type assertion `v.(float64)`. -/
def assertFloat : JVal → GoE F64
  | .num d => pure d
  | _ => GoE.panic .typeAssertion

/-- `getProperties` on a string (utils.go:49-74), with the `UnmarshalJSON` methods of the property types
(property.go:53-60, 275-286, 575-587). -/
def stringProperty (X : JsonExt) (d : Bytes) : GoE Property :=
  if b!"0x" <+: d ∧ d.length = 4 then do
    let s ← GoE.get 1 (requote d)
    let b ← GoE.get 2 (hexDecode (if b!"0x" <+: s then s.drop 2 else s))
    match b with
    | [] => GoE.panic .indexOutOfRange
    | c :: _ => pure (.byte c)
  else if b!"0x" <+: d then do
    let b ← GoE.get 3 (hexDecode (d.drop 2))
    pure (.newBinaryArray b)
  else if (X.parseTime d).isSome then do
    let s ← GoE.get 4 (requote d)
    let t ← GoE.get 5 (X.parseTime s)
    pure (.time t)
  else do
    let s ← GoE.get 6 (requote d)
    pure (.str s)

/-- `getProperties` on a number (utils.go:75-87). Below 2^63 the text of an integral number is its decimal digits, so
reading it as an int32 fails exactly when it is out of range. -/
def numberProperty (X : JsonExt) (d : F64) : GoE Property :=
  if FP.eq b64 d.fp (F64.ofInt (toInt64 d)).fp then
    if -2 ^ 31 ≤ toInt64 d ∧ toInt64 d < 2 ^ 31 then pure (.int32 (BitVec.ofInt 32 (toInt64 d)))
    else GoE.fail 7
  else do
    let f ← GoE.get 8 (X.float32 d)
    pure (.f32 f)

/-- The boolean of an item, false for anything else (utils.go:36-37). -/
def itemBool : JVal → Bool
  | .bool b => b
  | _ => false

mutual
/-- `getProperties` (utils.go:11-98). -/
def getProperties (X : JsonExt) : JVal → GoE Property
  | .obj d =>
    match mapGet d b!"x", mapGet d b!"y", mapGet d b!"z" with
    | some x, some y, z =>
      if d.length = 2 then do
        let x ← assertFloat x
        let y ← assertFloat y
        pure (.vec2 x y)
      else match z with
        | some z =>
          if d.length = 3 then do
            let x ← assertFloat x
            let y ← assertFloat y
            let z ← assertFloat z
            pure (.vec3 x y z)
          else do
            let kvs ← getMembers X d
            pure (.block kvs)
        | none => do
          let kvs ← getMembers X d
          pure (.block kvs)
    | _, _, _ => do
      let kvs ← getMembers X d
      pure (.block kvs)
  | .arr items =>
    match items with
    | [] => GoE.panic .indexOutOfRange
    | .bool b :: rest => pure (.newBoolArray (b :: rest.map itemBool))
    | first :: rest => do
      let p ← getProperties X first
      let ps ← getItems X rest
      let c ← ExceptT.lift p.code
      pure (.array c (p :: ps))
  | .str d => stringProperty X d
  | .num d => numberProperty X d
  | .bool b => pure (.bool b)
  | .null => pure .nil

/-- The loop over the members of an object (utils.go:22-28). -/
def getMembers (X : JsonExt) : List (Bytes × JVal) → GoE (List (Bytes × Property))
  | [] => pure []
  | (k, v) :: rest => do
    let p ← getProperties X v
    let kvs ← getMembers X rest
    pure ((k, p) :: kvs)

/-- The loop over the items of an array (utils.go:41-47). -/
def getItems (X : JsonExt) : List JVal → GoE (List Property)
  | [] => pure []
  | v :: rest => do
    let p ← getProperties X v
    let ps ← getItems X rest
    pure (p :: ps)
end

/-- `MetadataProperty.UnmarshalJSON` (format/metadata/property.go:515-530) on an object: the new block, or an error. -/
def unmarshalMetadata (X : JsonExt) (d : List (Bytes × JVal)) : GoE Block := do
  let p ← getProperties X (.obj d)
  match p with
  | .block kvs => pure kvs
  | _ => GoE.fail 9

/-! ## gabs -/

mutual
/-- `Search` with one key: a member of an object; of an array, the results for its items that have one. -/
def search (key : Bytes) : JVal → Option JVal
  | .obj d => mapGet d key
  | .arr items =>
    match searchAll key items with
    | [] => none
    | found => some (.arr found)
  | _ => none

def searchAll (key : Bytes) : List JVal → List JVal
  | [] => []
  | v :: rest =>
    match search key v with
    | some r => r :: searchAll key rest
    | none => searchAll key rest
end

/-- `Path(key)` of a container. -/
def path (c : Option JVal) (key : Bytes) : Option JVal := c.bind (search key)

/-- `Children()`; `none` is an error. -/
def children : JVal → Option (List JVal)
  | .arr items => some items
  | .obj d => some (d.map (·.2))
  | _ => none

/-- `isJSONObj` (json.go:19-22). -/
def isJSONObj : JVal → Bool
  | .obj _ => true
  | _ => false

/-! ## format/parsing/json.go -/

/-- `parseMetadata` (json.go:28-43): the error of `UnmarshalJSON` is not looked at. -/
def parseMetadata (X : JsonExt) (c : Option JVal) : GoE Block :=
  match path c b!"metadata" with
  | none => pure []
  | some (.obj d) =>
    match (unmarshalMetadata X d).run with
    | .error p => GoE.panic p
    | .ok (.error _) => pure []
    | .ok (.ok md) => pure md
  | some _ => GoE.fail 10

/-- `parseRequiredStringKey` (json.go:142-154). -/
def parseString (c : Option JVal) (key : Bytes) : GoE Bytes :=
  match path c key with
  | some (.str s) => pure s
  | _ => GoE.fail 11

/-- `parseRequiredFloatKey` (json.go:170-182). -/
def parseFloat (c : Option JVal) (key : Bytes) : GoE F64 :=
  match path c key with
  | some (.num d) => pure d
  | _ => GoE.fail 12

/-- `parseCaptureTime` (json.go:184-196). -/
def parseCaptureTime (c : Option JVal) : GoE F64 :=
  match path c b!"time" with
  | some (.num d) => pure d
  | _ => GoE.fail 13

/-- `parseReferenceFromJSON` (json.go:77-108). The text of anything but a number is not an integer. -/
def parseReference (X : JsonExt) (j : JVal) : GoE BinRef := do
  let name ← parseString (some j) b!"name"
  let uri ← parseString (some j) b!"uri"
  let md ← parseMetadata X (some j)
  match path (some j) b!"size" with
  | some (.num d) =>
    let size ← GoE.get 14 (X.atoi d)
    if size < 0 then GoE.fail 15 else pure ⟨name, uri, u64 size.toNat, md⟩
  | _ => GoE.fail 16

/-- An array-valued key of a recording, each item of which must be an object (json.go:45-75, 110-140, 359-389). -/
def parseArray {α : Type} (c : Option JVal) (key : Bytes) (f : JVal → GoE α) : GoE (List α) :=
  match path c key with
  | none => pure []
  | some (.arr items) => GoE.each (fun v => if isJSONObj v then f v else GoE.fail 17) items
  | some _ => GoE.fail 18

/-- `parseReferences` (json.go:110-140). -/
def parseReferences (X : JsonExt) (j : JVal) : GoE (List BinRef) := parseArray (some j) b!"references" (parseReference X)

/-- `parseVector3` (json.go:198-215). -/
def parseVector3 (c : Option JVal) : GoE V3 := do
  let x ← parseFloat c b!"x"
  let y ← parseFloat c b!"y"
  let z ← parseFloat c b!"z"
  pure ⟨x, y, z⟩

/-- One iteration of the loops of `parsePositionCollection` and `parseEulerCollection` (json.go:220-232, 240-252).
`NewEulerZXYCapture` (format/collection/euler/capture.go) keeps the three angles. -/
def parseVectorCapture (j : JVal) : GoE (F64 × V3) := do
  let time ← parseCaptureTime (some j)
  let pos ← parseVector3 (path (some j) b!"data")
  pure (time, pos)

/-- The loop of `parseEnumCollection` (json.go:263-282): `mapping` is `allEnumEntriesMapping` and `entries` is
`allEnumEntries`. -/
def parseEnumCaptures (mapping : List (Bytes × Int)) (entries : List Bytes) : List JVal →
    GoE (List Bytes × List (F64 × BitVec 64))
  | [] => pure (entries, [])
  | j :: rest => do
    let time ← parseCaptureTime (some j)
    let entry ← parseString (some j) b!"data"
    let (index, entries) := match mapGet mapping entry with
      | some val => (val, entries)
      | none => ((mapping.length : Int), entries ++ [entry])
    let (entries, caps) ← parseEnumCaptures mapping entries rest
    pure (entries, (time, BitVec.ofInt 64 index) :: caps)

/-- `parseEnumCollection` (json.go:257-285). -/
def parseEnumCollection (name : Bytes) (captures : List JVal) : GoE Coll := do
  let (entries, caps) ← parseEnumCaptures [] [] captures
  pure (.enum name entries caps)

/-- One iteration of the loop of `parseEventCollection` (json.go:290-312). -/
def parseEventCapture (X : JsonExt) (j : JVal) : GoE (F64 × Bytes × Block) := do
  let time ← parseCaptureTime (some j)
  match path (some j) b!"data" with
  | none => GoE.fail 19
  | some data => do
    let name ← parseString (some data) b!"name"
    let md ← parseMetadata X (some data)
    pure (time, name, md)

/-- `parseCollectionFromJSON` (json.go:317-357). -/
def parseCollection (X : JsonExt) (j : JVal) : GoE Coll := do
  let name ← parseString (some j) b!"name"
  let type ← parseString (some j) b!"type"
  match path (some j) b!"captures" with
  | some (.arr captures) =>
    if type = sigPosition then do
      let caps ← GoE.each parseVectorCapture captures
      pure (.position name caps)
    else if type = sigEuler then do
      let caps ← GoE.each parseVectorCapture captures
      pure (.euler name caps)
    else if type = sigEvent then do
      let caps ← GoE.each (parseEventCapture X) captures
      pure (.event name caps)
    else if type = sigEnum then parseEnumCollection name captures
    else GoE.fail 20
  | _ => GoE.fail 21

/-- `parseCollectionsFromJSON` (json.go:359-389). -/
def parseCollections (X : JsonExt) (j : JVal) : GoE (List Coll) :=
  parseArray (some j) b!"collections" (parseCollection X)

theorem mapGet_size (k : Bytes) (v : JVal) : (d : List (Bytes × JVal)) → mapGet d k = some v → sizeOf v < sizeOf d
  | [], h => by simp [mapGet] at h
  | (k', v') :: rest, h => by
    rw [mapGet] at h
    split at h
    · simp only [Option.some.injEq] at h
      subst h
      simp only [List.cons.sizeOf_spec, Prod.mk.sizeOf_spec]
      omega
    · have := mapGet_size k v rest h
      simp only [List.cons.sizeOf_spec]
      omega

mutual
theorem search_size (k : Bytes) : (j : JVal) → (v : JVal) → search k j = some v → sizeOf v ≤ sizeOf j
  | .obj d, v, h => by
    rw [search] at h
    have := mapGet_size k v d h
    simp only [JVal.obj.sizeOf_spec]
    omega
  | .arr items, v, h => by
    rw [search] at h
    have := searchAll_size k items
    split at h
    · simp at h
    · simp only [Option.some.injEq] at h
      subst h
      simp only [JVal.arr.sizeOf_spec]
      omega
  | .null, v, h => by simp [search] at h
  | .bool _, v, h => by simp [search] at h
  | .num _, v, h => by simp [search] at h
  | .str _, v, h => by simp [search] at h

theorem searchAll_size (k : Bytes) : (l : List JVal) → sizeOf (searchAll k l) ≤ sizeOf l
  | [] => by simp [searchAll]
  | v :: rest => by
    have h1 := searchAll_size k rest
    rw [searchAll]
    split
    · next r hr =>
      have h2 := search_size k v r hr
      simp only [List.cons.sizeOf_spec]
      omega
    · simp only [List.cons.sizeOf_spec]
      omega
end

/-- `parseRecordingFromJSON` (json.go:391-440) with the loop of `parseSubRecordings` (json.go:45-75). -/
def parseRecording (X : JsonExt) (j : JVal) : GoE Rec :=
  match children j with
  | none => GoE.fail 22
  | some [] => GoE.fail 23
  | some (_ :: _) => do
    let id ← parseString (some j) b!"id"
    let name ← parseString (some j) b!"name"
    let recs ← (match _h : search b!"recordings" j with
      | none => pure []
      | some (.arr items) =>
        GoE.each (fun v : {v // v ∈ items} =>
          have := v.2
          if isJSONObj v then parseRecording X v else GoE.fail 17) items.attach
      | some _ => GoE.fail 18)
    let md ← parseMetadata X (some j)
    let refs ← parseReferences X j
    let colls ← parseCollections X j
    pure (.mk id name (colls.map some) recs md [] (refs.map some))
termination_by sizeOf j
decreasing_by
  have h1 := search_size _ _ _ _h
  have h2 := List.sizeOf_lt_of_mem this
  simp only [JVal.arr.sizeOf_spec] at h1
  omega

/-- `FromJSON` (json.go:442-448); `doc` is what encoding/json makes of the text. -/
def fromJSON (X : JsonExt) (doc : Except Err JVal) : GoE Rec :=
  match doc with
  | .error e => ExceptT.mk (.ok (.error e))
  | .ok j => parseRecording X j

end Rap
