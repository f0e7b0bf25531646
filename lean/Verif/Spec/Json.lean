import Verif.Model.Json
import Verif.Spec.Number
import Mathlib.Data.List.Forall2

/-!
# What a JSON document means

Independent of the parser: relations between JSON values (`JVal`) and metadata properties, and between JSON documents
and recordings. A member of an object is a pair of its list.
-/

namespace Rap

/-- Assumed of the standard library (strconv, time). -/
structure JsonExt.Lawful (X : JsonExt) : Prop where
  /-- RFC 3339 times consist of printable characters other than quotes and backslashes. -/
  time_plain : ∀ s t, X.parseTime s = some t → ∀ c ∈ s, 32 ≤ c ∧ c ≠ 34 ∧ c ≠ 92
  /-- The text of an integer up to 2^53 is its decimal digits. -/
  atoi_exact : ∀ d (i : Int), number64 d = .fin i → i.natAbs ≤ 2 ^ 53 → X.atoi d = some i
  /-- An integer below 2^53 is the text of that number only. -/
  atoi_only : ∀ d i, X.atoi d = some i → i.natAbs < 2 ^ 53 → number64 d = .fin i
  /-- An `int` has 64 bits. -/
  atoi_range : ∀ d i, X.atoi d = some i → -2 ^ 63 ≤ i ∧ i < 2 ^ 63

/-- `c` is a hexadecimal digit of value `n`. -/
def IsHex (c : UInt8) (n : Nat) : Prop :=
  b!"0123456789abcdef"[n]? = some c ∨ b!"0123456789ABCDEF"[n]? = some c

/-- The text spells out the bytes, two digits each. -/
inductive HexText : Bytes → Bytes → Prop
  | nil : HexText [] []
  | cons {a b : UInt8} {x y : Nat} {text bytes : Bytes} : IsHex a x → IsHex b y → HexText text bytes →
      HexText (a :: b :: text) (UInt8.ofNat (16 * x + y) :: bytes)

/-- No control characters, quotes or backslashes. -/
def PlainText (s : Bytes) : Prop := ∀ c ∈ s, 32 ≤ c ∧ c ≠ 34 ∧ c ≠ 92

/-- The letter after a backslash and the byte it stands for (RFC 8259, section 7). -/
def shortEscapes : List (UInt8 × UInt8) :=
  [(34, 34), (92, 92), (47, 47), (98, 8), (102, 12), (110, 10), (114, 13), (116, 9)]

/-- Four hexadecimal digits of value `u`. -/
def Hex4 (h : Bytes) (u : Nat) : Prop :=
  ∃ a b c d x y z w, h = [a, b, c, d] ∧ IsHex a x ∧ IsHex b y ∧ IsHex c z ∧ IsHex d w ∧
    u = 4096 * x + 256 * y + 16 * z + w

/-- The UTF-8 bytes of a code point. -/
def utf8 (u : Nat) : Bytes := String.utf8EncodeChar (Char.ofNat u)

/-- The text between the quotes of a JSON string, and the bytes of the string (RFC 8259, section 7). Surrogates that are
not part of a pair become U+FFFD. -/
inductive Unescapes : Bytes → Bytes → Prop
  | nil : Unescapes [] []
  | plain {c : UInt8} {s t : Bytes} : 32 ≤ c → c ≠ 34 → c ≠ 92 → Unescapes s t → Unescapes (c :: s) (c :: t)
  | short {e c : UInt8} {s t : Bytes} : (e, c) ∈ shortEscapes → Unescapes s t → Unescapes (92 :: e :: s) (c :: t)
  | unicode {h s t : Bytes} {u : Nat} : Hex4 h u → (u < 0xD800 ∨ 0xE000 ≤ u) → Unescapes s t →
      Unescapes (92 :: 117 :: h ++ s) (utf8 u ++ t)
  | pair {h h' s t : Bytes} {u v : Nat} : Hex4 h u → Hex4 h' v → 0xD800 ≤ u → u < 0xDC00 → 0xDC00 ≤ v → v < 0xE000 →
      Unescapes s t →
      Unescapes (92 :: 117 :: h ++ (92 :: 117 :: h' ++ s)) (utf8 (0x10000 + 0x400 * (u - 0xD800) + (v - 0xDC00)) ++ t)
  | low {h s t : Bytes} {u : Nat} : Hex4 h u → 0xDC00 ≤ u → u < 0xE000 → Unescapes s t →
      Unescapes (92 :: 117 :: h ++ s) (utf8 0xFFFD ++ t)
  | high {h s t : Bytes} {u : Nat} : Hex4 h u → 0xD800 ≤ u → u < 0xDC00 →
      (∀ h' s' v, Hex4 h' v → 0xDC00 ≤ v → v < 0xE000 → s ≠ 92 :: 117 :: h' ++ s') → Unescapes s t →
      Unescapes (92 :: 117 :: h ++ s) (utf8 0xFFFD ++ t)

/-- The metadata property a JSON value stands for. Values with no property here: null, empty arrays, arrays mixing
kinds, integers outside int32, texts that start with 0x without being hexadecimal, texts with quotes, backslashes or
control characters. -/
inductive Means (X : JsonExt) : JVal → Property → Prop
  | int {d : F64} {i : Int} : number64 d = .fin i → -2 ^ 31 ≤ i → i < 2 ^ 31 →
      Means X (.num d) (.int32 (BitVec.ofInt 32 i))
  | float {d : F64} {q : Rat} {f : F32} : number64 d = .fin q → (∀ i : Int, q ≠ i) → X.float32 d = some f →
      Means X (.num d) (.f32 f)
  | bool {b : Bool} : Means X (.bool b) (.bool b)
  | byte {text : Bytes} {b : UInt8} : HexText text [b] → Means X (.str (b!"0x" ++ text)) (.byte b)
  | binary {text bytes : Bytes} : HexText text bytes → bytes.length ≠ 1 →
      Means X (.str (b!"0x" ++ text)) (.newBinaryArray bytes)
  | time {s : Bytes} {t : BitVec 64} : ¬ b!"0x" <+: s → X.parseTime s = some t → Means X (.str s) (.time t)
  | text {s : Bytes} : ¬ b!"0x" <+: s → X.parseTime s = none → PlainText s → Means X (.str s) (.str s)
  | vec2 {d : List (Bytes × JVal)} {x y : F64} : d.Perm [(b!"x", .num x), (b!"y", .num y)] →
      Means X (.obj d) (.vec2 x y)
  | vec3 {d : List (Bytes × JVal)} {x y z : F64} : d.Perm [(b!"x", .num x), (b!"y", .num y), (b!"z", .num z)] →
      Means X (.obj d) (.vec3 x y z)
  | block {d : List (Bytes × JVal)} {kvs : Block} : (d.map (·.1)).Nodup →
      ¬ (d.map (·.1)).Perm [b!"x", b!"y"] → ¬ (d.map (·.1)).Perm [b!"x", b!"y", b!"z"] →
      d.map (·.1) = kvs.map (·.1) → List.Forall₂ (Means X) (d.map (·.2)) (kvs.map (·.2)) →
      Means X (.obj d) (.block kvs)
  | bools {bs : List Bool} : bs ≠ [] → Means X (.arr (bs.map .bool)) (.newBoolArray bs)
  | array {items : List JVal} {props : List Property} {c : UInt8} : items ≠ [] → (∀ b, .bool b ∉ items) →
      List.Forall₂ (Means X) items props → (∀ p ∈ props, p.code = .ok c) → Means X (.arr items) (.array c props)

/-- An optional array-valued member. -/
def ArrayMember (d : List (Bytes × JVal)) (key : Bytes) (items : List JVal) : Prop :=
  (key, .arr items) ∈ d ∨ (items = [] ∧ ∀ v, (key, v) ∉ d)

/-- How the parts of a document with freedom are read. -/
structure Reading where
  /-- metadata objects and metadata -/
  metadata : List (Bytes × JVal) → Block → Prop
  /-- the number given as the size of a reference, and the size -/
  size : F64 → Nat → Prop
  /-- times and texts of the captures of an enum collection, its members and its captures -/
  enum : List (F64 × Bytes) → List Bytes → List (F64 × BitVec 64) → Prop

/-- The optional metadata of an object. -/
def MetadataMember (R : Reading) (d : List (Bytes × JVal)) (md : Block) : Prop :=
  (∃ m, (b!"metadata", .obj m) ∈ d ∧ R.metadata m md) ∨ (md = [] ∧ ∀ v, (b!"metadata", v) ∉ d)

/-- A reference to a binary. -/
def DescribesRef (R : Reading) (j : JVal) (r : BinRef) : Prop :=
  ∃ d x, j = .obj d ∧ (b!"name", .str r.name) ∈ d ∧ (b!"uri", .str r.uri) ∈ d ∧ (b!"size", .num x) ∈ d ∧
    R.size x r.size ∧ MetadataMember R d r.md

/-- A position or rotation capture. -/
def DescribesVector (j : JVal) (c : F64 × V3) : Prop :=
  ∃ d e, j = .obj d ∧ (b!"time", .num c.1) ∈ d ∧ (b!"data", .obj e) ∈ d ∧
    (b!"x", .num c.2.x) ∈ e ∧ (b!"y", .num c.2.y) ∈ e ∧ (b!"z", .num c.2.z) ∈ e

/-- An event capture. -/
def DescribesEvent (R : Reading) (j : JVal) (c : F64 × Bytes × Block) : Prop :=
  ∃ d e, j = .obj d ∧ (b!"time", .num c.1) ∈ d ∧ (b!"data", .obj e) ∈ d ∧ (b!"name", .str c.2.1) ∈ e ∧
    MetadataMember R e c.2.2

/-- An enum capture: its time and the text given for it. -/
def DescribesEnum (j : JVal) (c : F64 × Bytes) : Prop :=
  ∃ d, j = .obj d ∧ (b!"time", .num c.1) ∈ d ∧ (b!"data", .str c.2) ∈ d

/-- A collection. -/
def DescribesColl (R : Reading) (j : JVal) (c : Coll) : Prop :=
  ∃ d items, j = .obj d ∧ (b!"name", .str c.name) ∈ d ∧ (b!"type", .str c.sig) ∈ d ∧
    (b!"captures", .arr items) ∈ d ∧
    match c with
    | .position _ caps => List.Forall₂ DescribesVector items caps
    | .euler _ caps => List.Forall₂ DescribesVector items caps
    | .event _ caps => List.Forall₂ (DescribesEvent R) items caps
    | .enum _ members caps => ∃ given, List.Forall₂ DescribesEnum items given ∧ R.enum given members caps
    | _ => False

/-- A recording. -/
inductive Describes (R : Reading) : JVal → Rec → Prop
  | mk {d : List (Bytes × JVal)} {id name : Bytes} {subs refNodes collNodes : List JVal} {recs : List Rec} {md : Block}
      {refs : List BinRef} {colls : List Coll} :
      (b!"id", .str id) ∈ d → (b!"name", .str name) ∈ d →
      ArrayMember d b!"recordings" subs → List.Forall₂ (Describes R) subs recs →
      MetadataMember R d md →
      ArrayMember d b!"references" refNodes → List.Forall₂ (DescribesRef R) refNodes refs →
      ArrayMember d b!"collections" collNodes → List.Forall₂ (DescribesColl R) collNodes colls →
      Describes R (.obj d) (.mk id name (colls.map some) recs md [] (refs.map some))

mutual
/-- The keys of every object in the value are distinct, as in Go maps. -/
def JVal.Proper : JVal → Prop
  | .obj d => (d.map (·.1)).Nodup ∧ properMembers d
  | .arr items => properItems items
  | _ => True

def properMembers : List (Bytes × JVal) → Prop
  | [] => True
  | (_, v) :: rest => v.Proper ∧ properMembers rest

def properItems : List JVal → Prop
  | [] => True
  | v :: rest => v.Proper ∧ properItems rest
end

end Rap
