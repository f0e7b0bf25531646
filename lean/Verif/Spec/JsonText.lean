import Verif.Spec.Json
import Verif.Spec.Text
import Verif.Model.Marshal
import Mathlib.Algebra.Order.Ring.Rat
import Mathlib.Algebra.Order.Group.Abs

/-!
# JSON texts (RFC 8259) and metadata that JSON can carry
-/

namespace Rap

/-- White space. -/
def Blank (w : Bytes) : Prop := ∀ c ∈ w, c = 32 ∨ c = 9 ∨ c = 10 ∨ c = 13

/-- A string used as the name of a member, with white space around it. -/
def KeyText (t k : Bytes) : Prop := ∃ w w' s, Blank w ∧ Blank w' ∧ Unescapes s k ∧ t = w ++ [34] ++ s ++ [34] ++ w'

/-- The texts with commas between them. -/
def Separated : List Bytes → Bytes → Prop
  | [], t => t = []
  | [a], t => t = a
  | a :: b :: l, t => ∃ u, Separated (b :: l) u ∧ t = a ++ [44] ++ u

/-- The text is a JSON text of the value. `N` says which texts are numbers and what they are read as. -/
inductive JText (N : Bytes → F64 → Prop) : Bytes → JVal → Prop
  | null : JText N b!"null" .null
  | true : JText N b!"true" (.bool true)
  | false : JText N b!"false" (.bool false)
  | num {t : Bytes} {d : F64} : N t d → JText N t (.num d)
  | str {s t : Bytes} : Unescapes s t → JText N ([34] ++ s ++ [34]) (.str t)
  | arr0 {w : Bytes} : Blank w → JText N ([91] ++ w ++ [93]) (.arr [])
  | arr {ts : List Bytes} {u : Bytes} {items : List JVal} : items ≠ [] → Separated ts u →
      List.Forall₂ (JText N) ts items → JText N ([91] ++ u ++ [93]) (.arr items)
  | obj0 {w : Bytes} : Blank w → JText N ([123] ++ w ++ [125]) (.obj [])
  | obj {ms : List (Bytes × Bytes)} {u : Bytes} {d : List (Bytes × JVal)} : d ≠ [] →
      Separated (ms.map fun m => m.1 ++ [58] ++ m.2) u → List.Forall₂ KeyText (ms.map (·.1)) (d.map (·.1)) →
      List.Forall₂ (JText N) (ms.map (·.2)) (d.map (·.2)) → JText N ([123] ++ u ++ [125]) (.obj d)
  | pad {w w' t : Bytes} {j : JVal} : Blank w → Blank w' → JText N t j → JText N (w ++ t ++ w') j

/-- The bytes are a UTF-8 text. -/
def Utf8 (s : Bytes) : Prop := ∃ cs : List Char, s = cs.flatMap String.utf8EncodeChar

/-- Assumed of encoding/json, strconv, time and fmt: what they write is read as what was given. `N` are the texts of
numbers and the doubles encoding/json reads them as. -/
structure MarshalExt.Lawful (M : MarshalExt) (X : JsonExt) (N : Bytes → F64 → Prop) : Prop where
  /-- Numbers are made of digits, signs, points and exponents. -/
  number_text : ∀ t d, N t d → t ≠ [] ∧ ∀ c ∈ t, c ∈ b!"0123456789+-.eE"
  /-- A text is one number. -/
  number_unique : ∀ t d d', N t d → N t d' → d = d'
  /-- Numbers beyond the range of doubles are errors. -/
  number_finite : ∀ t d, N t d → ∃ q, number64 d = .fin q
  /-- UTF-8 strings are escaped without loss. -/
  quote : ∀ s, Utf8 s → Unescapes (M.quote s) s
  /-- Other strings are escaped too. -/
  quote_any : ∀ s, ∃ s', Unescapes (M.quote s) s'
  /-- Integers are read exactly. -/
  integer : ∀ t (i : Int), IsInteger t i → i.natAbs ≤ 2 ^ 53 → ∃ d, N t d ∧ number64 d = .fin i
  /-- Doubles survive. -/
  float64 : ∀ x q, number64 x = .fin q → ∃ t, M.float64 x = some t ∧ N t x
  /-- Infinities and NaNs are errors. -/
  float64_none : ∀ x, (∀ q, number64 x ≠ .fin q) → M.float64 x = none
  /-- Float32s are written as decimal fractions that identify them, integers only if they are integral. -/
  float32 : ∀ f q, number32 f = .fin q → ∃ t d r, M.float32 f = some t ∧ N t d ∧ number64 d = .fin r ∧
    X.float32 d = some f ∧ ((∃ i : Int, r = i) ↔ ∃ i : Int, q = i)
  /-- Integral float32s up to 2^24 are written as what they are. -/
  float32_exact : ∀ f (i : Int), number32 f = .fin i → i.natAbs ≤ 2 ^ 24 → ∃ t d, M.float32 f = some t ∧ N t d ∧
    number64 d = .fin i
  /-- Infinities and NaNs are errors. -/
  float32_none : ∀ f, (∀ q, number32 f ≠ .fin q) → M.float32 f = none
  /-- Times are plain texts that start with a year of four digits, and are read with their microseconds. (The offset of the
  local time zone is a whole number of minutes.) -/
  time : ∀ n, PlainText (M.time n) ∧ Utf8 (M.time n) ∧ ¬ b!"0x" <+: M.time n ∧
    X.parseTime (M.time n) = some (BitVec.ofInt 64 (n.toInt / 1000))
  /-- `%f` of a number is a number with six decimals. (The double nearest to them is as close to them as `x` is.) -/
  fixed : ∀ x q, number64 x = .fin q → ∃ d r, N (M.fixed x) d ∧ number64 d = .fin r ∧ |r - q| ≤ 1 / 1000000
  /-- `%f` of infinities and NaN -/
  fixed_none : ∀ x, (∀ q, number64 x ≠ .fin q) → M.fixed x ∈ [b!"+Inf", b!"-Inf", b!"NaN"]

/-- Metadata that JSON can carry: no nil; texts that are plain and look like neither a time nor hexadecimal;
float32s that are not integral; finite coordinates; times within 292 years of 1970; no empty arrays, no arrays of mixed
kinds, no byte strings of length one; no blocks whose keys are just x and y, or x, y and z. -/
inductive Portable (X : JsonExt) : Property → Prop
  | str {s : Bytes} : Utf8 s → PlainText s → ¬ b!"0x" <+: s → X.parseTime s = none → Portable X (.str s)
  | int32 {i : BitVec 32} : Portable X (.int32 i)
  | f32 {f : F32} {q : Rat} : number32 f = .fin q → (∀ i : Int, q ≠ i) → Portable X (.f32 f)
  | bool {b : Bool} : Portable X (.bool b)
  | byte {b : UInt8} : Portable X (.byte b)
  | vec2 {x y : F64} {p q : Rat} : number64 x = .fin p → number64 y = .fin q → Portable X (.vec2 x y)
  | vec3 {x y z : F64} {p q r : Rat} : number64 x = .fin p → number64 y = .fin q → number64 z = .fin r →
      Portable X (.vec3 x y z)
  | block {kvs : Block} : (kvs.map (·.1)).Nodup → ¬ (kvs.map (·.1)).Perm [b!"x", b!"y"] →
      ¬ (kvs.map (·.1)).Perm [b!"x", b!"y", b!"z"] → (∀ kv ∈ kvs, Utf8 kv.1) → (∀ kv ∈ kvs, Portable X kv.2) →
      Portable X (.block kvs)
  | time {t : BitVec 64} : -2 ^ 63 ≤ t.toInt * 1000 → t.toInt * 1000 < 2 ^ 63 → Portable X (.time t)
  | array {props : List Property} {c : UInt8} : props ≠ [] → (∀ p ∈ props, Portable X p) →
      (∀ p ∈ props, p.code = .ok c) → (∀ b, Property.bool b ∉ props) → Portable X (.array c props)
  | binary {b : Bytes} : b.length ≠ 1 → b.length ≤ 2 ^ 48 → Portable X (.newBinaryArray b)
  | bools {bs : List Bool} : bs ≠ [] → bs.length ≤ 2 ^ 48 → Portable X (.newBoolArray bs)

/-- Metadata that can be written as JSON: every number is finite, and byte strings and lists of booleans fit into
memory. -/
inductive Writable : Property → Prop
  | str {s : Bytes} : Writable (.str s)
  | int32 {i : BitVec 32} : Writable (.int32 i)
  | f32 {f : F32} {q : Rat} : number32 f = .fin q → Writable (.f32 f)
  | bool {b : Bool} : Writable (.bool b)
  | byte {b : UInt8} : Writable (.byte b)
  | vec2 {x y : F64} {p q : Rat} : number64 x = .fin p → number64 y = .fin q → Writable (.vec2 x y)
  | vec3 {x y z : F64} {p q r : Rat} : number64 x = .fin p → number64 y = .fin q → number64 z = .fin r →
      Writable (.vec3 x y z)
  | block {kvs : Block} : (∀ kv ∈ kvs, Writable kv.2) → Writable (.block kvs)
  | time {t : BitVec 64} : Writable (.time t)
  | array {props : List Property} {c : UInt8} : (∀ p ∈ props, Writable p) → Writable (.array c props)
  | binary {b : Bytes} : b.length ≤ 2 ^ 48 → Writable (.newBinaryArray b)
  | bools {bs : List Bool} : bs.length ≤ 2 ^ 48 → Writable (.newBoolArray bs)
  | nil : Writable .nil

end Rap
