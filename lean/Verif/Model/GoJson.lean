import Verif.Model.Fixed
import Verif.Model.Json
import Verif.Model.Marshal

/-!
# encoding/json and strconv: numbers and strings

Not part of /repo: the standard library calls that format/metadata, format/parsing and cmd/rap-cli make, modelled as they are
documented. `MarshalExt` and `JsonExt` stand for them everywhere else; here they get a definition (all but the times).
-/

namespace Rap

/-! ## The fewest digits that identify a float (`strconv.FormatFloat` with precision -1) -/

/-- The float with magnitude bits `m` in units of `10 ^ (400 - j)`, rounded down. -/
def shortDown (f : Fmt) (m j : Nat) : Nat := magInt f.mb m * 10 ^ j / (2 ^ f.scale * 10 ^ 400)

/-- The same, rounded to nearest. -/
def shortNear (f : Fmt) (m j : Nat) : Nat := rne (magInt f.mb m * 10 ^ j) (2 ^ f.scale * 10 ^ 400)

/-- `v * 10 ^ (400 - j)` is read as the float with magnitude bits `m`. -/
def shortOk (f : Fmt) (m j v : Nat) : Bool := roundMag f.mb (v * 10 ^ 400 * 2 ^ f.scale) (10 ^ j) == m

/-- From large units to small ones, the first in which the float can be written, and the digits; if both neighbours identify
it, the nearer one (strconv/ftoa.go, `roundShortest`). -/
def shortest (f : Fmt) (m : Nat) : (fuel j : Nat) → Nat × Nat
  | 0, j => (shortDown f m j, j)
  | fuel + 1, j =>
    let d := shortDown f m j
    if shortOk f m j d && shortOk f m j (d + 1) then (shortNear f m j, j)
    else if shortOk f m j d then (d, j)
    else if shortOk f m j (d + 1) then (d + 1, j)
    else shortest f m fuel (j + 1)

/-- The digits and the unit. -/
def shortestOf (f : Fmt) (m : Nat) : Nat × Nat := shortest f m 1474 0

/-- `v * 10 ^ (400 - j)` without exponent (format 'f'). -/
def plainNumber (v j : Nat) : Bytes :=
  if j ≤ 400 then V1.decimalNat (v * 10 ^ (400 - j))
  else V1.decimalNat (v / 10 ^ (j - 400)) ++ 46 :: fixedDigits (j - 400) (v % 10 ^ (j - 400))

/-- `v * 10 ^ (400 - j)` with an exponent (format 'e', without a zero in front of the exponent). -/
def exponentNumber (v j : Nat) : Bytes :=
  let ds := V1.decimalNat v
  let e : Int := ((ds.length - 1 + 400 : Nat) : Int) - j
  ds.take 1 ++ ((if ds.length ≤ 1 then [] else 46 :: ds.drop 1) ++
    101 :: ((if e < 0 then [45] else [43] : Bytes) ++ V1.decimalNat e.natAbs))

/-- `json.Marshal` of a float (encoding/json, `floatEncoder.encode`): with an exponent below 1e-6 and from 1e21 on; `none` is an
error, for infinities and NaNs. -/
def jsonFloat (f : Fmt) (x : FP) : Option Bytes :=
  if f.infMag ≤ x.m then none
  else some ((if x.s then b!"-" else []) ++
    if x.m = 0 then b!"0"
    else
      let (v, j) := shortestOf f x.m
      if x.m < roundMag f.mb (2 ^ f.scale) (10 ^ 6) || roundMag f.mb (10 ^ 21 * 2 ^ f.scale) 1 ≤ x.m then exponentNumber v j
      else plainNumber v j)

/-- `strconv.ParseFloat(s, 32)` of the text of a double that identifies it (`fmt.Sprintf("%v", d)`); `none` is an error: not a
number, or out of range. -/
def readSingle (d : F64) : Option F32 :=
  if b64.infMag ≤ d.fp.m then none
  else if d.fp.m = 0 then some (F32.ofFP ⟨d.fp.s, 0⟩)
  else
    let (v, j) := shortestOf b64 d.fp.m
    let r := roundMag b32.mb (v * 10 ^ 400 * 2 ^ b32.scale) (10 ^ j)
    if b32.infMag ≤ r then none else some (F32.ofFP ⟨d.fp.s, r⟩)

/-- Digits, read as a number; `none` if there are none or other characters. -/
def readDigits (b : Bytes) : Option Nat :=
  if b ≠ [] ∧ ∀ c ∈ b, 48 ≤ c.toNat ∧ c.toNat ≤ 57 then some (b.foldl (fun v c => 10 * v + (c.toNat - 48)) 0) else none

/-- `strconv.Atoi`: maybe a sign, and digits; `none` is an error. -/
def atoiText (b : Bytes) : Option Int :=
  let i := match b with
    | 45 :: r => (readDigits r).map fun (n : Nat) => -(n : Int)
    | 43 :: r => (readDigits r).map fun (n : Nat) => (n : Int)
    | b => (readDigits b).map fun (n : Nat) => (n : Int)
  i.filter fun i => decide (-2 ^ 63 ≤ i) && decide (i < 2 ^ 63)

/-! ## Strings -/

/-- The length of the UTF-8 sequence at the start, and its code point; `none` if it is invalid (unicode/utf8, `DecodeRune`). -/
def decodeRune : Bytes → Option (Nat × Nat)
  | a :: b :: c :: d :: _ => rune a b c d
  | [a, b, c] => rune a b c 0
  | [a, b] => rune a b 0 0
  | [a] => rune a 0 0 0
  | [] => none
where
  /-- Continuation bytes that are missing are 0, which is none. -/
  rune (a b c d : UInt8) : Option (Nat × Nat) :=
    let cont (x : UInt8) : Bool := 0x80 ≤ x.toNat && x.toNat < 0xC0
    if a.toNat < 0x80 then some (1, a.toNat)
    else if a.toNat < 0xC2 then none
    else if a.toNat < 0xE0 then
      if cont b then some (2, (a.toNat - 0xC0) * 64 + (b.toNat - 0x80)) else none
    else if a.toNat < 0xF0 then
      let r := ((a.toNat - 0xE0) * 64 + (b.toNat - 0x80)) * 64 + (c.toNat - 0x80)
      if cont b && cont c && decide (0x800 ≤ r) && !(decide (0xD800 ≤ r) && decide (r < 0xE000)) then some (3, r) else none
    else if a.toNat < 0xF5 then
      let r := (((a.toNat - 0xF0) * 64 + (b.toNat - 0x80)) * 64 + (c.toNat - 0x80)) * 64 + (d.toNat - 0x80)
      if cont b && cont c && cont d && decide (0x10000 ≤ r) && decide (r < 0x110000) then some (4, r) else none
    else none

/-- One character (encoding/json, `appendString` with `escapeHTML`): quotes, backslashes, control characters, `<`, `>`, `&` and
the line separators U+2028 and U+2029 are escaped. -/
def escapeRune (r : Nat) (b : Bytes) : Bytes :=
  if r = 34 ∨ r = 92 then 92 :: b
  else if r = 8 then [92, 98]
  else if r = 12 then [92, 102]
  else if r = 10 then [92, 110]
  else if r = 13 then [92, 114]
  else if r = 9 then [92, 116]
  else if r < 32 ∨ r = 60 ∨ r = 62 ∨ r = 38 then b!"\\u00" ++ [hexChar (r / 16), hexChar (r % 16)]
  else if r = 0x2028 ∨ r = 0x2029 then b!"\\u202" ++ [hexChar (r % 16)]
  else b

/-- What `json.Marshal` puts between the quotes; invalid bytes become U+FFFD, escaped. -/
def quoteGo (fuel : Nat) (s : Bytes) : Bytes :=
  match fuel, s with
  | 0, _ => []
  | _, [] => []
  | fuel + 1, s =>
    match decodeRune s with
    | some (n, r) => escapeRune r (s.take n) ++ quoteGo fuel (s.drop n)
    | none => b!"\\ufffd" ++ quoteGo fuel (s.drop 1)

/-! ## Together -/

/-- encoding/json and fmt as the metadata is written; `time.Format` is left open. -/
def goMarshal (time : BitVec 64 → Bytes) : MarshalExt where
  quote s := quoteGo s.length s
  float64 x := jsonFloat b64 x.fp
  float32 f := jsonFloat b32 f.fp
  time := time
  fixed := sixDecimals.double

/-- strconv and encoding/json as the metadata is read; `time.Parse` is left open. -/
def goReader (parseTime : Bytes → Option (BitVec 64)) : JsonExt where
  parseTime := parseTime
  float32 := readSingle
  atoi d := (jsonFloat b64 d.fp).bind atoiText

end Rap
