import Verif.Model.GoJson
import Verif.Model.ParseFloat

/-!
# Reading JSON texts: `json.Unmarshal` into an empty interface

`FromJSON` (format/parsing/json.go:442-448) gives the text to gabs.ParseJSON of github.com/Jeffail/gabs v1.4.0, which is
`json.Unmarshal(sample, &gabs.object)`; the metadata types call `json.Unmarshal` themselves (format/metadata/property.go:516-519).
Neither gabs nor encoding/json are in /repo; modelled here is what they do, after the source of the standard library
(encoding/json, scanner.go and decode.go): `checkValid` first, then `valueInterface`, `arrayInterface`, `objectInterface`,
`literalInterface` and `unquote`.

Simplifications: checking and decoding are one pass (an error of either is an error of the whole); which error is not
distinguished; the state machine of the scanner is written as functions on the text that is left.
-/

namespace Rap

/-- Texts without bytes that are no UTF-8: each becomes U+FFFD (`unquote`, "Coerce to well-formed UTF-8"). -/
def coerceUtf8 (fuel : Nat) (s : Bytes) : Bytes :=
  match fuel, s with
  | 0, _ => []
  | _, [] => []
  | fuel + 1, s =>
    match decodeRune s with
    | some (n, _) => s.take n ++ coerceUtf8 fuel (s.drop n)
    | none => [0xEF, 0xBF, 0xBD] ++ coerceUtf8 fuel (s.drop 1)

/-- `unquote`: the string between the quotes; `none` for control characters and wrong escapes, which the scanner refuses. -/
def unquote (s : Bytes) : Option Bytes := requote (coerceUtf8 s.length s)

/-- `isSpace` -/
def isJsonSpace (c : UInt8) : Bool := c == 32 || c == 9 || c == 10 || c == 13

/-- `scanWhile(scanSkipSpace)` -/
def skipSpace (s : Bytes) : Bytes := s.dropWhile isJsonSpace

/-- `stateInString` and `stateInStringEsc`: the text up to the quote that ends the string, and what follows it. -/
def scanString : Bytes → Option (Bytes × Bytes)
  | [] => none
  | 34 :: r => some ([], r)
  | 92 :: c :: r => (scanString r).map fun p => (92 :: c :: p.1, p.2)
  | c :: r => (scanString r).map fun p => (c :: p.1, p.2)

/-- '0' to '9' -/
def isDigitByte (c : UInt8) : Bool := decide (48 ≤ c.toNat) && decide (c.toNat ≤ 57)

/-- The characters that numbers are made of. -/
def isNumberByte (c : UInt8) : Bool := isDigitByte c || c == 43 || c == 45 || c == 46 || c == 101 || c == 69

/-- `stateESign` and `stateE0`: digits up to the end, at least one. -/
def validDigits (s : Bytes) : Bool := !s.isEmpty && s.all isDigitByte

/-- `stateE`: an exponent, or nothing. -/
def validExponent : Bytes → Bool
  | [] => true
  | c :: r => (c == 101 || c == 69) && (match r with
    | 43 :: r => validDigits r
    | 45 :: r => validDigits r
    | r => validDigits r)

/-- `stateDot` and `stateDot0`: a fraction, or nothing; then the exponent. -/
def validFraction : Bytes → Bool
  | 46 :: c :: r => isDigitByte c && validExponent (r.dropWhile isDigitByte)
  | s => validExponent s

/-- `state0` and `state1`: the integer, which has no superfluous zeros. -/
def validInteger : Bytes → Bool
  | [] => false
  | 48 :: r => validFraction r
  | c :: r => isDigitByte c && validFraction (r.dropWhile isDigitByte)

/-- `stateBeginValue` and `stateNeg`: numbers. -/
def validNumber : Bytes → Bool
  | 45 :: r => validInteger r
  | s => validInteger s

/-- `convertNumber`: `strconv.ParseFloat(s, 64)`, the error of which is the error of the whole. -/
def goNumber (t : Bytes) : Option F64 := if validNumber t then goParseFloat64 t else none

/-- `literalInterface`: null, booleans, strings and numbers at the start of the text, and what follows them. -/
def scanLiteral (q : Bytes → Option Bytes) : Bytes → Option (JVal × Bytes)
  | 34 :: r => do
    let (b, r) ← scanString r
    let s ← q b
    some (.str s, r)
  | 110 :: 117 :: 108 :: 108 :: r => some (.null, r)
  | 116 :: 114 :: 117 :: 101 :: r => some (.bool true, r)
  | 102 :: 97 :: 108 :: 115 :: 101 :: r => some (.bool false, r)
  | s => (goNumber (s.takeWhile isNumberByte)).map fun d => (.num d, s.dropWhile isNumberByte)

/-- The elements of an array up to the bracket that ends it (`arrayInterface`); `value` reads one. -/
def scanElements (value : Bytes → Option (JVal × Bytes)) : (fuel : Nat) → Bytes → Option (List JVal × Bytes)
  | 0, _ => none
  | fuel + 1, s => do
    let (v, r) ← value s
    match skipSpace r with
    | 44 :: r => do
      let (vs, r) ← scanElements value fuel r
      some (v :: vs, r)
    | 93 :: r => some ([v], r)
    | _ => none

/-- The members of an object up to the brace that ends it, in the order of the text (`objectInterface`). -/
def scanMembers (q : Bytes → Option Bytes) (value : Bytes → Option (JVal × Bytes)) :
    (fuel : Nat) → Bytes → Option (List (Bytes × JVal) × Bytes)
  | 0, _ => none
  | fuel + 1, s =>
    match skipSpace s with
    | 34 :: r => do
      let (b, r) ← scanString r
      let k ← q b
      match skipSpace r with
      | 58 :: r => do
        let (v, r) ← value r
        match skipSpace r with
        | 44 :: r => do
          let (vs, r) ← scanMembers q value fuel r
          some ((k, v) :: vs, r)
        | 125 :: r => some ([(k, v)], r)
        | _ => none
      | _ => none
    | _ => none

/-- `valueInterface`: a value, and what follows it. `depth` arrays and objects may be inside each other (`pushParseState`). -/
def scanValue (q : Bytes → Option Bytes) : (depth : Nat) → Bytes → Option (JVal × Bytes)
  | 0, s => scanLiteral q (skipSpace s)
  | depth + 1, s =>
    match skipSpace s with
    | 91 :: r =>
      match skipSpace r with
      | 93 :: r => some (.arr [], r)
      | _ => (scanElements (scanValue q depth) r.length r).map fun x => (.arr x.1, x.2)
    | 123 :: r =>
      match skipSpace r with
      | 125 :: r => some (.obj [], r)
      | _ => (scanMembers q (scanValue q depth) r.length r).map fun x => (.obj x.1, x.2)
    | s => scanLiteral q s

/-- The only value of the text; members as they are written (`stateEndTop`: nothing but white space may follow). -/
def scanText (q : Bytes → Option Bytes) (t : Bytes) : Option JVal :=
  match scanValue q 10000 t with
  | some (v, r) => if skipSpace r = [] then some v else none
  | none => none

/-- What the text is, before members with equal names are made one. -/
def jsonTree (t : Bytes) : Option JVal := scanText unquote t

mutual
/-- `m[key] = d.valueInterface()`: a map has one member of each name, the last one. -/
def JVal.asMaps : JVal → JVal
  | .arr items => .arr (asMapsItems items)
  | .obj members => .obj (asMapsMembers members)
  | v => v
def asMapsItems : List JVal → List JVal
  | [] => []
  | v :: vs => v.asMaps :: asMapsItems vs
def asMapsMembers : List (Bytes × JVal) → List (Bytes × JVal)
  | [] => []
  | (k, v) :: ms => if k ∈ (asMapsMembers ms).map (·.1) then asMapsMembers ms else (k, v.asMaps) :: asMapsMembers ms
end

/-- `json.Unmarshal(t, &object)` with an empty interface; `none` is an error. -/
def jsonUnmarshal (t : Bytes) : Option JVal := (jsonTree t).map JVal.asMaps

/-- `FromJSON` (format/parsing/json.go:442-448), from the bytes. -/
def fromJSONText (X : JsonExt) (t : Bytes) : GoE Rec :=
  fromJSON X (match jsonUnmarshal t with | some j => .ok j | none => .error (.parse 60))

end Rap
