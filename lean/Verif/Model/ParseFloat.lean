import Verif.Model.Float

/-!
# strconv.ParseFloat

Called for every metadata string of a version 1 recording (internal/io/rapv1/util.go:71, with 32 bits) and for every number of a CSV
table (cmd/rap-cli/csv.go, with 64 bits), there behind `strings.TrimSpace`. The functions follow strconv/atof.go of Go 1.20.

Simplifications: the mantissa is kept whole (the code keeps 19 digits and, if that is not enough to decide, up to 800), and the result
is the exact value rounded once, which is what the code is documented to return.
-/

namespace Rap

/-- `lower`: sets the bit that makes an ASCII letter lower case. -/
def lowerByte (c : UInt8) : UInt8 := c ||| 0x20

/-- Digit value of a character in base 16 (or in base 10, if `hex` is false). -/
def digitOf (hex : Bool) (c : UInt8) : Option Nat :=
  if 48 ≤ c.toNat ∧ c.toNat ≤ 57 then some (c.toNat - 48)
  else if hex ∧ 97 ≤ (lowerByte c).toNat ∧ (lowerByte c).toNat ≤ 102 then some ((lowerByte c).toNat - 87)
  else none

/-- The state of the loop over the mantissa: digits read as a number, how many of them were behind the point, and whether a point, a
digit and an underscore were seen. -/
structure Mantissa where
  value : Nat
  behind : Nat
  dot : Bool
  digit : Bool
  under : Bool

/-- The loop over the mantissa (`readFloat`, label `loop`); returns the rest of the text. -/
def readMantissa (hex : Bool) : Bytes → Mantissa → Mantissa × Bytes
  | [], m => (m, [])
  | c :: r, m =>
    if c = 95 then readMantissa hex r { m with under := true }
    else if c = 46 then
      if m.dot then (m, c :: r) else readMantissa hex r { m with dot := true }
    else
      match digitOf hex c with
      | some d =>
        readMantissa hex r { m with
          value := m.value * (if hex then 16 else 10) + d, behind := if m.dot then m.behind + 1 else m.behind, digit := true }
      | none => (m, c :: r)

/-- The loop over the digits of the exponent, which stops counting at 10000; also whether an underscore was seen. -/
def readExponent : Bytes → (e : Nat) → (under : Bool) → Nat × Bool × Bytes
  | [], e, u => (e, u, [])
  | c :: r, e, u =>
    if c = 95 then readExponent r e true
    else if 48 ≤ c.toNat ∧ c.toNat ≤ 57 then readExponent r (if e < 10000 then e * 10 + (c.toNat - 48) else e) u
    else (e, u, c :: r)

/-- The last character seen by `underscoreOK`. -/
inductive Saw where
  | start
  | digit
  | under
  | other
  deriving DecidableEq

/-- The loop of `underscoreOK`. -/
def underscoreLoop (hex : Bool) : Bytes → Saw → Bool
  | [], saw => saw != .under
  | c :: r, saw =>
    if (digitOf hex c).isSome then underscoreLoop hex r .digit
    else if c = 95 then (if saw = .digit then underscoreLoop hex r .under else false)
    else if saw = .under then false
    else underscoreLoop hex r .other

/-- `underscoreOK` behind the sign (strconv/atoi.go). -/
def underscoreOK (s : Bytes) : Bool :=
  match s with
  | 48 :: c :: r =>
    if lowerByte c = 98 ∨ lowerByte c = 111 ∨ lowerByte c = 120 then underscoreLoop (lowerByte c = 120) r .digit
    else underscoreLoop false (48 :: c :: r) .start
  | s => underscoreLoop false s .start

/-- What `readFloat` reads: mantissa, exponent of `base`, and this base. -/
structure ReadNumber where
  neg : Bool
  hex : Bool
  value : Nat
  behind : Nat
  exp : Int

/-- The prefix of hexadecimal numbers; something must follow it. -/
def splitPrefix (s : Bytes) : Bool × Bytes :=
  match s with
  | 48 :: c :: d :: r => if lowerByte c = 120 then (true, d :: r) else (false, s)
  | _ => (false, s)

/-- The digits of the exponent: the first character must be one. -/
def readExpDigits (sign : Int) (under : Bool) (r : Bytes) : Option (Int × Bool × Bytes) :=
  match r with
  | [] => none
  | d :: r' =>
    if 48 ≤ d.toNat ∧ d.toNat ≤ 57 then
      let x := readExponent (d :: r') 0 under
      some (sign * x.1, x.2.1, x.2.2)
    else none

/-- The exponent, with its sign; hexadecimal numbers must have one. -/
def readExpPart (hex under : Bool) (r : Bytes) : Option (Int × Bool × Bytes) :=
  match r with
  | [] => if hex then none else some (0, under, [])
  | c :: r =>
    if lowerByte c = (if hex then 112 else 101) then
      match r with
      | 43 :: r => readExpDigits 1 under r
      | 45 :: r => readExpDigits (-1) under r
      | r => readExpDigits 1 under r
    else if hex then none
    else some (0, under, c :: r)

/-- `readFloat` behind the sign, for texts that it reads to the end (`ParseFloat` fails for others); `none` is an error. -/
def readUnsigned (neg : Bool) (s : Bytes) : Option ReadNumber :=
  let p := splitPrefix s
  let m := readMantissa p.1 p.2 ⟨0, 0, false, false, false⟩
  if !m.1.digit then none
  else
    match readExpPart p.1 m.1.under m.2 with
    | none => none
    | some (e, under, rest) =>
      if (under && !underscoreOK s) || !rest.isEmpty then none else some ⟨neg, p.1, m.1.value, m.1.behind, e⟩

/-- `readFloat`. -/
def readNumber (s : Bytes) : Option ReadNumber :=
  match s with
  | 43 :: r => readUnsigned false r
  | 45 :: r => readUnsigned true r
  | s => readUnsigned false s

/-- The number as a fraction. -/
def ReadNumber.frac (n : ReadNumber) : Nat × Nat :=
  let base := if n.hex then 2 else 10
  let scale := if n.hex then 16 ^ n.behind else 10 ^ n.behind
  if n.exp < 0 then (n.value, scale * base ^ n.exp.natAbs) else (n.value * base ^ n.exp.natAbs, scale)

/-- `special`, for the whole text. The NaN is `math.NaN()`, which float32 cuts to its upper bits. -/
def specialFloat (f : Fmt) (s : Bytes) : Option FP :=
  let word (s : Bytes) : Bool := s.map lowerByte == [105, 110, 102] || s.map lowerByte == [105, 110, 102, 105, 110, 105, 116, 121]
  match s with
  | 43 :: r => if word r then some ⟨false, f.infMag⟩ else none
  | 45 :: r => if word r then some ⟨true, f.infMag⟩ else none
  | s =>
    if word s then some ⟨false, f.infMag⟩
    else if s.map lowerByte == [110, 97, 110] then some ⟨false, (FP.nan f).m + if f.mb = 52 then 1 else 0⟩
    else none

/-- `strconv.ParseFloat`; `none` is an error: not a number, or out of range. -/
def goParseFloat (f : Fmt) (s : Bytes) : Option FP :=
  match specialFloat f s with
  | some x => some x
  | none =>
    match readNumber s with
    | none => none
    | some n =>
      let x := FP.round f n.neg (n.frac.1 * 2 ^ f.scale) n.frac.2
      if x.m = f.infMag then none else some x

/-- `strconv.ParseFloat(s, 32)` and the conversion to float32 (internal/io/rapv1/util.go:71-73). -/
def goParseFloat32 (s : Bytes) : Option F32 := (goParseFloat b32 s).map F32.ofFP

/-- `strconv.ParseFloat(s, 64)`. -/
def goParseFloat64 (s : Bytes) : Option F64 := (goParseFloat b64 s).map F64.ofFP

/-! ## strings.TrimSpace -/

/-- The UTF-8 sequences of the characters that are white space for `unicode.IsSpace`. -/
def spaceCodes : List Bytes :=
  [[9], [10], [11], [12], [13], [32], [0xC2, 0x85], [0xC2, 0xA0], [0xE1, 0x9A, 0x80], [0xE2, 0x80, 0x80], [0xE2, 0x80, 0x81],
    [0xE2, 0x80, 0x82], [0xE2, 0x80, 0x83], [0xE2, 0x80, 0x84], [0xE2, 0x80, 0x85], [0xE2, 0x80, 0x86], [0xE2, 0x80, 0x87],
    [0xE2, 0x80, 0x88], [0xE2, 0x80, 0x89], [0xE2, 0x80, 0x8A], [0xE2, 0x80, 0xA8], [0xE2, 0x80, 0xA9], [0xE2, 0x80, 0xAF],
    [0xE2, 0x81, 0x9F], [0xE3, 0x80, 0x80]]

/-- What follows the first of the sequences that starts the text. -/
def afterCode (codes : List Bytes) (s : Bytes) : Option Bytes :=
  codes.findSome? fun w => if w.isPrefixOf s then some (s.drop w.length) else none

/-- The loop that drops sequences from the start. -/
def dropCodes (codes : List Bytes) : Nat → Bytes → Bytes
  | 0, s => s
  | fuel + 1, s =>
    match afterCode codes s with
    | none => s
    | some r => dropCodes codes fuel r

/-- `strings.TrimSpace` (cmd/rap-cli/csv.go:32, 71, 79, 84, 89): white space is dropped from the start and then from the end. The last
character of a text is found by going back to a byte that can start one, so that it is white space if and only if the text ends with
one of the sequences. -/
def goTrimSpace (s : Bytes) : Bytes :=
  let t := dropCodes spaceCodes s.length s
  (dropCodes (spaceCodes.map List.reverse) t.length t.reverse).reverse

end Rap
