import Verif.Model.Str
import Verif.Model.Float
import Verif.Model.RapV1
import Verif.Model.Summary
import Verif.Model.Describe
import Verif.Model.Accessors

/-!
# Numbers with a fixed number of decimals, and the String methods of the captures

`fmt` and `strconv` are not part of /repo. `%f` is modelled as `strconv` documents and does it: the exact value of the float,
rounded to the nearest decimal with that many places; a tie goes to the even last digit.
-/

namespace Rap

/-- `p` decimal digits of `r`, with zeros in front. -/
def fixedDigits : (p r : Nat) → Bytes
  | 0, _ => []
  | p + 1, r => fixedDigits p (r / 10) ++ [(48 + r % 10).toUInt8]

/-- The magnitude in units of `10 ^ -p`, rounded to nearest, ties to even (strconv/decimal.go, `shouldRoundUp`). -/
def fixedMag (f : Fmt) (p : Nat) (x : FP) : Nat := rne (magInt f.mb x.m * 10 ^ p) (2 ^ f.scale)

/-- `fmt.Sprintf("%.pf", x)`: `strconv.AppendFloat` with format 'f' and the sign rules of `fmt` (`fmtFloat`): "+Inf" keeps its
sign, a zero keeps its minus sign. -/
def fixedText (f : Fmt) (p : Nat) (x : FP) : Bytes :=
  if x.isNaN f then b!"NaN"
  else if x.isInf f then (if x.s then b!"-Inf" else b!"+Inf")
  else
    let n := fixedMag f p x
    (if x.s then b!"-" else []) ++ (V1.decimalNat (n / 10 ^ p) ++ 46 :: fixedDigits p (n % 10 ^ p))

/-- `%.2f` of a `float64` (summarize.go:62-67, 80; the `String` methods of the captures). -/
def twoDecimals (x : F64) : Bytes := fixedText b64 2 x.fp

/-- `%f` of a `float32` (property.go:139) and of a `float64` (property.go:314, 390): six decimals. -/
def sixDecimals : FmtExt where
  single x := fixedText b32 6 x.fp
  double x := fixedText b64 6 x.fp

/-- `String()` of the captures (format/collection: enum/capture.go:27-29, euler/capture.go:29-31, event/capture.go:35-37,
float/capture.go:21-23, position/capture.go:25-27). A capture from outside the package prints what it likes: `other`. -/
def Capture.text (other : F64 → Bytes → Bytes) : Capture → Bytes
  | .enum t v => b!"[" ++ twoDecimals t ++ b!"] Enum - " ++ V1.decimal v.toInt
  | .euler t v => b!"[" ++ twoDecimals t ++ b!"] Rotation - " ++ twoDecimals v.x ++ b!", " ++ twoDecimals v.y ++ b!", " ++
      twoDecimals v.z
  | .event t name _ => b!"[" ++ twoDecimals t ++ b!"] " ++ name
  | .float t x => b!"[" ++ twoDecimals t ++ b!"] - " ++ twoDecimals x
  | .position t v => b!"[" ++ twoDecimals t ++ b!"] - " ++ twoDecimals v.x ++ b!", " ++ twoDecimals v.y ++ b!", " ++
      twoDecimals v.z
  | .other t v => other t v

end Rap
