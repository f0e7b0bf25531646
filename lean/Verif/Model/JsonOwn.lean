import Verif.Model.Unmarshal
import Verif.Model.JsonDecode

/-!
# The typed UnmarshalJSON methods with Go's own reader of JSON

`UnmarshalExt` leaves encoding/json open; here it is encoding/json. Simplification: a name that occurs twice in the text of a vector
counts once, with its last value; encoding/json stores both, so that a null behind a number changes nothing there.
-/

namespace Rap

/-- The literal of a text that holds one literal: without the white space around it (encoding/json, `scanWhile(scanSkipSpace)`). -/
def literalOf (t : Bytes) : Bytes := (skipSpace t).takeWhile fun c => !isJsonSpace c

/-- The literal of a number, stored into an int32 (encoding/json, `literalStore`: `strconv.ParseInt` and `OverflowInt`;
property.go:106-113). -/
def goInt32 (t : Bytes) : Option (BitVec 32) :=
  (atoiText (literalOf t)).bind fun i => if -2 ^ 31 ≤ i ∧ i < 2 ^ 31 then some (BitVec.ofInt 32 i) else none

/-- The literal of a number, stored into a float32 (encoding/json, `literalStore`: `strconv.ParseFloat(s, 32)`;
property.go:159-166). -/
def goFloat32 (t : Bytes) : Option F32 := goParseFloat32 (literalOf t)

/-- encoding/json as the properties call it. -/
def goUnmarshal : UnmarshalExt where
  value := jsonUnmarshal
  int32 := goInt32
  float32 := goFloat32

end Rap
