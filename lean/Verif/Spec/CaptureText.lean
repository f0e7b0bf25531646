import Verif.Spec.Fixed
import Verif.Model.Accessors

/-!
# Specification: the text of a capture
-/

namespace Rap

/-- The text of a capture of the package: the time in brackets, then what the capture holds, numbers with two decimals. The
dictionary of an event is not shown. -/
inductive CaptureText : Capture → Bytes → Prop
  | enum {t : F64} {v : BitVec 64} {a b : Bytes} (ht : TwoDecimals t a) (hv : IsInteger b v.toInt) :
    CaptureText (.enum t v) (b!"[" ++ a ++ b!"] Enum - " ++ b)
  | euler {t : F64} {v : V3} {a x y z : Bytes} (ht : TwoDecimals t a) (hx : TwoDecimals v.x x) (hy : TwoDecimals v.y y)
    (hz : TwoDecimals v.z z) :
    CaptureText (.euler t v) (b!"[" ++ a ++ b!"] Rotation - " ++ x ++ b!", " ++ y ++ b!", " ++ z)
  | event {t : F64} {name : Bytes} {md : Block} {a : Bytes} (ht : TwoDecimals t a) :
    CaptureText (.event t name md) (b!"[" ++ a ++ b!"] " ++ name)
  | float {t x : F64} {a b : Bytes} (ht : TwoDecimals t a) (hx : TwoDecimals x b) :
    CaptureText (.float t x) (b!"[" ++ a ++ b!"] - " ++ b)
  | position {t : F64} {v : V3} {a x y z : Bytes} (ht : TwoDecimals t a) (hx : TwoDecimals v.x x) (hy : TwoDecimals v.y y)
    (hz : TwoDecimals v.z z) :
    CaptureText (.position t v) (b!"[" ++ a ++ b!"] - " ++ x ++ b!", " ++ y ++ b!", " ++ z)

/-- A size in bytes, in kilobytes from 1024 bytes on, in megabytes from 1024 kilobytes on, these with two decimals. -/
def SizeInUnits (size : Nat) (text : Bytes) : Prop :=
  if size < 2 ^ 10 then ∃ d, text = d ++ b!"b" ∧ IsDecimal d size
  else if size < 2 ^ 20 then ∃ n d, text = d ++ b!"kb" ∧ HasDecimals 2 d n ∧ NearestDecimal 2 (size / 2 ^ 10) n
  else ∃ n d, text = d ++ b!"mb" ∧ HasDecimals 2 d n ∧ NearestDecimal 2 (size / 2 ^ 20) n

end Rap
