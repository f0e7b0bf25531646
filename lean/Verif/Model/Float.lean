import Verif.Model.Go

/-!
# IEEE-754 arithmetic

Go's `float64` and `float32` as bit patterns, with the operations the modelled code uses. All definitions are
concrete and computable. Rounding is to nearest, ties to even (the only mode Go uses). Not taken from /repo: this is the
arithmetic of the Go language specification ("Numeric types", "Arithmetic operators"), used wherever /repo computes with
`float64`/`float32`. Fused multiply-add, which the specification permits, is not modelled, and every
NaN produced by arithmetic is the canonical quiet NaN.
-/

namespace Rap

/-- `float64` as its bit pattern (`math.Float64bits`). -/
abbrev F64 := BitVec 64
/-- `float32` as its bit pattern (`math.Float32bits`). -/
abbrev F32 := BitVec 32

/-- A binary interchange format: `mb` fraction bits, `eb` exponent bits. -/
structure Fmt where
  mb : Nat
  eb : Nat

/-- binary64 -/
def b64 : Fmt := ⟨52, 11⟩
/-- binary32 -/
def b32 : Fmt := ⟨23, 8⟩

/-- Magnitude bits of infinity. -/
def Fmt.infMag (f : Fmt) : Nat := (2 ^ f.eb - 1) * 2 ^ f.mb
/-- The smallest positive number is `2 ^ -(scale f)`. -/
def Fmt.scale (f : Fmt) : Nat := 2 ^ (f.eb - 1) - 2 + f.mb

/-- A float split into sign and magnitude bits. -/
structure FP where
  s : Bool
  m : Nat
  deriving DecidableEq, Repr

/-- The value of finite magnitude bits `m`, in units of `2 ^ -scale`. -/
def magInt (mb m : Nat) : Nat :=
  if m / 2 ^ mb = 0 then m else (2 ^ mb + m % 2 ^ mb) * 2 ^ (m / 2 ^ mb - 1)

/-- `num / den` rounded to the nearest integer, ties to even. -/
def rne (num den : Nat) : Nat :=
  if 2 * (num % den) < den then num / den
  else if den < 2 * (num % den) then num / den + 1
  else num / den + num / den % 2

/-- The magnitude bits nearest to the value `num / den` (in units of `2 ^ -scale`), without the overflow check. -/
def roundMag (mb num den : Nat) : Nat :=
  (Nat.log2 (num / den) - mb) * 2 ^ mb + rne num (den * 2 ^ (Nat.log2 (num / den) - mb))

namespace FP

def isNaN (f : Fmt) (x : FP) : Bool := f.infMag < x.m
def isInf (f : Fmt) (x : FP) : Bool := x.m == f.infMag

/-- The quiet NaN. -/
def nan (f : Fmt) : FP := ⟨false, f.infMag + 2 ^ (f.mb - 1)⟩

/-- Rounding `num / den` to the format; overflow gives infinity. -/
def round (f : Fmt) (s : Bool) (num den : Nat) : FP := ⟨s, min (roundMag f.mb num den) f.infMag⟩

/-- The value of a finite float in units of `2 ^ -scale`. -/
def int (f : Fmt) (x : FP) : Int := if x.s then -(magInt f.mb x.m : Int) else magInt f.mb x.m

def neg (x : FP) : FP := ⟨!x.s, x.m⟩

def add (f : Fmt) (x y : FP) : FP :=
  if x.isNaN f || y.isNaN f then nan f
  else if x.isInf f then (if y.isInf f && x.s != y.s then nan f else x)
  else if y.isInf f then y
  else
    let t := x.int f + y.int f
    if t = 0 then ⟨x.s && y.s, 0⟩ else round f (t < 0) t.natAbs 1

def sub (f : Fmt) (x y : FP) : FP := add f x y.neg

def mul (f : Fmt) (x y : FP) : FP :=
  if x.isNaN f || y.isNaN f then nan f
  else if x.isInf f || y.isInf f then
    (if x.m == 0 || y.m == 0 then nan f else ⟨x.s != y.s, f.infMag⟩)
  else round f (x.s != y.s) (magInt f.mb x.m * magInt f.mb y.m) (2 ^ f.scale)

def div (f : Fmt) (x y : FP) : FP :=
  if x.isNaN f || y.isNaN f then nan f
  else if x.isInf f then (if y.isInf f then nan f else ⟨x.s != y.s, f.infMag⟩)
  else if y.isInf f then ⟨x.s != y.s, 0⟩
  else if y.m == 0 then (if x.m == 0 then nan f else ⟨x.s != y.s, f.infMag⟩)
  else round f (x.s != y.s) (magInt f.mb x.m * 2 ^ f.scale) (magInt f.mb y.m)

/-- The order key: magnitude bits with sign. -/
def key (x : FP) : Int := if x.s then -(x.m : Int) else x.m

/-- `x < y` -/
def lt (f : Fmt) (x y : FP) : Bool := !x.isNaN f && !y.isNaN f && decide (x.key < y.key)

/-- `x == y` -/
def eq (f : Fmt) (x y : FP) : Bool := !x.isNaN f && !y.isNaN f && decide (x.key = y.key)

/-- `math.Floor` -/
def floor (f : Fmt) (x : FP) : FP :=
  if x.isNaN f || x.isInf f || x.m == 0 then x
  else
    let t := x.int f / ((2 ^ f.scale : Nat) : Int)
    round f (t < 0) (t.natAbs * 2 ^ f.scale) 1

/-- The float of an integer (conversion of an integer constant or variable). -/
def ofInt (f : Fmt) (i : Int) : FP := round f (i < 0) (i.natAbs * 2 ^ f.scale) 1

/-- Conversion between formats; NaNs keep the leading payload bits and become quiet (as on amd64/arm64). -/
def convert (f g : Fmt) (x : FP) : FP :=
  if x.isNaN f then
    let frac := (x.m - f.infMag) <<< g.mb >>> f.mb
    ⟨x.s, g.infMag + (frac ||| 2 ^ (g.mb - 1))⟩
  else if x.isInf f then ⟨x.s, g.infMag⟩
  else round g x.s (magInt f.mb x.m * 2 ^ g.scale) (2 ^ f.scale)

end FP

namespace F64

/-- Split a bit pattern. -/
def fp (x : F64) : FP := ⟨decide (2 ^ 63 ≤ x.toNat), x.toNat % 2 ^ 63⟩
/-- Build a bit pattern. -/
def ofFP (x : FP) : F64 := BitVec.ofNat 64 ((if x.s then 2 ^ 63 else 0) + x.m)

def isNaN (x : F64) : Bool := x.fp.isNaN b64
def isFinite (x : F64) : Bool := x.fp.m < b64.infMag
def add (x y : F64) : F64 := ofFP (FP.add b64 x.fp y.fp)
def sub (x y : F64) : F64 := ofFP (FP.sub b64 x.fp y.fp)
def mul (x y : F64) : F64 := ofFP (FP.mul b64 x.fp y.fp)
def div (x y : F64) : F64 := ofFP (FP.div b64 x.fp y.fp)
def lt (x y : F64) : Bool := FP.lt b64 x.fp y.fp
/-- `x <= y` -/
def le (x y : F64) : Bool := FP.lt b64 x.fp y.fp || FP.eq b64 x.fp y.fp
def floor (x : F64) : F64 := ofFP (FP.floor b64 x.fp)
/-- `float64(i)` -/
def ofInt (i : Int) : F64 := ofFP (FP.ofInt b64 i)
/-- `math.Inf(1)` -/
def inf : F64 := ofFP ⟨false, b64.infMag⟩
/-- `math.Inf(-1)` -/
def ninf : F64 := ofFP ⟨true, b64.infMag⟩
/-- The value of a finite float (0 for infinities and NaN, where it is never used). -/
def toRat (x : F64) : Rat := if x.isFinite then (x.fp.int b64 : Rat) / 2 ^ b64.scale else 0

end F64

namespace F32

def fp (x : F32) : FP := ⟨decide (2 ^ 31 ≤ x.toNat), x.toNat % 2 ^ 31⟩
def ofFP (x : FP) : F32 := BitVec.ofNat 32 ((if x.s then 2 ^ 31 else 0) + x.m)
def isNaN (x : F32) : Bool := x.fp.isNaN b32
def isFinite (x : F32) : Bool := x.fp.m < b32.infMag
def sub (x y : F32) : F32 := ofFP (FP.sub b32 x.fp y.fp)
/-- The value of a finite float (0 for infinities and NaN, where it is never used). -/
def toRat (x : F32) : Rat := if x.isFinite then (x.fp.int b32 : Rat) / 2 ^ b32.scale else 0

end F32

/-- `float32(x)` -/
def narrow (x : F64) : F32 := F32.ofFP (FP.convert b64 b32 (F64.fp x))
/-- `float64(x)` for a float32 `x` -/
def widen (x : F32) : F64 := F64.ofFP (FP.convert b32 b64 (F32.fp x))

end Rap
