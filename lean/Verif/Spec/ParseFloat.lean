import Verif.Spec.Ieee
import Verif.Spec.Csv
import Verif.Spec.Json

/-!
# Specification: texts of floats

The floating-point literals of the Go language ("Floating-point literals" in its specification), with a sign, and without the demand
for a point or an exponent in decimal ones: what the documentation of `strconv.ParseFloat` says it accepts, besides the words for
infinities and NaN.
-/

namespace Rap.FloatText

/-- A digit. -/
def Digit (hex : Bool) (c : UInt8) : Prop :=
  (48 ≤ c.toNat ∧ c.toNat ≤ 57) ∨ (hex = true ∧ ((65 ≤ c.toNat ∧ c.toNat ≤ 70) ∨ (97 ≤ c.toNat ∧ c.toNat ≤ 102)))

/-- What a digit is worth. -/
def digit (c : UInt8) : Nat := if c.toNat ≤ 57 then c.toNat - 48 else if c.toNat ≤ 70 then c.toNat - 55 else c.toNat - 87

/-- 16 or 10. -/
def base (hex : Bool) : Nat := if hex then 16 else 10

/-- The number that digits write. -/
def value (hex : Bool) (ds : List UInt8) : Nat := ds.foldl (fun v c => base hex * v + digit c) 0

/-- `decimal_digits` and `hex_digits`: digits, with single underscores between them. -/
inductive Run (hex : Bool) : Bytes → List UInt8 → Prop where
  | one {c : UInt8} : Digit hex c → Run hex [c] [c]
  | more {c : UInt8} {t ds : Bytes} : Digit hex c → Run hex t ds → Run hex (c :: t) (c :: ds)
  | under {c : UInt8} {t ds : Bytes} : Digit hex c → Run hex t ds → Run hex (c :: 95 :: t) (c :: ds)

/-- A mantissa: the digits before and behind the point, of which one side may be missing. -/
inductive Mant (hex : Bool) : Bytes → Rat → Prop where
  | whole {t ds : Bytes} : Run hex t ds → Mant hex t (value hex ds)
  | point {t ds : Bytes} : Run hex t ds → Mant hex (t ++ [46]) (value hex ds)
  | both {t ds u es : Bytes} : Run hex t ds → Run hex u es →
      Mant hex (t ++ 46 :: u) (value hex ds + (value hex es : Rat) / base hex ^ es.length)
  | behind {u es : Bytes} : Run hex u es → Mant hex (46 :: u) ((value hex es : Rat) / base hex ^ es.length)

/-- An exponent: a letter, maybe a sign, and decimal digits. -/
inductive Exp (letters : List UInt8) : Bytes → Int → Prop where
  | plain {c : UInt8} {t ds : Bytes} : c ∈ letters → Run false t ds → Exp letters (c :: t) (value false ds)
  | plus {c : UInt8} {t ds : Bytes} : c ∈ letters → Run false t ds → Exp letters (c :: 43 :: t) (value false ds)
  | minus {c : UInt8} {t ds : Bytes} : c ∈ letters → Run false t ds → Exp letters (c :: 45 :: t) (-(value false ds : Int))

/-- A text, the number it writes, and its exponent. -/
inductive Literal : Bytes → Rat → Int → Prop where
  | decimal {t : Bytes} {q : Rat} : Mant false t q → Literal t q 0
  | exponent {t u : Bytes} {q : Rat} {e : Int} : Mant false t q → Exp [101, 69] u e → Literal (t ++ u) (q * 10 ^ e) e
  | hex {x : UInt8} {t u : Bytes} {q : Rat} {e : Int} : x = 120 ∨ x = 88 → Mant true t q → Exp [112, 80] u e →
      Literal (48 :: x :: (t ++ u)) (q * 2 ^ e) e
  | hexUnder {x : UInt8} {t u : Bytes} {q : Rat} {e : Int} : x = 120 ∨ x = 88 → t.head? ≠ some 46 → Mant true t q → Exp [112, 80] u e →
      Literal (48 :: x :: 95 :: (t ++ u)) (q * 2 ^ e) e

/-- With a sign: whether there is a minus, the number without sign, and the exponent. -/
inductive Signed : Bytes → Bool → Rat → Int → Prop where
  | plain {t : Bytes} {q : Rat} {e : Int} : Literal t q e → Signed t false q e
  | plus {t : Bytes} {q : Rat} {e : Int} : Literal t q e → Signed (43 :: t) false q e
  | minus {t : Bytes} {q : Rat} {e : Int} : Literal t q e → Signed (45 :: t) true q e

/-- The number with its sign. -/
def signed (neg : Bool) (q : Rat) : Rat := if neg then -q else q

/-- Equal but for upper and lower case. -/
def SameWord (w s : Bytes) : Prop := List.Forall₂ (fun a b => b = a ∨ b.toNat + 32 = a.toNat) w s

/-- The words for an infinity, with or without sign. -/
def Infinity (s : Bytes) (neg : Bool) : Prop :=
  ∃ w, (SameWord [105, 110, 102] w ∨ SameWord [105, 110, 102, 105, 110, 105, 116, 121] w) ∧
    ((s = w ∧ neg = false) ∨ (s = 43 :: w ∧ neg = false) ∨ (s = 45 :: w ∧ neg = true))

/-- The word for NaN. -/
def Nan (s : Bytes) : Prop := SameWord [110, 97, 110] s

/-- The text is that of the float32: an infinity, NaN, or the number nearest to the written one, with its sign (also if it is a zero);
written numbers that are too large for float32 are not. -/
def Reads32 (s : Bytes) (y : BitVec 32) : Prop :=
  (∃ neg, Infinity s neg ∧ number32 y = if neg then .ninf else .pinf) ∨ (Nan s ∧ number32 y = .nan) ∨
    ∃ neg q e, Signed s neg q e ∧ q < 2 ^ 128 - 2 ^ 103 ∧ Nearest32 (signed neg q) y ∧ y.msb = neg

/-- The same for doubles. -/
def Reads64 (s : Bytes) (y : BitVec 64) : Prop :=
  (∃ neg, Infinity s neg ∧ number64 y = if neg then .ninf else .pinf) ∨ (Nan s ∧ number64 y = .nan) ∨
    ∃ neg q e, Signed s neg q e ∧ q < 2 ^ 1024 - 2 ^ 970 ∧ Nearest64 (signed neg q) y ∧ y.msb = neg

/-- If the text is a number, then its exponent has at most five digits, or the text has at most 2000 characters. -/
def Modest (s : Bytes) : Prop := ∀ neg q e, Signed s neg q e → |e| < 100000 ∨ s.length ≤ 2000

/-- The code points with the property White_Space of Unicode. -/
def whiteSpace : List Nat :=
  [0x9, 0xA, 0xB, 0xC, 0xD, 0x20, 0x85, 0xA0, 0x1680, 0x2000, 0x2001, 0x2002, 0x2003, 0x2004, 0x2005, 0x2006, 0x2007, 0x2008, 0x2009,
    0x200A, 0x2028, 0x2029, 0x202F, 0x205F, 0x3000]

/-- The character is white space. -/
def White (b : Bytes) : Prop := ∃ u ∈ whiteSpace, b = utf8 u

/-- `t` is `s` without white space around it. -/
def Trimmed (s t : Bytes) : Prop :=
  (∃ a b : List Bytes, (∀ w ∈ a, White w) ∧ (∀ w ∈ b, White w) ∧ s = a.flatten ++ (t ++ b.flatten)) ∧
    ∀ w, White w → ¬ w <+: t ∧ ¬ w <:+ t

/-- The numbers of a row, as they are written. -/
def RowReads (T : CsvExt) (header row : List Bytes) (r : CsvRow) : Prop :=
  ∀ name x, (name, x) ∈ [(b!"time", r.time), (b!"x", r.pos.x), (b!"y", r.pos.y), (b!"z", r.pos.z)] →
    ∃ s t, HasCell T header row name s ∧ Trimmed s t ∧ Reads64 t x

/-- The block is the map of strings, except that strings which write a float32 have become this number. -/
def ReadMap (m : List (Bytes × Bytes)) (b : Block) : Prop :=
  ∃ values : List Property, (List.zip (m.map (·.1)) values).Perm b ∧
    List.Forall₂ (fun kv p => (∃ y, p = .f32 y ∧ Reads32 kv.2 y) ∨ (p = .str kv.2 ∧ ¬ ∃ y, Reads32 kv.2 y)) m values

end Rap.FloatText
