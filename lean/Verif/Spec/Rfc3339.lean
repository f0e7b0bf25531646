import Verif.Spec.JsonNumber

/-!
# Specification: times as texts (RFC 3339), in the Gregorian calendar

Of RFC 3339 without its two liberties: the letters T and Z are upper case, and there is no second 60.
-/

namespace Rap

/-- Every fourth year, except that of centuries only every fourth. -/
def LeapYear (y : Int) : Prop := 4 ∣ y ∧ (¬ 100 ∣ y ∨ 400 ∣ y)

instance (y : Int) : Decidable (LeapYear y) := by unfold LeapYear; infer_instance

/-- The days of a month. -/
def monthDays (y : Int) (m : Nat) : Nat :=
  if m = 2 then (if LeapYear y then 29 else 28) else if m = 4 ∨ m = 6 ∨ m = 9 ∨ m = 11 then 30 else 31

/-- A day of the calendar. -/
structure Date where
  year : Int
  month : Nat
  day : Nat
  deriving DecidableEq

def Date.Valid (d : Date) : Prop := 1 ≤ d.month ∧ d.month ≤ 12 ∧ 1 ≤ d.day ∧ d.day ≤ monthDays d.year d.month

/-- The day after. -/
def Date.next (d : Date) : Date :=
  if d.day < monthDays d.year d.month then ⟨d.year, d.month, d.day + 1⟩
  else if d.month < 12 then ⟨d.year, d.month + 1, 1⟩
  else ⟨d.year + 1, 1, 1⟩

/-- The day is `k` days after the first of January 1970. -/
inductive DayOf : Int → Date → Prop
  | epoch : DayOf 0 ⟨1970, 1, 1⟩
  | after {k : Int} {d : Date} : DayOf k d → DayOf (k + 1) d.next
  | before {k : Int} {d : Date} : d.Valid → DayOf k d.next → DayOf (k - 1) d

/-- `n` digits of value `v`. -/
def Field (n : Nat) (b : Bytes) (v : Nat) : Prop := b.length = n ∧ Digits b ∧ digitsValue b = v

/-- The offset from UTC: Z, or a sign, hours and minutes. -/
def OffsetText (t : Bytes) (minutes : Int) : Prop :=
  (t = b!"Z" ∧ minutes = 0) ∨ ∃ c a b h m, (c = 43 ∨ c = 45) ∧ Field 2 a h ∧ Field 2 b m ∧ h ≤ 23 ∧ m ≤ 59 ∧
    t = c :: (a ++ 58 :: b) ∧ minutes = (if c = 43 then 1 else -1) * (60 * h + m : Int)

/-- The text is a time, `seconds` after the beginning of 1970 in UTC. -/
def TimeText (t : Bytes) (seconds : Rat) : Prop :=
  ∃ ty tm td th tn ts f fr tz y mo d h mi s k off,
    t = ty ++ 45 :: (tm ++ 45 :: (td ++ 84 :: (th ++ 58 :: (tn ++ 58 :: (ts ++ (f ++ tz)))))) ∧
    Field 4 ty y ∧ Field 2 tm mo ∧ Field 2 td d ∧ Field 2 th h ∧ Field 2 tn mi ∧ Field 2 ts s ∧
    (Date.mk y mo d).Valid ∧ h ≤ 23 ∧ mi ≤ 59 ∧ s ≤ 59 ∧ FractionText f fr ∧ OffsetText tz off ∧ DayOf k ⟨y, mo, d⟩ ∧
    seconds = ((86400 * k + 3600 * h + 60 * mi + s - 60 * off : Int) : Rat) + (digitsValue fr : Rat) / 10 ^ fr.length

end Rap
