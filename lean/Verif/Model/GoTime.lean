import Verif.Model.GoJson

/-!
# The package time: times as texts

Not part of /repo: `Time.Format` and `time.Parse` with the layout `time.RFC3339Nano`, which property.go:581 and 590 and utils.go:65
call, modelled as they are documented. The local time zone is a function from seconds to its offset in minutes.
-/

namespace Rap

/-! ## The calendar -/

/-- A leap year (`isLeap`). -/
def isLeap (y : Int) : Bool := y % 4 == 0 && (y % 100 != 0 || y % 400 == 0)

/-- The days of a month (`daysIn`). -/
def daysIn (m : Nat) (y : Int) : Nat :=
  if m = 2 then (if isLeap y then 29 else 28) else if m = 4 ∨ m = 6 ∨ m = 9 ∨ m = 11 then 30 else 31

/-- The days of a year before a month of a year without a leap day (`daysBefore`). -/
def daysBeforeTable : List Nat := [0, 31, 59, 90, 120, 151, 181, 212, 243, 273, 304, 334, 365]

/-- The days of a year before a month. -/
def daysBefore (m : Nat) (y : Int) : Nat := daysBeforeTable[m - 1]?.getD 0 + if isLeap y && 2 < m then 1 else 0

/-- The year and the day of the year, `k` days after the first of January 1970 (`absDate`): cycles of 400, 100, 4 years and of one
year. -/
def yearDay (k : Int) : Int × Nat :=
  let z := k + 719162
  let d := (z % 146097).toNat
  let n1 := d / 36524 - d / 36524 / 4
  let d := d - 36524 * n1
  let n2 := d / 1461
  let d := d - 1461 * n2
  let n3 := d / 365 - d / 365 / 4
  (400 * (z / 146097) + (100 * n1 + 4 * n2 + n3 + 1 : Nat), d - 365 * n3)

/-- The month and the day of a day of the year (`absDate`): after the first guess, that every month has 31 days. -/
def monthDay (leap : Bool) (n : Nat) : Nat × Nat :=
  if leap ∧ n = 59 then (2, 29)
  else
    let n := if leap ∧ 59 < n then n - 1 else n
    let m := n / 31
    let fin := daysBeforeTable[m + 1]?.getD 0
    if fin ≤ n then (m + 2, n - fin + 1) else (m + 1, n - daysBeforeTable[m]?.getD 0 + 1)

/-- The date `k` days after the first of January 1970 (`Time.Date`). -/
def civil (k : Int) : Int × Nat × Nat := ((yearDay k).1, monthDay (isLeap (yearDay k).1) (yearDay k).2)

/-- The days from the first of January 1970 to a date (`time.Date`). -/
def dayNumber (y : Int) (m d : Nat) : Int :=
  365 * (y - 1970) + ((y - 1) / 4 - (y - 1) / 100 + (y - 1) / 400 - 477) + daysBefore m y + d - 1

/-! ## Texts -/

/-- The fraction of a second without zeros at its end; nothing if it is zero (`appendNano` of `.999999999`). -/
def nanoText (ns : Nat) : Bytes :=
  if ns = 0 then [] else 46 :: ((fixedDigits 9 ns).reverse.dropWhile (· == 48)).reverse

/-- The offset of the zone (`Z07:00`). -/
def zoneText (minutes : Int) : Bytes :=
  if minutes = 0 then b!"Z"
  else (if minutes < 0 then 45 else 43) :: (fixedDigits 2 (minutes.natAbs / 60) ++ 58 :: fixedDigits 2 (minutes.natAbs % 60))

/-- `time.Unix(0, n).Format(time.RFC3339Nano)`. -/
def goTime (zone : Int → Int) (n : BitVec 64) : Bytes :=
  let sec := n.toInt / 1000000000
  let off := zone sec
  let t := sec + 60 * off
  let (y, m, d) := civil (t / 86400)
  let r := (t % 86400).toNat
  fixedDigits 4 y.toNat ++ 45 :: (fixedDigits 2 m ++ 45 :: (fixedDigits 2 d ++ 84 :: (fixedDigits 2 (r / 3600) ++
    58 :: (fixedDigits 2 (r / 60 % 60) ++ 58 :: (fixedDigits 2 (r % 60) ++
      (nanoText (n.toInt % 1000000000).toNat ++ zoneText off))))))

/-- `n` digits (`getnum` with `fixed`, `stdLongYear`). -/
def takeDigits (n : Nat) (s : Bytes) : Option (Nat × Bytes) :=
  if n ≤ s.length then (readDigits (s.take n)).map fun v => (v, s.drop n) else none

/-- One or two digits (`getnum` without `fixed`). -/
def takeHour (s : Bytes) : Option (Nat × Bytes) := (takeDigits 2 s).or (takeDigits 1 s)

/-- A character of the layout (`skip`). -/
def takeChar (c : UInt8) : Bytes → Option Bytes
  | a :: s => if a = c then some s else none
  | [] => none

/-- A fraction, if there is one, in nanoseconds (`stdFracSecond9`, `parseNanoseconds`): a point or comma and digits, of which
nine count. -/
def takeNano (s : Bytes) : Nat × Bytes :=
  match s with
  | [] => (0, [])
  | c :: r =>
    let ds := r.takeWhile fun (a : UInt8) => 48 ≤ a.toNat && a.toNat ≤ 57
    if (c = 46 ∨ c = 44) ∧ ds ≠ [] then
      (((ds ++ List.replicate 9 48).take 9).foldl (fun v (a : UInt8) => 10 * v + (a.toNat - 48)) 0, r.drop ds.length)
    else (0, s)

/-- The offset in minutes and what follows it (`stdISO8601ColonTZ`); up to 24 hours and up to 60 minutes. -/
def takeZone (s : Bytes) : Option (Int × Bytes) :=
  match s with
  | 90 :: r => some (0, r)
  | c :: r =>
    (takeDigits 2 r).bind fun (h, r) => (takeChar 58 r).bind fun r => (takeDigits 2 r).bind fun (m, r) =>
      if h ≤ 24 ∧ m ≤ 60 then
        if c = 43 then some ((60 * h + m : Nat), r)
        else if c = 45 then some (-((60 * h + m : Nat) : Int), r)
        else none
      else none
  | [] => none

/-- `time.Parse(time.RFC3339Nano, s)` and `UnixMicro()`; `none` is an error. -/
def goParseTime (s : Bytes) : Option (BitVec 64) :=
  (takeDigits 4 s).bind fun (y, s) => (takeChar 45 s).bind fun s =>
  (takeDigits 2 s).bind fun (mo, s) => (takeChar 45 s).bind fun s =>
  (takeDigits 2 s).bind fun (d, s) => (takeChar 84 s).bind fun s =>
  (takeHour s).bind fun (h, s) => (takeChar 58 s).bind fun s =>
  (takeDigits 2 s).bind fun (mi, s) => (takeChar 58 s).bind fun s =>
  (takeDigits 2 s).bind fun (sec, s) =>
  let (ns, s) := takeNano s
  (takeZone s).bind fun (off, s) =>
    if s = [] ∧ 1 ≤ mo ∧ mo ≤ 12 ∧ 1 ≤ d ∧ d ≤ daysIn mo y ∧ h < 24 ∧ mi < 60 ∧ sec < 60 then
      some (BitVec.ofInt 64 ((86400 * dayNumber y mo d + 3600 * h + 60 * mi + sec - 60 * off) * 1000000 + (ns / 1000 : Nat)))
    else none


end Rap
