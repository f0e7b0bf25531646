import Verif.Spec.Rfc3339
import Verif.Model.GoTime
import Mathlib.Tactic.IntervalCases

/-!
# The calendar
-/

namespace Rap

theorem isLeap_iff (y : Int) : isLeap y = true ↔ LeapYear y := by
  simp only [isLeap, LeapYear, Bool.and_eq_true, Bool.or_eq_true, beq_iff_eq, bne_iff_ne]
  omega

theorem daysIn_eq (m : Nat) (y : Int) : daysIn m y = monthDays y m := by
  rw [daysIn, monthDays]
  simp only [isLeap_iff]

theorem daysBefore_succ {m : Nat} (h : 1 ≤ m) (h' : m < 12) (y : Int) : daysBefore (m + 1) y = daysBefore m y + monthDays y m := by
  rw [← daysIn_eq, daysBefore, daysBefore, daysIn]
  cases isLeap y
  · interval_cases m <;> rfl
  · interval_cases m <;> rfl

theorem daysBefore_year (y : Int) : daysBefore 12 y + 31 = 365 + if LeapYear y then 1 else 0 := by
  rw [daysBefore]
  by_cases h : LeapYear y
  · rw [if_pos h, (isLeap_iff y).2 h]; rfl
  · rw [if_neg h, show isLeap y = false by rw [← Bool.not_eq_true, isLeap_iff]; exact h]; rfl

theorem daysBefore_one (y : Int) : daysBefore 1 y = 0 := by
  rw [daysBefore]; cases isLeap y <;> rfl

/-- The day after has the next number. -/
theorem dayNumber_next {d : Date} (h : d.Valid) : dayNumber d.next.year d.next.month d.next.day = dayNumber d.year d.month d.day + 1 := by
  obtain ⟨h1, h2, h3, h4⟩ := h
  obtain ⟨y, m, n⟩ := d
  dsimp only at h1 h2 h3 h4
  rw [Date.next]
  dsimp only
  split
  · simp only [dayNumber]; push_cast; omega
  · next hn =>
    have hn' : n = monthDays y m := by omega
    split
    · next hm =>
      simp only [dayNumber]
      rw [daysBefore_succ h1 hm, hn']
      push_cast; omega
    · next hm =>
      have hm' : m = 12 := by omega
      subst hm'
      have h31 : monthDays y 12 = 31 := rfl
      simp only [dayNumber, daysBefore_one]
      have e := daysBefore_year y
      rw [hn', h31]
      by_cases hl : LeapYear y
      · rw [if_pos hl] at e
        unfold LeapYear at hl
        omega
      · rw [if_neg hl] at e
        unfold LeapYear at hl
        omega

theorem Date.next_valid {d : Date} (h : d.Valid) : d.next.Valid := by
  obtain ⟨h1, h2, h3, h4⟩ := h
  have pos : ∀ y m, 1 ≤ monthDays y m := by
    intro y m; rw [monthDays]; split <;> [split; split] <;> decide
  rw [Date.next]
  split
  · exact ⟨h1, h2, by simp, by simp only; omega⟩
  · split
    · exact ⟨by simp, by simp only; omega, by simp, pos _ _⟩
    · exact ⟨by simp, by simp, by simp, pos _ _⟩

theorem DayOf.valid {k : Int} {d : Date} (h : DayOf k d) : d.Valid := by
  induction h with
  | epoch => exact ⟨by decide, by decide, by decide, by decide⟩
  | after _ ih => exact Date.next_valid ih
  | before h _ _ => exact h

/-- The number of a day is the only one. -/
theorem DayOf.number {k : Int} {d : Date} (h : DayOf k d) : dayNumber d.year d.month d.day = k := by
  induction h with
  | epoch => rfl
  | after h ih => rw [dayNumber_next h.valid, ih]
  | before hv _ ih => have := dayNumber_next hv; omega

theorem monthDay_spec : ∀ (leap : Bool) (n : Fin (if leap then 366 else 365)),
    1 ≤ (monthDay leap n).1 ∧ (monthDay leap n).1 ≤ 12 ∧ 1 ≤ (monthDay leap n).2 ∧
    (monthDay leap n).2 ≤ daysIn (monthDay leap n).1 (if leap then 4 else 1) ∧
    daysBefore (monthDay leap n).1 (if leap then 4 else 1) + (monthDay leap n).2 = n + 1 := by
  decide +kernel

theorem yearDay_spec (k : Int) : (yearDay k).2 < 365 + (if isLeap (yearDay k).1 then 1 else 0) ∧
    365 * ((yearDay k).1 - 1970) + (((yearDay k).1 - 1) / 4 - ((yearDay k).1 - 1) / 100 + ((yearDay k).1 - 1) / 400 - 477) + (yearDay k).2 = k := by
  rw [yearDay]
  dsimp only
  generalize hz : k + 719162 = z
  have hd : (z % 146097).toNat < 146097 := by omega
  have hdz : ((z % 146097).toNat : Int) = z % 146097 := by omega
  generalize (z % 146097).toNat = d at hd hdz
  obtain ⟨n1, h1⟩ : ∃ n1, n1 = d / 36524 - d / 36524 / 4 := ⟨_, rfl⟩
  rw [← h1]
  have b1 : n1 ≤ 3 ∧ 36524 * n1 ≤ d ∧ d - 36524 * n1 ≤ 36524 ∧ (d - 36524 * n1 = 36524 → n1 = 3) := by omega
  obtain ⟨d1, hd1⟩ : ∃ d1, d1 = d - 36524 * n1 := ⟨_, rfl⟩
  rw [← hd1] at b1 ⊢
  clear h1
  obtain ⟨n2, h2⟩ : ∃ n2, n2 = d1 / 1461 := ⟨_, rfl⟩
  rw [← h2]
  obtain ⟨d2, hd2⟩ : ∃ d2, d2 = d1 - 1461 * n2 := ⟨_, rfl⟩
  rw [← hd2]
  have b2 : n2 ≤ 24 ∧ 1461 * n2 + d2 = d1 ∧ d2 ≤ 1460 ∧ (d2 = 1460 → n2 = 24 → n1 = 3) := by omega
  obtain ⟨n3, h3⟩ : ∃ n3, n3 = d2 / 365 - d2 / 365 / 4 := ⟨_, rfl⟩
  rw [← h3]
  obtain ⟨d3, hd3⟩ : ∃ d3, d3 = d2 - 365 * n3 := ⟨_, rfl⟩
  rw [← hd3]
  have b3 : n3 ≤ 3 ∧ 365 * n3 + d3 = d2 ∧ d3 ≤ 365 ∧ (d3 = 365 → n3 = 3 ∧ d2 = 1460) := by omega
  have hy : 400 * (z / 146097) + ((100 * n1 + 4 * n2 + n3 + 1 : Nat) : Int) - 1 = 400 * (z / 146097) + (100 * n1 + 4 * n2 + n3 : Nat) := by
    push_cast; omega
  have hq : 146097 * (z / 146097) + z % 146097 = z := Int.mul_ediv_add_emod z 146097
  generalize z / 146097 = a at hy hq
  clear h2 h3
  constructor
  · by_cases hl : d3 = 365
    · have hb := b3.2.2.2 hl
      have hc := b2.2.2.2 hb.2
      rw [if_pos]
      · omega
      · rw [isLeap_iff, LeapYear]
        push_cast
        omega
    · split <;> omega
  · rw [hy]
    have e1 : (400 * a + ((100 * n1 + 4 * n2 + n3 : Nat) : Int)) / 4 = 100 * a + 25 * n1 + n2 := by omega
    have e2 : (400 * a + ((100 * n1 + 4 * n2 + n3 : Nat) : Int)) / 100 = 4 * a + n1 := by omega
    have e3 : (400 * a + ((100 * n1 + 4 * n2 + n3 : Nat) : Int)) / 400 = a := by omega
    rw [e1, e2, e3]
    push_cast
    omega

/-- The date of a day is a date of the calendar, and has its number. -/
theorem civil_spec (k : Int) : (Date.mk (civil k).1 (civil k).2.1 (civil k).2.2).Valid ∧
    dayNumber (civil k).1 (civil k).2.1 (civil k).2.2 = k := by
  obtain ⟨h1, h2⟩ := yearDay_spec k
  rw [civil]
  dsimp only
  generalize yearDay k = p at h1 h2
  obtain ⟨y, n⟩ := p
  dsimp only at h1 h2 ⊢
  have hs := monthDay_spec (isLeap y)
  have e : isLeap (if isLeap y = true then 4 else 1) = isLeap y := by
    cases isLeap y <;> decide
  have hn : n < if isLeap y = true then 366 else 365 := by
    revert h1; cases isLeap y <;> simp
  have h := hs ⟨n, hn⟩
  dsimp only at h
  generalize monthDay (isLeap y) n = q at h
  obtain ⟨m, d⟩ := q
  dsimp only at h ⊢
  obtain ⟨a1, a2, a3, a4, a5⟩ := h
  have f1 : daysIn m (if isLeap y = true then 4 else 1) = daysIn m y := by rw [daysIn, daysIn, e]
  have f2 : daysBefore m (if isLeap y = true then 4 else 1) = daysBefore m y := by rw [daysBefore, daysBefore, e]
  rw [f1, daysIn_eq] at a4
  rw [f2] at a5
  refine ⟨⟨a1, a2, a3, a4⟩, ?_⟩
  rw [dayNumber]
  omega

/-- The date of the next day is the next date. -/
theorem Date.number_inj {d d' : Date} (h : d.Valid) (h' : d'.Valid)
    (e : dayNumber d.year d.month d.day = dayNumber d'.year d'.month d'.day) : d = d' := by
  have months : ∀ (y : Int) (m m' : Nat), 1 ≤ m → m < m' → m' ≤ 12 → daysBefore m y + monthDays y m ≤ daysBefore m' y := by
    intro y m m' h1 h2 h3
    obtain ⟨j, rfl⟩ : ∃ j, m' = m + 1 + j := ⟨m' - (m + 1), by omega⟩
    induction j with
    | zero => rw [Nat.add_zero, daysBefore_succ h1 (by omega)]
    | succ j ih =>
      rw [← Nat.add_assoc, daysBefore_succ (by omega) (by omega)]
      have := ih (by omega) (by omega)
      omega
  have last : ∀ (d : Date), d.Valid → daysBefore d.month d.year + d.day ≤ 365 + if LeapYear d.year then 1 else 0 := by
    intro d h
    obtain ⟨h1, h2, h3, h4⟩ := h
    have hy := daysBefore_year d.year
    rcases Nat.lt_or_ge d.month 12 with hm | hm
    · have := months d.year d.month 12 h1 hm (Nat.le_refl _)
      omega
    · have h12 : d.month = 12 := by omega
      rw [h12] at h4 ⊢
      have h31 : monthDays d.year 12 = 31 := rfl
      omega
  have before : ∀ (d d' : Date), d.Valid → d'.Valid → d.year < d'.year →
      dayNumber d.year d.month d.day < dayNumber d'.year d'.month d'.day := by
    intro d d' h h' hy
    have hl := last d h
    have h3 := h'.2.2.1
    rw [dayNumber, dayNumber]
    by_cases hl' : LeapYear d.year
    · rw [if_pos hl'] at hl
      unfold LeapYear at hl'
      omega
    · rw [if_neg hl'] at hl
      omega
  obtain ⟨y, m, n⟩ := d
  obtain ⟨y', m', n'⟩ := d'
  rcases lt_trichotomy y y' with hy | rfl | hy
  · have := before _ _ h h' hy; omega
  · obtain ⟨h1, h2, h3, h4⟩ := h
    obtain ⟨h1', h2', h3', h4'⟩ := h'
    dsimp only at h1 h2 h3 h4 h1' h2' h3' h4' e
    rw [dayNumber, dayNumber] at e
    rcases Nat.lt_trichotomy m m' with hm | rfl | hm
    · have := months y m m' h1 hm h2'; omega
    · have : n = n' := by omega
      rw [this]
    · have := months y m' m h1' hm h2; omega
  · have := before _ _ h' h hy; omega

/-- Every date of the calendar is some day before or after the first of January 1970. -/
theorem dayOf_civil (k : Int) : DayOf k ⟨(civil k).1, (civil k).2.1, (civil k).2.2⟩ := by
  have step : ∀ k : Int, Date.mk (civil (k + 1)).1 (civil (k + 1)).2.1 (civil (k + 1)).2.2 =
      (Date.mk (civil k).1 (civil k).2.1 (civil k).2.2).next := by
    intro k
    obtain ⟨v, e⟩ := civil_spec k
    obtain ⟨v', e'⟩ := civil_spec (k + 1)
    have := dayNumber_next v
    exact Date.number_inj v' (Date.next_valid v) (by rw [this]; simp only; rw [e, e'])
  induction k using Int.induction_on with
  | zero =>
    have : civil 0 = (1970, 1, 1) := by decide +kernel
    rw [this]; exact .epoch
  | succ i ih => rw [step]; exact .after ih
  | pred i ih =>
    have h := step (-(i : Int) - 1)
    rw [show -(i : Int) - 1 + 1 = -i by omega] at h
    rw [h] at ih
    exact .before (civil_spec _).1 ih

/-- A date has one number. -/
theorem dayOf_iff {k : Int} {d : Date} : DayOf k d ↔ d.Valid ∧ dayNumber d.year d.month d.day = k := by
  refine ⟨fun h => ⟨h.valid, h.number⟩, fun ⟨h, e⟩ => ?_⟩
  have := Date.number_inj (civil_spec k).1 h (by rw [e]; exact (civil_spec k).2)
  rw [← this]
  exact dayOf_civil k

end Rap
