import Verif.Model.ParseFloat
import Verif.Spec.ParseFloat
import Mathlib.Algebra.Order.Field.Rat
import Mathlib.Tactic.FieldSimp
import Mathlib.Tactic.Ring
import Mathlib.Tactic.Positivity

/-!
# Texts of floats: what `readFloat` reads
-/

namespace Rap
open FloatText

/-! ## Characters -/

theorem u8_forall {P : UInt8 → Prop} (h : ∀ n : Fin 256, P (UInt8.ofNat n.val)) (c : UInt8) : P c := by
  have := h ⟨c.toNat, c.toNat_lt⟩
  simpa using this

instance (hex : Bool) (c : UInt8) : Decidable (Digit hex c) := by unfold Digit; infer_instance

theorem digitOf_eq (hex : Bool) (c : UInt8) : digitOf hex c = if Digit hex c then some (digit c) else none := by
  revert hex
  refine u8_forall (P := fun c => ∀ hex, digitOf hex c = if Digit hex c then some (digit c) else none) ?_ c
  decide +kernel

theorem digit_false (c : UInt8) : (48 ≤ c.toNat ∧ c.toNat ≤ 57) ↔ Digit false c := by simp [Digit]

theorem digit_hex {c : UInt8} (h : Digit false c) (hex : Bool) : Digit hex c := by
  rcases h with h | h
  · exact .inl h
  · cases h.1

theorem digit_chars {hex : Bool} {c : UInt8} (h : Digit hex c) : c ≠ 95 ∧ c ≠ 46 := by
  revert h hex
  refine u8_forall (P := fun c => ∀ {hex}, Digit hex c → c ≠ 95 ∧ c ≠ 46) ?_ c
  decide +kernel

/-- Characters of decimal numbers. -/
def DecChar (c : UInt8) : Prop := Digit false c ∨ c = 95 ∨ c = 46 ∨ c = 43 ∨ c = 45 ∨ c = 101 ∨ c = 69

instance (c : UInt8) : Decidable (DecChar c) := by unfold DecChar; infer_instance

theorem decChar_lower {c : UInt8} (h : DecChar c) : lowerByte c ≠ 98 ∧ lowerByte c ≠ 111 ∧ lowerByte c ≠ 120 := by
  revert h
  refine u8_forall (P := fun c => DecChar c → lowerByte c ≠ 98 ∧ lowerByte c ≠ 111 ∧ lowerByte c ≠ 120) ?_ c
  decide +kernel

theorem start_char {c : UInt8} (h : Digit false c ∨ c = 46) : c ≠ 43 ∧ c ≠ 45 ∧ lowerByte c ≠ 105 ∧ lowerByte c ≠ 110 := by
  revert h
  refine u8_forall (P := fun c => Digit false c ∨ c = 46 → c ≠ 43 ∧ c ≠ 45 ∧ lowerByte c ≠ 105 ∧ lowerByte c ≠ 110) ?_ c
  decide +kernel

theorem lower_iff (c : UInt8) : (lowerByte c = 101 ↔ c ∈ ([101, 69] : List UInt8)) ∧ (lowerByte c = 112 ↔ c ∈ ([112, 80] : List UInt8)) ∧
    (lowerByte c = 120 ↔ c = 120 ∨ c = 88) := by
  refine u8_forall (P := fun c => (lowerByte c = 101 ↔ c ∈ ([101, 69] : List UInt8)) ∧ (lowerByte c = 112 ↔ c ∈ ([112, 80] : List UInt8)) ∧
    (lowerByte c = 120 ↔ c = 120 ∨ c = 88)) ?_ c
  decide +kernel

/-- The letters of exponents. -/
def letters (hex : Bool) : List UInt8 := if hex then [112, 80] else [101, 69]

theorem letter_iff (hex : Bool) (c : UInt8) : lowerByte c = (if hex then 112 else 101) ↔ c ∈ letters hex := by
  cases hex
  · exact (lower_iff c).1
  · exact (lower_iff c).2.1

theorem letter_chars {hex : Bool} {c : UInt8} (h : c ∈ letters hex) : ¬ Digit hex c ∧ c ≠ 95 ∧ c ≠ 46 := by
  revert h
  revert hex
  refine u8_forall (P := fun c => ∀ {hex}, c ∈ letters hex → ¬ Digit hex c ∧ c ≠ 95 ∧ c ≠ 46) ?_ c
  decide +kernel

/-! ## Digits -/

/-- Digits behind a number. -/
def more (hex : Bool) (v : Nat) (ds : List UInt8) : Nat := ds.foldl (fun v c => base hex * v + digit c) v

theorem more_eq (hex : Bool) (ds : List UInt8) : ∀ v, more hex v ds = v * base hex ^ ds.length + value hex ds := by
  induction ds with
  | nil => intro v; simp [more, value]
  | cons c ds ih =>
    intro v
    have h1 : more hex v (c :: ds) = more hex (base hex * v + digit c) ds := rfl
    have h2 : value hex (c :: ds) = more hex (base hex * 0 + digit c) ds := rfl
    rw [h1, h2, ih, ih, List.length_cons, pow_succ]
    ring

theorem value_append (hex : Bool) (ds es : List UInt8) :
    value hex (ds ++ es) = value hex ds * base hex ^ es.length + value hex es := by
  have : value hex (ds ++ es) = more hex (value hex ds) es := by simp [value, more]
  rw [this, more_eq]

/-- The text without underscores. -/
def strip (t : Bytes) : Bytes := t.filter (· ≠ 95)

theorem strip_under (t : Bytes) : strip (95 :: t) = strip t := by simp [strip]

theorem strip_other {c : UInt8} (h : c ≠ 95) (t : Bytes) : strip (c :: t) = c :: strip t := by simp [strip, h]

theorem run_ne {hex : Bool} {t ds : Bytes} (h : Run hex t ds) : ∃ c r, t = c :: r ∧ Digit hex c ∧ ds ≠ [] := by
  cases h with
  | one h => exact ⟨_, _, rfl, h, by simp⟩
  | more h _ => exact ⟨_, _, rfl, h, by simp⟩
  | under h _ => exact ⟨_, _, rfl, h, by simp⟩

theorem run_hex {t ds : Bytes} (h : Run false t ds) (hex : Bool) : Run hex t ds := by
  induction h with
  | one h => exact .one (digit_hex h hex)
  | more h _ ih => exact .more (digit_hex h hex) ih
  | under h _ ih => exact .under (digit_hex h hex) ih

theorem run_chars {hex : Bool} {t ds : Bytes} (h : Run hex t ds) : ∀ c ∈ t, Digit hex c ∨ c = 95 := by
  induction h with
  | one h => simpa using .inl h
  | more h _ ih => simpa using ⟨.inl h, ih⟩
  | under h _ ih => simpa using ⟨.inl h, ih⟩

theorem run_of_chars {hex : Bool} {t ds : Bytes} (h : Run hex t ds) (hc : ∀ c ∈ t, Digit false c ∨ c = 95) : Run false t ds := by
  have key : ∀ {c : UInt8}, Digit hex c → (Digit false c ∨ c = 95) → Digit false c := fun h h' =>
    h'.resolve_right (digit_chars h).1
  induction h with
  | one h => exact .one (key h (hc _ (by simp)))
  | more h _ ih => exact .more (key h (hc _ (by simp))) (ih fun c h => hc c (by simp [h]))
  | under h _ ih => exact .under (key h (hc _ (by simp))) (ih fun c h => hc c (by simp [h]))

/-! ## The loops on texts of the grammar -/

theorem read_digit {hex : Bool} {c : UInt8} (h : Digit hex c) (r : Bytes) (m : Mantissa) :
    readMantissa hex (c :: r) m = readMantissa hex r ⟨base hex * m.value + digit c, if m.dot then m.behind + 1 else m.behind, m.dot, true, m.under⟩ := by
  obtain ⟨h1, h2⟩ := digit_chars h
  rw [readMantissa, if_neg h1, if_neg h2, digitOf_eq, if_pos h]
  simp only [base, Nat.mul_comm]

theorem read_under (hex : Bool) (r : Bytes) (m : Mantissa) :
    readMantissa hex (95 :: r) m = readMantissa hex r ⟨m.value, m.behind, m.dot, m.digit, true⟩ := by
  rw [readMantissa, if_pos rfl]

theorem read_dot (hex : Bool) (r : Bytes) (m : Mantissa) (h : m.dot = false) :
    readMantissa hex (46 :: r) m = readMantissa hex r ⟨m.value, m.behind, true, m.digit, m.under⟩ := by
  rw [readMantissa, if_neg (by decide), if_pos rfl, h]
  rfl

/-- The mantissa ends here. -/
def Stop (hex dot : Bool) (r : Bytes) : Prop := ∀ c r', r = c :: r' → c ≠ 95 ∧ ¬ Digit hex c ∧ (c = 46 → dot = true)

theorem read_stop {hex : Bool} {r : Bytes} {m : Mantissa} (h : Stop hex m.dot r) : readMantissa hex r m = (m, r) := by
  cases r with
  | nil => rfl
  | cons c r =>
    obtain ⟨h1, h2, h3⟩ := h c r rfl
    rw [readMantissa, if_neg h1]
    by_cases h4 : c = 46
    · rw [if_pos h4, if_pos (h3 h4)]
    · rw [if_neg h4, digitOf_eq, if_neg h2]

theorem read_run {hex : Bool} {t ds : Bytes} (h : Run hex t ds) (r : Bytes) : ∀ m : Mantissa, readMantissa hex (t ++ r) m =
    readMantissa hex r ⟨more hex m.value ds, if m.dot then m.behind + ds.length else m.behind, m.dot, true, m.under || t.contains 95⟩ := by
  induction h with
  | @one c h =>
    intro m
    have h1 := (digit_chars h).1
    rw [List.singleton_append, read_digit h]
    simp [more, Ne.symm h1]
  | @more c t ds h _ ih =>
    intro m
    have h1 := (digit_chars h).1
    rw [List.cons_append, read_digit h, ih]
    simp only [more, List.foldl_cons, List.length_cons]
    congr 2
    · split_ifs <;> omega
    · simp [Ne.symm h1]
  | @under c t ds h _ ih =>
    intro m
    rw [List.cons_append, List.cons_append, read_digit h, read_under, ih]
    simp only [more, List.foldl_cons, List.length_cons]
    congr 2
    · split_ifs <;> omega
    · simp

theorem under_digit {hex : Bool} {c : UInt8} (h : Digit hex c) (r : Bytes) (saw : Saw) :
    underscoreLoop hex (c :: r) saw = underscoreLoop hex r .digit := by
  rw [underscoreLoop, digitOf_eq, if_pos h]; rfl

theorem under_under (hex : Bool) (r : Bytes) (saw : Saw) :
    underscoreLoop hex (95 :: r) saw = if saw = .digit then underscoreLoop hex r .under else false := by
  have : ¬ Digit hex 95 := fun h => (digit_chars h).1 rfl
  rw [underscoreLoop, digitOf_eq, if_neg this]; simp

theorem under_other {hex : Bool} {c : UInt8} (h : ¬ Digit hex c) (h' : c ≠ 95) (r : Bytes) (saw : Saw) :
    underscoreLoop hex (c :: r) saw = if saw = .under then false else underscoreLoop hex r .other := by
  rw [underscoreLoop, digitOf_eq, if_neg h]; simp [h']

theorem under_run {hex : Bool} {t ds : Bytes} (h : Run hex t ds) (r : Bytes) : ∀ saw, underscoreLoop hex (t ++ r) saw = underscoreLoop hex r .digit := by
  induction h with
  | one h => intro saw; exact under_digit h r saw
  | more h _ ih => intro saw; rw [List.cons_append, under_digit h, ih]
  | under h _ ih => intro saw; rw [List.cons_append, List.cons_append, under_digit h, under_under, if_pos rfl, ih]

/-- The exponent as the code keeps it. -/
def KeptNat (v k : Nat) : Prop := (k = v ∧ v < 100000) ∨ (10000 ≤ k ∧ k < 100000 ∧ 100000 ≤ v)

theorem exp_run {t ds : Bytes} (h : Run false t ds) (r : Bytes) : ∀ v k u, KeptNat v k →
    ∃ k', KeptNat (more false v ds) k' ∧ readExponent (t ++ r) k u = readExponent r k' (u || t.contains 95) := by
  have step : ∀ (c : UInt8) (v k : Nat), Digit false c → KeptNat v k →
      KeptNat (base false * v + digit c) (if k < 10000 then k * 10 + (c.toNat - 48) else k) := by
    intro c v k hc hk
    have h1 := (digit_false c).mpr hc
    have h2 : digit c = c.toNat - 48 := by rw [digit, if_pos h1.2]
    rw [h2]
    unfold KeptNat at hk ⊢
    simp only [base, Bool.false_eq_true, if_false]
    split_ifs with h3 <;> omega
  have one : ∀ (c : UInt8) (r : Bytes) (k : Nat) (u : Bool), Digit false c →
      readExponent (c :: r) k u = readExponent r (if k < 10000 then k * 10 + (c.toNat - 48) else k) u := by
    intro c r k u hc
    rw [readExponent, if_neg (digit_chars hc).1, if_pos ((digit_false c).mpr hc)]
  have und : ∀ (r : Bytes) (k : Nat) (u : Bool), readExponent (95 :: r) k u = readExponent r k true := by
    intro r k u
    rw [readExponent, if_pos rfl]
  induction h with
  | @one c h =>
    intro v k u hk
    have h1 := (digit_chars h).1
    refine ⟨_, step c v k h hk, ?_⟩
    rw [List.singleton_append, one c r k u h]
    simp [Ne.symm h1]
  | @more c t ds h _ ih =>
    intro v k u hk
    have h1 := (digit_chars h).1
    obtain ⟨k', i1, i2⟩ := ih _ _ u (step c v k h hk)
    refine ⟨k', i1, ?_⟩
    rw [List.cons_append, one c _ k u h, i2]
    congr 1
    simp [Ne.symm h1]
  | @under c t ds h _ ih =>
    intro v k u hk
    obtain ⟨k', i1, i2⟩ := ih _ _ true (step c v k h hk)
    refine ⟨k', i1, ?_⟩
    rw [List.cons_append, List.cons_append, one c _ k u h, und, i2]
    congr 1
    simp

/-- The mantissa is read up to the exponent. -/
theorem mant_read {hex : Bool} {t : Bytes} {q : ℚ} (h : Mant hex t q) : ∃ (n k : Nat) (dot : Bool), q = (n : ℚ) / base hex ^ k ∧
    (∀ r, Stop hex dot r → readMantissa hex (t ++ r) ⟨0, 0, false, false, false⟩ = (⟨n, k, dot, true, t.contains 95⟩, r)) ∧
    ∀ r saw, saw ≠ .under → ∃ saw', saw' ≠ .under ∧ underscoreLoop hex (t ++ r) saw = underscoreLoop hex r saw' := by
  have hb : (base hex : ℚ) ≠ 0 := by cases hex <;> simp [base]
  have hdot : ¬ Digit hex 46 := fun h => (digit_chars h).2 rfl
  cases h with
  | @whole _ ds h =>
    refine ⟨value hex ds, 0, false, by simp, fun r hr => ?_, fun r saw _ => ⟨.digit, by decide, under_run h r saw⟩⟩
    rw [read_run h, read_stop hr]
    simp [value, more]
  | @point t ds h =>
    refine ⟨value hex ds, 0, true, by simp, fun r hr => ?_, fun r saw _ => ⟨.other, by decide, ?_⟩⟩
    · rw [List.append_assoc, read_run h, List.singleton_append, read_dot _ _ _ rfl, read_stop hr]
      simp [value, more]
    · rw [List.append_assoc, under_run h, List.singleton_append, under_other hdot (by decide)]
      simp
  | @both t ds u es h h' =>
    refine ⟨value hex (ds ++ es), es.length, true, ?_, fun r hr => ?_, fun r saw _ => ⟨.digit, by decide, ?_⟩⟩
    · rw [value_append]
      push_cast
      field_simp
    · rw [List.append_assoc, read_run h, List.cons_append, read_dot _ _ _ rfl, read_run h', read_stop hr]
      simp [value, more]
    · rw [List.append_assoc, under_run h, List.cons_append, under_other hdot (by decide), if_neg (by decide), under_run h']
  | @behind u es h =>
    refine ⟨value hex es, es.length, true, by simp, fun r hr => ?_, fun r saw hs => ⟨.digit, by decide, ?_⟩⟩
    · rw [List.cons_append, read_dot _ _ _ rfl, read_run h, read_stop hr]
      simp [value, more]
    · rw [List.cons_append, under_other hdot (by decide), if_neg hs, under_run h]

/-- An exponent that is kept: the sign and whether it is exact. -/
def KeptInt (e k : Int) : Prop := (k = e ∧ |e| < 100000) ∨ (10000 ≤ k ∧ k < 100000 ∧ 100000 ≤ e) ∨
  (k ≤ -10000 ∧ -100000 < k ∧ e ≤ -100000)

theorem exp_read {hex : Bool} {u : Bytes} {e : Int} (h : Exp (letters hex) u e) (under : Bool) :
    ∃ k, KeptInt e k ∧ readExpPart hex under u = some (k, under || u.contains 95, []) ∧ ∀ dot, Stop hex dot u ∧
      ∀ saw, saw ≠ .under → underscoreLoop hex u saw = true := by
  have hdig : ∀ (t ds : Bytes) (sign : Int), Run false t ds → ∃ k, KeptNat (value false ds) k ∧
      readExpDigits sign under t = some (sign * k, under || t.contains 95, []) := by
    intro t ds sign hr
    obtain ⟨k, h1, h2⟩ := exp_run hr [] 0 0 under (.inl ⟨rfl, by decide⟩)
    obtain ⟨c, r, rfl, hc, -⟩ := run_ne hr
    refine ⟨k, h1, ?_⟩
    rw [List.append_nil] at h2
    rw [readExpDigits, if_pos ((digit_false c).mpr hc), h2, readExponent]
  have hstop : ∀ (c : UInt8) (t : Bytes) (dot : Bool), c ∈ letters hex → Stop hex dot (c :: t) := by
    intro c t dot hc c' r' he
    cases he
    obtain ⟨h1, h2, h3⟩ := letter_chars hc
    exact ⟨h2, h1, fun h => absurd h h3⟩
  have hund : ∀ (c : UInt8) (r : Bytes) (saw : Saw), ¬ Digit hex c → c ≠ 95 → saw ≠ .under →
      underscoreLoop hex (c :: r) saw = underscoreLoop hex r .other := by
    intro c r saw h1 h2 h3
    rw [under_other h1 h2, if_neg h3]
  have hrun : ∀ (t ds : Bytes) (saw : Saw), Run false t ds → underscoreLoop hex t saw = true := by
    intro t ds saw h
    have := under_run (run_hex h hex) [] saw
    rw [List.append_nil] at this
    rw [this]; rfl
  have h43 : ¬ Digit hex 43 := by cases hex <;> decide
  have h45 : ¬ Digit hex 45 := by cases hex <;> decide
  cases h with
  | @plain c t ds hc hr =>
    obtain ⟨h1, h2, h3⟩ := letter_chars hc
    obtain ⟨k, k1, k2⟩ := hdig t ds 1 hr
    refine ⟨k, ?_, ?_, fun dot => ⟨hstop c _ dot hc, fun saw hs => ?_⟩⟩
    · unfold KeptNat at k1; unfold KeptInt
      rw [abs_of_nonneg (by positivity)]
      omega
    · obtain ⟨d, r, rfl, hd, -⟩ := run_ne hr
      obtain ⟨d1, d2, -, -⟩ := start_char (.inl hd)
      rw [readExpPart, if_pos ((letter_iff hex c).mpr hc)]
      · rw [k2]
        simp [Ne.symm h2]
      · rintro r' he; cases he; exact d1 rfl
      · rintro r' he; cases he; exact d2 rfl
    · rw [hund c _ saw h1 h2 hs, hrun t ds _ hr]
  | @plus c t ds hc hr =>
    obtain ⟨h1, h2, h3⟩ := letter_chars hc
    obtain ⟨k, k1, k2⟩ := hdig t ds 1 hr
    refine ⟨k, ?_, ?_, fun dot => ⟨hstop c _ dot hc, fun saw hs => ?_⟩⟩
    · unfold KeptNat at k1; unfold KeptInt
      rw [abs_of_nonneg (by positivity)]
      omega
    · rw [readExpPart, if_pos ((letter_iff hex c).mpr hc)]
      rw [k2]
      simp [Ne.symm h2]
    · rw [hund c _ saw h1 h2 hs, hund _ _ _ h43 (by decide) (by decide), hrun t ds _ hr]
  | @minus c t ds hc hr =>
    obtain ⟨h1, h2, h3⟩ := letter_chars hc
    obtain ⟨k, k1, k2⟩ := hdig t ds (-1) hr
    refine ⟨-k, ?_, ?_, fun dot => ⟨hstop c _ dot hc, fun saw hs => ?_⟩⟩
    · unfold KeptNat at k1; unfold KeptInt
      rw [abs_neg, abs_of_nonneg (by positivity)]
      omega
    · rw [readExpPart, if_pos ((letter_iff hex c).mpr hc)]
      rw [k2]
      simp [Ne.symm h2]
    · rw [hund c _ saw h1 h2 hs, hund _ _ _ h45 (by decide) (by decide), hrun t ds _ hr]

theorem mant_chars {hex : Bool} {t : Bytes} {q : ℚ} (h : Mant hex t q) : (∀ c ∈ t, Digit hex c ∨ c = 95 ∨ c = 46) ∧
    ∃ c r, t = c :: r ∧ (Digit hex c ∨ c = 46) := by
  cases h with
  | whole h =>
    obtain ⟨c, r, rfl, hc, -⟩ := run_ne h
    exact ⟨fun d hd => (run_chars h d hd).imp id .inl, _, _, rfl, .inl hc⟩
  | point h =>
    obtain ⟨c, r, rfl, hc, -⟩ := run_ne h
    refine ⟨fun d hd => ?_, _, _, rfl, .inl hc⟩
    rcases List.mem_append.mp hd with hd | hd
    · exact (run_chars h d hd).imp id .inl
    · simp at hd; exact .inr (.inr hd)
  | both h h' =>
    obtain ⟨c, r, rfl, hc, -⟩ := run_ne h
    refine ⟨fun d hd => ?_, _, _, rfl, .inl hc⟩
    rcases List.mem_append.mp hd with hd | hd
    · exact (run_chars h d hd).imp id .inl
    · rcases List.mem_cons.mp hd with rfl | hd
      · exact .inr (.inr rfl)
      · exact (run_chars h' d hd).imp id .inl
  | behind h =>
    refine ⟨fun d hd => ?_, _, _, rfl, .inr rfl⟩
    rcases List.mem_cons.mp hd with rfl | hd
    · exact .inr (.inr rfl)
    · exact (run_chars h d hd).imp id .inl

theorem exp_chars {u : Bytes} {e : Int} (h : Exp [101, 69] u e) : ∀ c ∈ u, DecChar c := by
  have run : ∀ {t ds : Bytes}, Run false t ds → ∀ c ∈ t, DecChar c := fun h c hc =>
    (run_chars h c hc).imp id .inl
  cases h with
  | plain hc hr =>
    intro d hd
    rcases List.mem_cons.mp hd with rfl | hd
    · simp at hc; unfold DecChar; tauto
    · exact run hr d hd
  | plus hc hr =>
    intro d hd
    rcases List.mem_cons.mp hd with rfl | hd
    · simp at hc; unfold DecChar; tauto
    · rcases List.mem_cons.mp hd with rfl | hd
      · unfold DecChar; tauto
      · exact run hr d hd
  | minus hc hr =>
    intro d hd
    rcases List.mem_cons.mp hd with rfl | hd
    · simp at hc; unfold DecChar; tauto
    · rcases List.mem_cons.mp hd with rfl | hd
      · unfold DecChar; tauto
      · exact run hr d hd

theorem splitPrefix_dec {s : Bytes} (h : ∀ c ∈ s, DecChar c) : splitPrefix s = (false, s) := by
  unfold splitPrefix
  split
  · rename_i c d r
    rw [if_neg (decChar_lower (h c (by simp))).2.2]
  · rfl

theorem underscoreOK_dec {s : Bytes} (h : ∀ c ∈ s, DecChar c) : underscoreOK s = underscoreLoop false s .start := by
  unfold underscoreOK
  split
  · rename_i c r
    obtain ⟨h1, h2, h3⟩ := decChar_lower (h c (by simp))
    rw [if_neg (by simp [h1, h2, h3])]
  · rfl

/-- The number that was read. -/
def ReadNumber.Is (n : ReadNumber) (neg : Bool) (q : ℚ) (e : Int) : Prop :=
  n.neg = neg ∧ ∃ k, KeptInt e n.exp ∧ k = (if n.hex then (2 : ℚ) else 10) ∧ q = (n.value : ℚ) / base n.hex ^ n.behind * k ^ e

theorem readUnsigned_complete (neg : Bool) {s : Bytes} {q : ℚ} {e : Int} (h : Literal s q e) :
    ∃ n, readUnsigned neg s = some n ∧ n.Is neg q e := by
  have fin : ∀ (hex : Bool) (body s : Bytes) (n k : Nat) (dot under under' : Bool) (r : Bytes) (e' : Int), splitPrefix s = (hex, body) →
      readMantissa hex body ⟨0, 0, false, false, false⟩ = (⟨n, k, dot, true, under⟩, r) → readExpPart hex under r = some (e', under', []) →
      underscoreOK s = true → readUnsigned neg s = some ⟨neg, hex, n, k, e'⟩ := by
    intro hex body s n k dot under under' r e' h1 h2 h3 h4
    simp [readUnsigned, h1, h2, h3, h4]
  cases h with
  | decimal hm =>
    obtain ⟨n, k, dot, hq, h1, h2⟩ := mant_read hm
    have hc : ∀ c ∈ s, DecChar c := fun c hc => by
      have := (mant_chars hm).1 c hc; unfold DecChar; tauto
    have h1 := h1 [] (fun c r' h => by cases h)
    obtain ⟨saw', hs, h2⟩ := h2 [] .start (by decide)
    rw [List.append_nil] at h1 h2
    refine ⟨_, fin false s s n k dot _ _ [] 0 (splitPrefix_dec hc) h1 rfl ?_, rfl, _, .inl ⟨rfl, by simp⟩, rfl, ?_⟩
    · rw [underscoreOK_dec hc, h2]
      simpa [underscoreLoop] using hs
    · simpa using hq
  | @exponent t u q e hm he =>
    obtain ⟨n, k, dot, hq, h1, h2⟩ := mant_read hm
    obtain ⟨e', k1, k2, k3⟩ := exp_read (hex := false) he (t.contains 95)
    have hc : ∀ c ∈ t ++ u, DecChar c := fun c hc => by
      rcases List.mem_append.mp hc with hc | hc
      · have := (mant_chars hm).1 c hc; unfold DecChar; tauto
      · exact exp_chars he c hc
    obtain ⟨saw', hs, h2⟩ := h2 u .start (by decide)
    refine ⟨_, fin false _ _ n k dot _ _ u e' (splitPrefix_dec hc) (h1 u (k3 dot).1) k2 ?_, rfl, _, k1, rfl, ?_⟩
    · rw [underscoreOK_dec hc, h2]
      exact (k3 dot).2 _ hs
    · rw [hq]; rfl
  | @hex x t u q e hx hm he =>
    obtain ⟨n, k, dot, hq, h1, h2⟩ := mant_read hm
    obtain ⟨e', k1, k2, k3⟩ := exp_read (hex := true) he (t.contains 95)
    obtain ⟨-, c, r, ht, hcc⟩ := mant_chars hm
    obtain ⟨saw', hs, h2⟩ := h2 u .digit (by decide)
    have hl : lowerByte x = 120 := (lower_iff x).2.2.mpr hx
    have hp : splitPrefix (48 :: x :: (t ++ u)) = (true, t ++ u) := by
      rw [ht, List.cons_append, splitPrefix, if_pos hl]
    refine ⟨_, fin true _ _ n k dot _ _ u e' hp (h1 u (k3 dot).1) k2 ?_, rfl, _, k1, rfl, ?_⟩
    · rw [underscoreOK, if_pos (.inr (.inr hl)), hl, decide_eq_true rfl, h2]
      exact (k3 dot).2 _ hs
    · rw [hq]; rfl
  | @hexUnder x t u q e hx ht0 hm he =>
    obtain ⟨n, k, dot, hq, h1, h2⟩ := mant_read hm
    obtain ⟨e', k1, k2, k3⟩ := exp_read (hex := true) he true
    obtain ⟨-, c, r, ht, hcc⟩ := mant_chars hm
    have hcd : Digit true c := by
      rcases hcc with hcc | hcc
      · exact hcc
      · subst hcc; simp [ht] at ht0
    have hl : lowerByte x = 120 := (lower_iff x).2.2.mpr hx
    have hp : splitPrefix (48 :: x :: 95 :: (t ++ u)) = (true, 95 :: (t ++ u)) := by
      rw [splitPrefix, if_pos hl]
    have hstart : ∀ saw, underscoreLoop true (t ++ u) saw = underscoreLoop true (t ++ u) .digit := by
      intro saw
      rw [ht, List.cons_append, under_digit hcd, under_digit hcd]
    obtain ⟨saw', hs, h2⟩ := h2 u .digit (by decide)
    have hread : ∀ (m : Mantissa) (b : Bytes), ∃ w, readMantissa true b ⟨m.value, m.behind, m.dot, m.digit, true⟩ =
        (⟨(readMantissa true b m).1.value, (readMantissa true b m).1.behind, (readMantissa true b m).1.dot, (readMantissa true b m).1.digit, w⟩,
          (readMantissa true b m).2) ∧ w = true := by
      intro m b
      induction b generalizing m with
      | nil => exact ⟨true, rfl, rfl⟩
      | cons c b ih =>
        by_cases hu : c = 95
        · subst hu
          rw [read_under, read_under]
          exact ih ⟨m.value, m.behind, m.dot, m.digit, true⟩
        · by_cases hd : c = 46
          · subst hd
            cases hdot : m.dot
            · rw [read_dot _ _ _ hdot, read_dot _ _ _ rfl]
              exact ih ⟨m.value, m.behind, true, m.digit, m.under⟩
            · have : ∀ m' : Mantissa, m'.dot = true → readMantissa true (46 :: b) m' = (m', 46 :: b) := fun m' hm' =>
                read_stop fun c r' h => by cases h; exact ⟨by decide, by decide, fun _ => hm'⟩
              rw [this _ rfl, this _ hdot]
              exact ⟨true, by simp [hdot], rfl⟩
          · by_cases hg : Digit true c
            · rw [read_digit hg, read_digit hg]
              exact ih ⟨base true * m.value + digit c, if m.dot then m.behind + 1 else m.behind, m.dot, true, m.under⟩
            · have : ∀ m' : Mantissa, readMantissa true (c :: b) m' = (m', c :: b) := fun m' =>
                read_stop fun c' r' h => by cases h; exact ⟨hu, hg, fun h => absurd h hd⟩
              rw [this, this]
              exact ⟨true, rfl, rfl⟩
    obtain ⟨w, hw, rfl⟩ := hread ⟨0, 0, false, false, false⟩ (t ++ u)
    rw [h1 u (k3 dot).1] at hw
    refine ⟨_, fin true _ _ n k dot true _ u e' hp (by rw [read_under]; exact hw) k2 ?_, rfl, _, k1, rfl, ?_⟩
    · rw [underscoreOK, if_pos (.inr (.inr hl)), hl, decide_eq_true rfl, under_under, if_pos rfl, hstart, h2]
      exact (k3 dot).2 _ hs
    · rw [hq]; rfl

end Rap
