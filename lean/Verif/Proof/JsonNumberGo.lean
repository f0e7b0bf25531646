import Verif.Proof.JsonCoerce
import Verif.Proof.JsonNumber
import Verif.Props.ParseFloat

/-!
# The numbers the decoder reads are those of JSON
-/

namespace Rap

open FloatText

/-! ## Valid numbers -/

theorem digits_all {b : Bytes} : Digits b ↔ ∀ c ∈ b, isDigitByte c = true := by
  simp only [Digits, isDigitByte_iff]

theorem digits_validDigits {b : Bytes} : validDigits b = true ↔ b ≠ [] ∧ Digits b := by
  rw [digits_all]
  simp [validDigits]

theorem isDigitByte_sign {c : UInt8} (h : isDigitByte c = true) : c ≠ 43 ∧ c ≠ 45 ∧ c ≠ 46 := by
  refine ⟨?_, ?_, ?_⟩ <;> (rintro rfl; revert h; decide)

theorem validExponent_iff {x : Bytes} : validExponent x = true ↔ ∃ e, ExponentText x e := by
  constructor
  · intro h
    cases x with
    | nil => exact ⟨0, .inl ⟨rfl, rfl⟩⟩
    | cons c r =>
      simp only [validExponent, Bool.and_eq_true, Bool.or_eq_true, beq_iff_eq] at h
      obtain ⟨hc, h⟩ := h
      split at h
      · next r =>
        obtain ⟨h1, h2⟩ := digits_validDigits.1 h
        exact ⟨_, .inr ⟨c, [43], r, hc, h1, h2, rfl, .inl ⟨.inr rfl, rfl⟩⟩⟩
      · next r =>
        obtain ⟨h1, h2⟩ := digits_validDigits.1 h
        exact ⟨_, .inr ⟨c, [45], r, hc, h1, h2, rfl, .inr ⟨rfl, rfl⟩⟩⟩
      · obtain ⟨h1, h2⟩ := digits_validDigits.1 h
        exact ⟨_, .inr ⟨c, [], _, hc, h1, h2, rfl, .inl ⟨.inl rfl, rfl⟩⟩⟩
  · rintro ⟨e, ⟨rfl, -⟩ | ⟨c, s, d, hc, hd0, hd, rfl, hv⟩⟩
    · rfl
    · have hv' := digits_validDigits.2 ⟨hd0, hd⟩
      simp only [validExponent, Bool.and_eq_true, Bool.or_eq_true, beq_iff_eq]
      refine ⟨hc, ?_⟩
      rcases hv with ⟨rfl | rfl, -⟩ | ⟨rfl, -⟩
      · obtain ⟨a, r, rfl⟩ := List.exists_cons_of_ne_nil hd0
        obtain ⟨n1, n2, -⟩ := isDigitByte_sign (digits_all.1 hd a (by simp))
        rw [List.nil_append]
        split
        · simp_all
        · simp_all
        · exact hv'
      · exact hv'
      · exact hv'

theorem dropDigits {d x : Bytes} (hd : Digits d) (hx : NoDigit x) : (d ++ x).dropWhile isDigitByte = x := by
  rw [List.dropWhile_append_of_pos (digits_all.1 hd)]
  cases x with
  | nil => rfl
  | cons c x =>
    rw [List.dropWhile_cons_of_neg]
    intro h
    exact hx c x rfl (isDigitByte_iff.1 h)

theorem validFraction_iff {s : Bytes} : validFraction s = true ↔ ∃ f x fr e, s = f ++ x ∧ FractionText f fr ∧ ExponentText x e := by
  constructor
  · intro h
    rw [validFraction.eq_def] at h
    split at h
    · next c r =>
      simp only [Bool.and_eq_true] at h
      obtain ⟨e, he⟩ := validExponent_iff.1 h.2
      refine ⟨46 :: c :: r.takeWhile isDigitByte, r.dropWhile isDigitByte, c :: r.takeWhile isDigitByte, e, ?_, ?_, he⟩
      · rw [List.cons_append, List.cons_append, List.takeWhile_append_dropWhile]
      · refine .inr ⟨by simp, digits_all.2 fun a ha => ?_, rfl⟩
        rcases List.mem_cons.1 ha with rfl | ha
        · exact h.1
        · exact List.all_eq_true.1 List.all_takeWhile a ha
    · obtain ⟨e, he⟩ := validExponent_iff.1 h
      exact ⟨[], _, [], e, rfl, .inl ⟨rfl, rfl⟩, he⟩
  · rintro ⟨f, x, fr, e, rfl, hf, hx⟩
    rcases hf with ⟨rfl, -⟩ | ⟨h0, hd, rfl⟩
    · rw [List.nil_append, validFraction.eq_def]
      split
      · rcases hx with ⟨h, -⟩ | ⟨c, s, d, hc, -, -, h, -⟩
        · cases h
        · simp only [List.cons.injEq] at h
          rw [← h.1] at hc
          exact absurd hc (by decide)
      · exact validExponent_iff.2 ⟨e, hx⟩
    · obtain ⟨c, r, rfl⟩ := List.exists_cons_of_ne_nil h0
      rw [List.cons_append, List.cons_append, validFraction]
      have hd' := digits_all.1 hd
      rw [hd' c (by simp), dropDigits (digits_all.2 fun a ha => hd' a (by simp [ha])) (noDigit_exponent hx)]
      exact validExponent_iff.2 ⟨e, hx⟩

theorem validInteger_iff {s : Bytes} : validInteger s = true ↔
    ∃ i f x fr n e, s = i ++ (f ++ x) ∧ IsDecimal i n ∧ FractionText f fr ∧ ExponentText x e := by
  constructor
  · intro h
    rw [validInteger.eq_def] at h
    split at h
    · cases h
    · obtain ⟨f, x, fr, e, rfl, hf, hx⟩ := validFraction_iff.1 h
      exact ⟨[48], f, x, fr, 0, e, rfl, ⟨by simp, by decide, rfl, fun _ => rfl⟩, hf, hx⟩
    · next c r h48 =>
      simp only [Bool.and_eq_true] at h
      obtain ⟨f, x, fr, e, hr, hf, hx⟩ := validFraction_iff.1 h.2
      refine ⟨c :: r.takeWhile isDigitByte, f, x, fr, _, e, ?_, ⟨by simp, ?_, rfl, ?_⟩, hf, hx⟩
      · rw [← hr, List.cons_append, List.takeWhile_append_dropWhile]
      · intro a ha
        rcases List.mem_cons.1 ha with rfl | ha
        · exact isDigitByte_iff.1 h.1
        · exact isDigitByte_iff.1 (List.all_eq_true.1 List.all_takeWhile a ha)
      · intro hh
        simp only [List.head?_cons, Option.some.injEq] at hh
        exact absurd hh h48
  · rintro ⟨i, f, x, fr, n, e, rfl, hi, hf, hx⟩
    obtain ⟨c, r, rfl⟩ := List.exists_cons_of_ne_nil hi.1
    have hv : validFraction (f ++ x) = true := validFraction_iff.2 ⟨f, x, fr, e, rfl, hf, hx⟩
    by_cases hc : c = 48
    · have := hi.2.2.2 (by rw [hc]; rfl)
      rw [this]
      exact hv
    · rw [List.cons_append, validInteger]
      · rw [isDigitByte_iff.2 (hi.2.1 c (by simp)), dropDigits (fun a ha => hi.2.1 a (by simp [ha])) (noDigit_fraction hf hx), hv]
        rfl
      · exact hc

theorem validNumber_iff {s : Bytes} : validNumber s = true ↔ ∃ minus v, NumberText s minus v := by
  constructor
  · intro h
    rw [validNumber.eq_def] at h
    split at h
    · obtain ⟨i, f, x, fr, n, e, rfl, hi, hf, hx⟩ := validInteger_iff.1 h
      exact ⟨true, _, i, f, x, fr, n, e, rfl, hi, hf, hx, rfl⟩
    · obtain ⟨i, f, x, fr, n, e, rfl, hi, hf, hx⟩ := validInteger_iff.1 h
      exact ⟨false, _, i, f, x, fr, n, e, rfl, hi, hf, hx, rfl⟩
  · rintro ⟨minus, v, i, f, x, fr, n, e, rfl, hi, hf, hx, -⟩
    have hv := validInteger_iff.2 ⟨i, f, x, fr, n, e, rfl, hi, hf, hx⟩
    cases minus
    · obtain ⟨c, r, rfl⟩ := List.exists_cons_of_ne_nil hi.1
      have hc := (isDigitByte_sign (isDigitByte_iff.2 (hi.2.1 c (by simp)))).2.1
      rw [if_neg (by simp), List.nil_append, validNumber.eq_def]
      split
      · next h =>
        rw [List.cons_append, List.cons.injEq] at h
        exact absurd h.1 hc
      · exact hv
    · exact hv

/-! ## Numbers of JSON are numbers of Go -/

theorem digit_decimal {c : UInt8} (h : 48 ≤ c.toNat ∧ c.toNat ≤ 57) : Digit false c := .inl h

theorem run_digits : ∀ {b : Bytes}, b ≠ [] → Digits b → Run false b b
  | [], h, _ => absurd rfl h
  | [c], _, h => .one (digit_decimal (h c (by simp)))
  | c :: c' :: r, _, h => .more (digit_decimal (h c (by simp))) (run_digits (by simp) fun a ha => h a (by simp [ha]))

theorem value_digits {b : Bytes} (h : Digits b) : value false b = digitsValue b := by
  rw [value, digitsValue]
  have : ∀ (b : Bytes) (v : Nat), Digits b → b.foldl (fun v c => base false * v + digit c) v = b.foldl (fun v c => 10 * v + (c.toNat - 48)) v := by
    intro b
    induction b with
    | nil => intro v _; rfl
    | cons c b ih =>
      intro v h
      have hc : digit c = c.toNat - 48 := by rw [digit, if_pos (h c (by simp)).2]
      rw [List.foldl_cons, List.foldl_cons, ih _ fun a ha => h a (by simp [ha]), hc]
      rfl
  exact this b 0 h

theorem exponent_exp {x : Bytes} {e : Int} (h : ExponentText x e) : (x = [] ∧ e = 0) ∨ Exp [101, 69] x e := by
  rcases h with h | ⟨c, s, d, hc, hd0, hd, rfl, hv⟩
  · exact .inl h
  · right
    have hr := run_digits hd0 hd
    have hc' : c ∈ [(101 : UInt8), 69] := by rcases hc with rfl | rfl <;> simp
    rcases hv with ⟨rfl | rfl, rfl⟩ | ⟨rfl, rfl⟩
    · rw [← value_digits hd]; exact .plain hc' hr
    · rw [← value_digits hd]; exact .plus hc' hr
    · rw [← value_digits hd]; exact .minus hc' hr

theorem digits_append {a b : Bytes} (ha : Digits a) (hb : Digits b) : Digits (a ++ b) := by
  intro c hc
  rcases List.mem_append.1 hc with h | h
  · exact ha c h
  · exact hb c h

theorem numberText_signed {t : Bytes} {minus : Bool} {v : ℚ} (h : NumberText t minus v) : ∃ e, Signed t minus v e := by
  obtain ⟨i, f, x, fr, n, e, rfl, hi, hf, hx, rfl⟩ := h
  have hm : Mant false (i ++ f) (digitsValue (i ++ fr) * (10 : ℚ) ^ (-(fr.length : Int))) := by
    have hr := run_digits hi.1 hi.2.1
    rcases hf with ⟨rfl, rfl⟩ | ⟨h0, hd, rfl⟩
    · have := Mant.whole hr
      rw [value_digits hi.2.1] at this
      simpa using this
    · have := Mant.both hr (run_digits h0 hd)
      have e1 := value_append false i fr
      rw [value_digits (digits_append hi.2.1 hd)] at e1
      rw [e1]
      convert this using 1
      push_cast
      rw [zpow_neg, zpow_natCast, base]
      simp only [Bool.false_eq_true, if_false]
      field_simp
      push_cast
      ring
  have hl : Literal (i ++ (f ++ x)) (digitsValue (i ++ fr) * (10 : ℚ) ^ (e - fr.length)) e := by
    rcases exponent_exp hx with ⟨rfl, rfl⟩ | hx
    · rw [List.append_nil, zero_sub]
      exact .decimal hm
    · have := Literal.exponent hm hx
      rw [List.append_assoc, mul_assoc, ← zpow_add₀ (by norm_num)] at this
      rwa [show -(fr.length : Int) + e = e - fr.length by ring] at this
  cases minus
  · exact ⟨e, .plain hl⟩
  · exact ⟨e, .minus hl⟩

/-- Numbers are read as JSON numbers, unless they are enormous. -/
theorem goNumber_iff {t : Bytes} (hm : (∃ minus v, NumberText t minus v) → Modest t) {d : F64} : goNumber t = some d ↔ JsonNumber t d := by
  have key : ∀ {minus v}, NumberText t minus v → (2 ^ 1024 - 2 ^ 970 ≤ v → goParseFloat64 t = none) ∧
      (v < 2 ^ 1024 - 2 ^ 970 → ∃ d, goParseFloat64 t = some d ∧ JsonNumber t d) := by
    intro minus v ht
    obtain ⟨e, hs⟩ := numberText_signed ht
    obtain ⟨h1, h2⟩ := parse64 hs (hm ⟨_, _, ht⟩ _ _ _ hs)
    refine ⟨fun hv => by rw [goParseFloat64, h1 hv]; rfl, fun hv => ?_⟩
    obtain ⟨x, hx, hmeets⟩ := h2 hv
    obtain ⟨hn, hsign⟩ := is64_of_meets hmeets
    refine ⟨F64.ofFP x, by rw [goParseFloat64, hx]; rfl, ?_⟩
    have hv0 := numberText_nonneg ht
    have habs : |signed minus v| = v := by
      cases minus
      · exact abs_of_nonneg hv0
      · rw [signed, if_pos rfl, abs_neg, abs_of_nonneg hv0]
    have hfin : ∃ q, number64 (F64.ofFP x) = .fin q := by
      unfold Nearest at hn
      rw [habs, if_neg (not_le.2 hv)] at hn
      obtain ⟨r, hr, -⟩ := hn
      exact ⟨r, hr⟩
    obtain ⟨q, hq⟩ := hfin
    exact ⟨minus, v, q, ht, hn, hsign, hq⟩
  constructor
  · intro h
    obtain ⟨minus, v, ht⟩ := validNumber_iff.1 (goNumber_valid h)
    rw [goNumber, if_pos (validNumber_iff.2 ⟨_, _, ht⟩)] at h
    rcases lt_or_ge v (2 ^ 1024 - 2 ^ 970) with hv | hv
    · obtain ⟨d', h1, h2⟩ := (key ht).2 hv
      rw [h1] at h
      cases h
      exact h2
    · rw [(key ht).1 hv] at h
      cases h
  · intro h
    obtain ⟨minus, v, q, ht, hn, hs, hq⟩ := id h
    rw [goNumber, if_pos (validNumber_iff.2 ⟨_, _, ht⟩)]
    have hv0 := numberText_nonneg ht
    have hv : v < 2 ^ 1024 - 2 ^ 970 := by
      by_contra hc
      unfold Nearest64 Nearest at hn
      have habs : |if minus then -v else v| = v := by
        cases minus
        · exact abs_of_nonneg hv0
        · rw [if_pos rfl, abs_neg, abs_of_nonneg hv0]
      rw [habs, if_pos (not_lt.1 hc), hq] at hn
      by_cases h0 : (if minus then -v else v) < 0
      · rw [if_pos h0] at hn; cases hn
      · rw [if_neg h0] at hn; cases hn
    obtain ⟨d', h1, h2⟩ := (key ht).2 hv
    rw [h1, jsonNumber_unique h2 h]

/-! ## Texts -/

theorem separated_infix : ∀ {ts : List Bytes} {u t : Bytes}, Separated ts u → t ∈ ts → t <:+: u
  | [], _, _, _, h => by cases h
  | [a], u, t, h, ht => by
    cases h
    rw [List.mem_singleton.1 ht]
  | a :: b :: l, u, t, ⟨u', h, hu⟩, ht => by
    subst hu
    rcases List.mem_cons.1 ht with rfl | ht
    · exact ⟨[], [44] ++ u', by simp⟩
    · exact (separated_infix h ht).trans ⟨a ++ [44], [], by simp⟩

theorem jtext_numbers {N N' : Bytes → F64 → Prop} {t : Bytes} {j : JVal} (h : JText N t j) :
    (∀ u, u <:+: t → ∀ d, N u d → N' u d) → JText N' t j := by
  refine JText.rec (motive_1 := fun t j _ => (∀ u, u <:+: t → ∀ d, N u d → N' u d) → JText N' t j)
    (motive_2 := fun l js _ => (∀ t ∈ l, ∀ u, u <:+: t → ∀ d, N u d → N' u d) → List.Forall₂ (JText N') l js)
    ?null ?true ?false ?num ?str ?arr0 ?arr ?obj0 ?obj ?pad ?nil ?cons h
  case null => exact fun _ => .null
  case true => exact fun _ => .true
  case false => exact fun _ => .false
  case num => exact fun h hn => .num (hn _ (List.infix_refl _) _ h)
  case str => exact fun h _ => .str h
  case arr0 => exact fun h _ => .arr0 h
  case arr =>
    intro ts u items hne hs _ ih hn
    refine .arr hne hs (ih fun t ht v hv => hn v (hv.trans ?_))
    exact (separated_infix hs ht).trans ⟨[91], [93], rfl⟩
  case obj0 => exact fun h _ => .obj0 h
  case obj =>
    intro ms u d hne hs hk _ ih hn
    refine .obj hne hs hk (ih fun t ht v hv => hn v (hv.trans ?_))
    obtain ⟨m, hm, rfl⟩ := List.mem_map.1 ht
    refine List.IsInfix.trans ⟨m.1 ++ [58], [], by simp⟩ ((separated_infix hs (List.mem_map.2 ⟨m, hm, rfl⟩)).trans ⟨[123], [125], rfl⟩)
  case pad =>
    intro w w' t j hw hw' _ ih hn
    exact .pad hw hw' (ih fun u hu => hn u (hu.trans ⟨w, w', rfl⟩))
  case nil => exact fun _ => .nil
  case cons => exact fun _ _ h1 h2 hn => .cons (h1 (hn _ (by simp))) (h2 fun t ht => hn t (by simp [ht]))
theorem jtext_go {t : Bytes} (hm : ModestNumbers t) {j : JVal} : JText GoNumberText t j ↔ JText JsonNumber t j := by
  constructor
  · exact fun h => jtext_numbers h fun u hu d hd => (goNumber_iff (hm u hu)).1 hd
  · exact fun h => jtext_numbers h fun u hu d hd => (goNumber_iff (hm u hu)).2 hd

end Rap
