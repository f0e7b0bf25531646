import Verif.Proof.GoNumbers

/-!
# Integers through JSON and strconv.Atoi
-/

namespace Rap

theorem readDigits_eq {b : Bytes} {n : Nat} : readDigits b = some n ↔ b ≠ [] ∧ Digits b ∧ digitsValue b = n := by
  unfold readDigits
  split
  · next h => simp only [Option.some.injEq]; exact ⟨fun e => ⟨h.1, h.2, e⟩, fun e => e.2.2⟩
  · next h =>
    refine ⟨fun e => (by cases e), fun e => absurd ⟨e.1, e.2.1⟩ h⟩

/-- What Atoi accepts. -/
theorem atoiText_eq {b : Bytes} {i : Int} : atoiText b = some i ↔ -2 ^ 63 ≤ i ∧ i < 2 ^ 63 ∧
    ((∃ r n, b = 45 :: r ∧ readDigits r = some n ∧ i = -(n : Int)) ∨ (∃ r n, b = 43 :: r ∧ readDigits r = some n ∧ i = n) ∨
      ∃ n, readDigits b = some n ∧ i = n) := by
  have digit : ∀ {c : UInt8} {r : Bytes} {n : Nat}, readDigits (c :: r) = some n → c ≠ 45 ∧ c ≠ 43 := by
    intro c r n h
    have := (readDigits_eq.1 h).2.1 c (by simp)
    constructor <;> (rintro rfl; revert this; decide)
  unfold atoiText
  simp only [Option.filter_eq_some_iff, Bool.and_eq_true, decide_eq_true_eq]
  rw [and_comm (a := _ = some i), and_assoc]
  refine and_congr_right fun _ => and_congr_right fun _ => ?_
  split
  · next r =>
    simp only [Option.map_eq_some_iff]
    constructor
    · rintro ⟨n, h, rfl⟩; exact .inl ⟨r, n, rfl, h, rfl⟩
    · rintro (⟨r', n, h1, h2, rfl⟩ | ⟨r', n, h1, -⟩ | ⟨n, h1, -⟩)
      · cases h1; exact ⟨n, h2, rfl⟩
      · cases h1
      · exact absurd rfl (digit h1).1
  · next r =>
    simp only [Option.map_eq_some_iff]
    constructor
    · rintro ⟨n, h, rfl⟩; exact .inr (.inl ⟨r, n, rfl, h, rfl⟩)
    · rintro (⟨r', n, h1, -⟩ | ⟨r', n, h1, h2, rfl⟩ | ⟨n, h1, -⟩)
      · cases h1
      · cases h1; exact ⟨n, h2, rfl⟩
      · exact absurd rfl (digit h1).2
  · next h1 h2 =>
    simp only [Option.map_eq_some_iff]
    constructor
    · rintro ⟨n, h, rfl⟩; exact .inr (.inr ⟨n, h, rfl⟩)
    · rintro (⟨r', n, h3, -⟩ | ⟨r', n, h3, -⟩ | ⟨n, h3, rfl⟩)
      · exact absurd h3 (h1 r')
      · exact absurd h3 (h2 r')
      · exact ⟨n, h3, rfl⟩

/-- The magnitude of a double that is an integer. -/
theorem integer_mag {d : F64} {i : Int} (h : number64 d = .fin i) : d.fp.m < b64.infMag ∧
    magInt 52 d.fp.m = i.natAbs * 2 ^ 1074 ∧ (d.fp.s = true → i ≤ 0) ∧ (d.fp.s = false → 0 ≤ i) := by
  have hfin : d.isFinite = true := (F64.finite_number d).2 ⟨_, h⟩
  have hm := (F64.finite_iff d).1 hfin
  have hsg := sign_value h
  have hS : (0 : ℚ) < 2 ^ 1074 := by positivity
  rw [F64.msb_fp] at hsg
  refine ⟨hm, ?_, fun hs => by exact_mod_cast hsg.1 hs, fun hs => by exact_mod_cast hsg.2 hs⟩
  rw [F64.number_fp, FP.number_fin hm, Number.fin.injEq] at h
  have h1 := FP.abs_val b64 d.fp
  rw [h, b64_scale, show b64.mb = 52 from rfl, eq_div_iff hS.ne'] at h1
  have key : ∀ {a b : Nat} {S : Nat}, |(i : ℚ)| * ((2 : ℚ) ^ S) = (b : ℚ) → a = i.natAbs → b = a * 2 ^ S := by
    rintro a b S h rfl
    have : ((i.natAbs * 2 ^ S : Nat) : ℚ) = b := by
      rw [← h, Nat.cast_mul, Nat.cast_pow, Nat.cast_ofNat, Nat.cast_natAbs, Int.cast_abs]
    exact (Nat.cast_injective this).symm
  exact key h1 rfl

theorem integer_range {n m : Nat} (hn : 1 ≤ n) (hn' : n ≤ 2 ^ 53) (hm : magInt 52 m = n * 2 ^ 1074) :
    ¬ (m < roundMag b64.mb (2 ^ b64.scale) (10 ^ 6) ∨ roundMag b64.mb (10 ^ 21 * 2 ^ b64.scale) 1 ≤ m) := by
  have h1 : roundMag b64.mb (2 ^ b64.scale) (10 ^ 6) ≤ 1023 * 2 ^ 52 := by decide +kernel
  have h2 : 1076 * 2 ^ 52 < roundMag b64.mb (10 ^ 21 * 2 ^ b64.scale) 1 := by decide +kernel
  have h3 : 1023 * 2 ^ 52 ≤ m := by
    apply (magInt_le (mb := 52)).1
    have e : magInt 52 (1023 * 2 ^ 52) = 1 * 2 ^ 1074 := by decide +kernel
    rw [hm, e]
    exact Nat.mul_le_mul_right _ hn
  have h4 : m ≤ 1076 * 2 ^ 52 := by
    apply (magInt_le (mb := 52)).1
    have e : magInt 52 (1076 * 2 ^ 52) = 2 ^ 53 * 2 ^ 1074 := by decide +kernel
    rw [hm, e]
    exact Nat.mul_le_mul_right _ hn'
  generalize roundMag b64.mb (2 ^ b64.scale) (10 ^ 6) = a at h1
  generalize roundMag b64.mb (10 ^ 21 * 2 ^ b64.scale) 1 = b at h2
  omega

theorem jsonFloat_plain {f : Fmt} {x : FP} (hx : x.m < f.infMag) (h0 : x.m ≠ 0)
    (hr : ¬ (x.m < roundMag f.mb (2 ^ f.scale) (10 ^ 6) ∨ roundMag f.mb (10 ^ 21 * 2 ^ f.scale) 1 ≤ x.m)) :
    jsonFloat f x = some ((if x.s then b!"-" else []) ++ plainNumber (shortestOf f x.m).1 (shortestOf f x.m).2) := by
  rw [jsonFloat, if_neg (Nat.not_le.2 hx), if_neg h0]
  generalize shortestOf f x.m = p
  obtain ⟨v, j⟩ := p
  generalize roundMag f.mb (2 ^ f.scale) (10 ^ 6) = a at hr ⊢
  generalize roundMag f.mb (10 ^ 21 * 2 ^ f.scale) 1 = b at hr ⊢
  have hc : (decide (x.m < a) || decide (b ≤ x.m)) = false := by
    rw [Bool.or_eq_false_iff, decide_eq_false_iff_not, decide_eq_false_iff_not]
    exact not_or.1 hr
  simp only [hc, Bool.false_eq_true, if_false]

theorem jsonFloat_integer {x : FP} {n : Nat} (hx : x.m < b64.infMag) (hm : magInt 52 x.m = n * 2 ^ 1074) (hn : n ≤ 2 ^ 53) :
    jsonFloat b64 x = some ((if x.s then b!"-" else []) ++ V1.decimalNat n) := by
  rw [jsonFloat, if_neg (Nat.not_le.2 hx)]
  by_cases h0 : x.m = 0
  · rw [if_pos h0]
    rw [h0, magInt_zero] at hm
    have : n = 0 := by
      rcases Nat.mul_eq_zero.1 hm.symm with h | h
      · exact h
      · exact absurd h (by positivity)
    rw [this]
    have : V1.decimalNat 0 = b!"0" := by decide +kernel
    rw [this]
  · rw [if_neg h0]
    have hn1 : 1 ≤ n := by
      rcases Nat.eq_zero_or_pos n with rfl | h
      · rw [Nat.zero_mul] at hm
        exact absurd ((magInt_eq_zero 52 _).1 hm) h0
      · exact h
    have hr := integer_range hn1 hn hm
    obtain ⟨hj, hv⟩ := short_integer (f := b64) (n := n) b64_mb (by decide) (m := x.m) hm hn short_top64
    have ht : plainNumber (shortestOf b64 x.m).1 (shortestOf b64 x.m).2 = V1.decimalNat n := by rw [plainNumber, if_pos hj, hv]
    rw [← ht]
    have := jsonFloat_plain (f := b64) hx h0 hr
    rw [jsonFloat, if_neg (Nat.not_le.2 hx), if_neg h0] at this
    exact this

theorem atoi_exact {d : F64} {i : Int} (h : number64 d = .fin i) (hi : i.natAbs ≤ 2 ^ 53) :
    (jsonFloat b64 d.fp).bind atoiText = some i := by
  obtain ⟨h1, h2, h3, h4⟩ := integer_mag h
  rw [jsonFloat_integer h1 h2 hi, Option.bind_some, atoiText_eq]
  have hd := (decimalNat_spec i.natAbs).1
  have hread : readDigits (V1.decimalNat i.natAbs) = some i.natAbs := readDigits_eq.2 ⟨hd.1, hd.2.1, hd.2.2.1⟩
  refine ⟨by omega, by omega, ?_⟩
  cases hs : d.fp.s
  · exact .inr (.inr ⟨i.natAbs, hread, by have := h4 hs; omega⟩)
  · exact .inl ⟨_, i.natAbs, rfl, hread, by have := h3 hs; omega⟩

/-- A text of digits is the number they write. -/
theorem numberText_digits {t : Bytes} {s : Bool} {v : ℚ} (h : NumberText t s v) {i : Int} (ht : atoiText t = some i) :
    v = i.natAbs ∧ (s = true → i ≤ 0) ∧ (s = false → 0 ≤ i) := by
  obtain ⟨p, f, x, fr, n, e, rfl, hp, hf, hx, rfl⟩ := h
  have whole : ∀ {n : Nat}, readDigits (p ++ (f ++ x)) = some n → (digitsValue (p ++ fr) : ℚ) * 10 ^ (e - fr.length) = n := by
    intro n hn
    obtain ⟨-, h2, h3⟩ := readDigits_eq.1 hn
    have h4 := digits_split (a := p) (b := f ++ x) (a' := p ++ (f ++ x)) (b' := []) (by simp) hp.2.1 h2 (noDigit_fraction hf hx)
      (fun c r h => by cases h)
    obtain ⟨h5, h6⟩ := List.append_eq_nil_iff.1 h4.2
    subst h5 h6
    rcases hf with ⟨-, rfl⟩ | ⟨-, -, h⟩
    · rcases hx with ⟨-, rfl⟩ | ⟨c, sg, d, -, -, -, h, -⟩
      · simp only [List.append_nil] at h3 ⊢
        rw [h3]; simp
      · cases h
    · cases h
  have first : ∀ q, p ++ (f ++ x) ≠ 45 :: q ∧ p ++ (f ++ x) ≠ 43 :: q := by
    intro q
    obtain ⟨c, r, rfl⟩ := List.exists_cons_of_ne_nil hp.1
    have hc := hp.2.1 c (by simp)
    constructor
    all_goals
      intro h
      simp only [List.cons_append, List.cons.injEq] at h
      rw [h.1] at hc
      revert hc; decide
  rw [atoiText_eq] at ht
  obtain ⟨-, -, ht⟩ := ht
  cases s
  · simp only [Bool.false_eq_true, if_false, List.nil_append] at ht
    rcases ht with ⟨r, n, h1, -⟩ | ⟨r, n, h1, -⟩ | ⟨n, h1, rfl⟩
    · exact absurd h1 (first r).1
    · exact absurd h1 (first r).2
    · exact ⟨by rw [whole h1]; simp, by simp, by simp⟩
  · simp only [if_true, List.cons_append, List.nil_append] at ht
    rcases ht with ⟨r, n, h1, h2, rfl⟩ | ⟨r, n, h1, -⟩ | ⟨n, h1, -⟩
    · simp only [List.cons.injEq, true_and] at h1
      subst h1
      exact ⟨by rw [whole h2]; simp, by simp, by simp⟩
    · simp at h1
    · exact absurd ((readDigits_eq.1 h1).2.1 45 (by simp)) (by decide)

theorem atoi_only {d : F64} {i : Int} (h : (jsonFloat b64 d.fp).bind atoiText = some i) (hi : i.natAbs < 2 ^ 53) :
    number64 d = .fin i := by
  rw [Option.bind_eq_some_iff] at h
  obtain ⟨t, ht, ha⟩ := h
  have hm : d.fp.m < b64.infMag := by
    by_contra hc
    rw [jsonFloat, if_pos (by omega)] at ht
    cases ht
  obtain ⟨t', v, h1, h2, h3, -⟩ := jsonFloat_text b64_mb (by decide) hm
  rw [ht] at h1
  cases h1
  obtain ⟨rfl, hs1, hs2⟩ := numberText_digits h2 ha
  rw [b64_scale] at h3
  obtain ⟨-, -, h6⟩ := nearest64_of_mag (Nat.cast_nonneg _) rfl hm h3
  have h7 : magInt 52 d.fp.m = i.natAbs * 2 ^ 1074 := (near_integral h3).2 hi.le
  rw [h6, h7, Nat.cast_mul, Nat.cast_pow, Nat.cast_ofNat, mul_div_cancel_right₀ _ (by positivity)]
  congr 1
  have hn : (i.natAbs : ℚ) = |(i : ℚ)| := by rw [Nat.cast_natAbs, Int.cast_abs]
  rw [hn]
  cases hs : d.fp.s
  · have : (0 : ℚ) ≤ i := by exact_mod_cast hs2 hs
    simp [abs_of_nonneg this]
  · have : (i : ℚ) ≤ 0 := by exact_mod_cast hs1 hs
    simp [abs_of_nonpos this]

theorem atoi_range {d : F64} {i : Int} (h : (jsonFloat b64 d.fp).bind atoiText = some i) : -2 ^ 63 ≤ i ∧ i < 2 ^ 63 := by
  rw [Option.bind_eq_some_iff] at h
  obtain ⟨t, -, ha⟩ := h
  rw [atoiText_eq] at ha
  exact ⟨ha.1, ha.2.1⟩

end Rap
