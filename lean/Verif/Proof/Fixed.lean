import Verif.Model.Fixed
import Verif.Spec.Fixed
import Verif.Props.Summary
import Verif.Proof.Describe
import Verif.Proof.Round

/-! # Numbers with a fixed number of decimals -/

namespace Rap

theorem fixedDigits_spec (p r : Nat) (h : r < 10 ^ p) : (fixedDigits p r).length = p ∧
    (∀ c ∈ fixedDigits p r, 48 ≤ c.toNat ∧ c.toNat ≤ 57) ∧
    (fixedDigits p r).foldl (fun v c => 10 * v + (c.toNat - 48)) 0 = r := by
  induction p generalizing r with
  | zero => simp only [pow_zero] at h; exact ⟨rfl, by simp [fixedDigits], by simp [fixedDigits]; omega⟩
  | succ p ih =>
    rw [pow_succ] at h
    obtain ⟨h1, h2, h3⟩ := ih (r / 10) (by omega)
    have h8 : (48 + r % 10).toUInt8.toNat = 48 + r % 10 := by rw [UInt8.toNat_ofNat']; omega
    refine ⟨by simp [fixedDigits, h1], ?_, ?_⟩
    · intro c hc
      rcases List.mem_append.1 hc with hc | hc
      · exact h2 c hc
      · rw [List.mem_singleton.1 hc, h8]; omega
    · rw [fixedDigits, List.foldl_append, h3, List.foldl_cons, List.foldl_nil, h8]; omega

theorem hasDecimals_text (p n : Nat) : HasDecimals p (V1.decimalNat (n / 10 ^ p) ++ 46 :: fixedDigits p (n % 10 ^ p)) n := by
  obtain ⟨h1, h2, h3⟩ := fixedDigits_spec p (n % 10 ^ p) (Nat.mod_lt _ (by positivity))
  exact ⟨_, _, rfl, (decimalNat_spec _).1, h1, h2, h3⟩

theorem fixedMag_nearest (f : Fmt) (p : Nat) (x : FP) : NearestDecimal p |x.val f| (fixedMag f p x) := by
  have hv : |x.val f| = (magInt f.mb x.m : ℚ) / 2 ^ f.scale := by
    simp only [FP.val, FP.int]
    split
    · push_cast; rw [neg_div, abs_neg, abs_of_nonneg (by positivity)]
    · push_cast; rw [abs_of_nonneg (by positivity)]
  have hd : (0 : ℚ) < 10 ^ p := by positivity
  obtain ⟨h1, h2⟩ := rne_rat (magInt f.mb x.m * 10 ^ p) (2 ^ f.scale) (by positivity)
  have key : abs ((fixedMag f p x : ℚ) / 10 ^ p - |x.val f|) =
      |(fixedMag f p x : ℚ) - ((magInt f.mb x.m * 10 ^ p : Nat) : ℚ) / ((2 ^ f.scale : Nat) : ℚ)| / 10 ^ p := by
    rw [hv, ← abs_of_pos hd, ← abs_div, abs_of_pos hd]
    congr 1
    push_cast
    field_simp
  have half : (1 : ℚ) / (2 * 10 ^ p) = 1 / 2 / 10 ^ p := by rw [div_div]
  rw [NearestDecimal, key, half]
  refine ⟨div_le_div_of_nonneg_right h1 hd.le, fun h => h2 ?_⟩
  exact (div_left_inj' hd.ne').1 h

theorem fixedText_spec (f : Fmt) (p : Nat) (x : FP) : FixedText p (x.number f) x.s (fixedText f p x) := by
  rw [fixedText, FP.number]
  simp only [FP.isNaN, FP.isInf, decide_eq_true_eq, beq_iff_eq]
  by_cases h1 : f.infMag < x.m
  · simp only [if_pos h1]; rfl
  · simp only [if_neg h1]
    by_cases h2 : x.m = f.infMag
    · simp only [if_pos h2]
      cases x.s <;> rfl
    · simp only [if_neg h2]
      refine ⟨_, _, hasDecimals_text p _, fixedMag_nearest f p x, ?_⟩
      cases x.s <;> rfl

/-! ## What a text says -/

theorem fold_digits_lt (b : Bytes) (h : ∀ c ∈ b, 48 ≤ c.toNat ∧ c.toNat ≤ 57) :
    b.foldl (fun v c => 10 * v + (c.toNat - 48)) 0 < 10 ^ b.length := by
  induction b using List.reverseRecOn with
  | nil => simp
  | append_singleton b c ih =>
    have := ih (fun c hc => h c (by simp [hc]))
    have hc := h c (by simp)
    rw [List.foldl_append, List.foldl_cons, List.foldl_nil, List.length_append, List.length_singleton, pow_succ]
    omega

/-- A text with a point is one number only. -/
theorem hasDecimals_unique {p : Nat} {b : Bytes} {n n' : Nat} (h : HasDecimals p b n) (h' : HasDecimals p b n') : n = n' := by
  obtain ⟨i, fr, rfl, ⟨-, d1, v1, -⟩, -, -, w1⟩ := h
  obtain ⟨i', fr', e, ⟨-, d2, v2, -⟩, -, -, w2⟩ := h'
  have hpt : ∀ (i : Bytes), (∀ c ∈ i, 48 ≤ c.toNat ∧ c.toNat ≤ 57) → ∀ r, (i ++ 46 :: r).takeWhile (· != 46) = i := by
    intro i hi r
    rw [List.takeWhile_append_of_pos (fun c hc => ?_)]
    · simp
    · have := hi c hc
      simp only [bne_iff_ne, ne_eq]
      rintro rfl
      simp at this
  have hi : i = i' := by rw [← hpt i d1 fr, e, hpt i' d2 fr']
  subst hi
  have hf : fr = fr' := by simpa using e
  subst hf
  rw [← Nat.div_add_mod n (10 ^ p), ← Nat.div_add_mod n' (10 ^ p), ← v1, ← v2, ← w1, ← w2]

/-- A text with a point begins with a digit. -/
theorem hasDecimals_head {p : Nat} {b : Bytes} {n : Nat} (h : HasDecimals p b n) : ∃ c r, b = c :: r ∧ 48 ≤ c.toNat ∧ c.toNat ≤ 57 := by
  obtain ⟨i, fr, rfl, ⟨h1, d1, -, -⟩, -⟩ := h
  cases i with
  | nil => exact absurd rfl h1
  | cons c i => exact ⟨c, _, rfl, d1 c (by simp)⟩

/-- Characters of the text of a finite number. -/
theorem hasDecimals_chars {p : Nat} {b : Bytes} {n : Nat} (h : HasDecimals p b n) : ∀ c ∈ b, c = 46 ∨ (48 ≤ c.toNat ∧ c.toNat ≤ 57) := by
  obtain ⟨i, fr, rfl, ⟨-, d1, -, -⟩, -, d2, -⟩ := h
  intro c hc
  simp only [List.mem_append, List.mem_cons] at hc
  rcases hc with hc | rfl | hc
  · exact .inr (d1 c hc)
  · exact .inl rfl
  · exact .inr (d2 c hc)

end Rap
