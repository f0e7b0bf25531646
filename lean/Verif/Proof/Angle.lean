import Verif.Proof.Quant

/-!
# Wrapping and quantising angles
-/

namespace Rap

theorem one_tiny : (1 : ℚ) = 2 ^ 1074 * tiny := by
  unfold tiny; rw [mul_one_div, div_self (by positivity)]

theorem big_ge : (2 : ℚ) ^ 100 ≤ big := by
  unfold big; exact pow_le_pow_right₀ (by norm_num) (by norm_num)

theorem tiny_le : tiny ≤ 1 / 2 ^ 200 := by
  unfold tiny
  exact one_div_le_one_div_of_le (by positivity) (pow_le_pow_right₀ (by norm_num) (by norm_num))

/-- Integers up to 2^53 are floats. -/
theorem rn_int {i : Int} (h : i.natAbs ≤ 2 ^ 53) : rn b64 i = i := by
  have habs : |(i : ℚ)| = i.natAbs := by rw [Nat.cast_natAbs, Int.cast_abs]
  refine rn_dyadic h (j := 1074) ?_ ?_
  · rw [habs, mul_assoc, ← one_tiny, mul_one]
  · rw [habs]
    refine le_trans ?_ big_ge
    have : ((i.natAbs : Nat) : ℚ) ≤ 2 ^ 53 := by exact_mod_cast h
    linarith

theorem floor_spec {x : F64} (hx : x.isFinite = true) (h : |x.toRat| ≤ 2 ^ 52) :
    x.floor.isFinite = true ∧ x.floor.toRat = ⌊x.toRat⌋ := by
  have hm : (FP.floor b64 x.fp).m ≤ b64.infMag := by
    have h1 := (F64.finite_iff x).1 hx
    unfold FP.floor
    split
    · exact h1.le
    · exact FP.round_m_le ..
  have his := F64.is_of_val hm (FP.val_floor b64_mb ((F64.finite_iff x).1 hx))
  rw [F64.val_eq hx] at his
  have hle : ⌊x.toRat⌋.natAbs ≤ 2 ^ 53 := by
    have h1 := abs_le.1 h
    have h2 : (⌊x.toRat⌋ : ℚ) ≤ x.toRat := Int.floor_le _
    have h3 : x.toRat < ⌊x.toRat⌋ + 1 := Int.lt_floor_add_one _
    have h4 : (⌊x.toRat⌋ : ℚ) ≤ ((2 ^ 52 : Int) : ℚ) := by push_cast; linarith
    have h5 : ((-(2 ^ 52) - 1 : Int) : ℚ) ≤ (⌊x.toRat⌋ : ℚ) := by push_cast; linarith
    have h4 : ⌊x.toRat⌋ ≤ 2 ^ 52 := by exact_mod_cast h4
    have h5 : -(2 ^ 52) - 1 ≤ ⌊x.toRat⌋ := by exact_mod_cast h5
    omega
  have hm := his.moderate (by
    have habs : |((⌊x.toRat⌋ : Int) : ℚ)| = (⌊x.toRat⌋).natAbs := by rw [Nat.cast_natAbs, Int.cast_abs]
    rw [habs]
    refine le_trans ?_ big_ge
    have : ((⌊x.toRat⌋.natAbs : Nat) : ℚ) ≤ 2 ^ 53 := by exact_mod_cast hle
    linarith)
  exact ⟨hm.1, by rw [F64.floor, hm.2.1, rn_int hle]⟩

theorem f360_val : f360.isFinite = true ∧ f360.toRat = 360 := by decide +kernel

/-- A float at most `2 ^ 30` is not closer to an integer multiple of 360 than its own precision. -/
theorem float_gap {x : F64} (hx : x.isFinite = true) (h : |x.toRat| ≤ 2 ^ 30) (N : Int) (hne : x.toRat ≠ N) :
    |x.toRat| / 2 ^ 53 < |x.toRat - N| := by
  have ht := tiny_pos
  have hmag := toRat_mag x hx
  obtain ⟨a, j, h1, h2, h3⟩ := magInt_form 52 x.fp.m
  rw [h1] at hmag
  push_cast at hmag
  have hj : j ≤ 1074 := by
    rcases h3 with h3 | h3
    · by_contra hc
      have h4 : (2 : ℚ) ^ 52 * 2 ^ 1074 * tiny ≤ a * 2 ^ j * tiny := by
        have : (2 : ℚ) ^ 52 ≤ a := by exact_mod_cast h3
        have h5 : (2 : ℚ) ^ 1074 ≤ 2 ^ j := pow_le_pow_right₀ (by norm_num) (by omega)
        exact mul_le_mul_of_nonneg_right (mul_le_mul this h5 (by positivity) (by positivity)) ht.le
      rw [mul_assoc, ← one_tiny, ← hmag] at h4
      linarith
    · omega
  -- in units of 2^j * tiny
  have hu : 0 < 2 ^ j * tiny := by positivity
  have hsgn : ∃ b : Int, x.toRat = b * (2 ^ j * tiny) ∧ b.natAbs = a := by
    rcases abs_cases x.toRat with ⟨e, -⟩ | ⟨e, -⟩
    · exact ⟨a, by rw [← e, hmag]; push_cast; ring, by simp⟩
    · refine ⟨-a, ?_, by simp⟩
      push_cast
      rw [e] at hmag
      linarith
  obtain ⟨b, hb, hba⟩ := hsgn
  have hN : (N : ℚ) = ((N * 2 ^ (1074 - j) : Int) : ℚ) * (2 ^ j * tiny) := by
    have : (2 : ℚ) ^ 1074 = 2 ^ (1074 - j) * 2 ^ j := by rw [← pow_add]; congr 1; omega
    have h6 := one_tiny
    rw [this] at h6
    push_cast
    calc (N : ℚ) = N * 1 := by ring
      _ = _ := by rw [h6]; ring
  have hd : x.toRat - N = ((b - N * 2 ^ (1074 - j) : Int) : ℚ) * (2 ^ j * tiny) := by
    rw [hb, hN]; push_cast; ring
  have hd0 : b - N * 2 ^ (1074 - j) ≠ 0 := by
    intro h0
    rw [h0] at hd
    apply hne
    push_cast at hd
    linarith
  rw [hd, abs_mul, abs_of_pos hu, hmag]
  have h7 : (1 : ℚ) ≤ |((b - N * 2 ^ (1074 - j) : Int) : ℚ)| := by
    rw [← Int.cast_abs]
    exact_mod_cast Int.one_le_abs hd0
  have h8 : (a : ℚ) < 2 ^ 53 := by exact_mod_cast h2
  have h9 : (a : ℚ) * 2 ^ j * tiny / 2 ^ 53 < 2 ^ j * tiny := by
    rw [div_lt_iff₀ (by positivity)]; nlinarith
  nlinarith

/-- Wrapping an angle: the angle reduced to `[0, 360)` and rounded, except for negative angles near the smallest
floats, which are left alone. -/
theorem wrap_spec {x : F64} (hx : x.isFinite = true) (h : |x.toRat| ≤ 2 ^ 30) :
    ∃ k : Int, (k = ⌊x.toRat / 360⌋ ∨ (k = 0 ∧ -1 / 2 ^ 1066 ≤ x.toRat ∧ x.toRat < 0)) ∧ (wrapEuler x).isFinite = true ∧
      |(wrapEuler x).toRat - (x.toRat - 360 * k)| ≤ 360 / 2 ^ 53 := by
  have ht := tiny_pos
  have hbig := big_ge
  -- division
  have hd := F64.is_div hx f360_val.1 (by rw [f360_val.2]; norm_num)
  rw [f360_val.2] at hd
  have hq : |x.toRat / 360| ≤ 2 ^ 30 / 360 := by rw [abs_div, abs_of_pos (show (0:ℚ) < 360 by norm_num)]; gcongr
  obtain ⟨d1, d2, d3⟩ := hd.moderate (by
    refine le_trans hq (le_trans ?_ hbig); norm_num)
  set K := ⌊x.toRat / 360⌋ with hK
  have hK1 : (K : ℚ) ≤ x.toRat / 360 := Int.floor_le _
  have hK2 : x.toRat / 360 < K + 1 := Int.lt_floor_add_one _
  have hKb : K.natAbs ≤ 2 ^ 22 := by
    have h1 := abs_le.1 hq
    have h4 : (K : ℚ) ≤ ((2 ^ 22 : Int) : ℚ) := by push_cast; linarith
    have h5 : ((-(2 ^ 22) : Int) : ℚ) ≤ (K : ℚ) := by
      have : (-(2^22) : ℚ) < K + 1 := by linarith
      have : ((-(2 ^ 22) : Int) : ℚ) < ((K + 1 : Int) : ℚ) := by push_cast; linarith
      have : -(2 ^ 22) < K + 1 := by exact_mod_cast this
      have : -(2 ^ 22) ≤ K := by omega
      exact_mod_cast this
    have h4 : K ≤ 2 ^ 22 := by exact_mod_cast h4
    have h5 : -(2 ^ 22) ≤ K := by exact_mod_cast h5
    omega
  have hlow : (K : ℚ) ≤ (x.div f360).toRat := by
    rw [d2]
    have := rn_mono b64_mb (f := b64) hK1
    rwa [rn_int (by omega)] at this
  have hup : (x.div f360).toRat ≤ ((K + 1 : Int) : ℚ) := by
    rw [d2]
    have := rn_mono b64_mb (f := b64) (p := x.toRat / 360) (q := ((K + 1 : Int) : ℚ)) (by push_cast; exact hK2.le)
    rwa [rn_int (by omega)] at this
  have hyabs : |(x.div f360).toRat| ≤ 2 ^ 52 := by
    have h1 : (K.natAbs : ℚ) ≤ 2 ^ 22 := by exact_mod_cast hKb
    have h2 : |(K : ℚ)| ≤ 2 ^ 22 := by rw [← Int.cast_abs, ← Nat.cast_natAbs]; exact h1
    have h3 := abs_le.1 h2
    push_cast at hup
    rw [abs_le]; constructor <;> linarith
  obtain ⟨f1, f2⟩ := floor_spec d1 hyabs
  -- the rest, given the integer
  have hrest : ∀ k : Int, k.natAbs ≤ 2 ^ 23 → (x.div f360).floor.toRat = k → |x.toRat - 360 * k| ≤ 360 →
      (wrapEuler x).isFinite = true ∧ |(wrapEuler x).toRat - (x.toRat - 360 * k)| ≤ 360 / 2 ^ 53 := by
    intro k hk hfl hle
    have hm := F64.is_mul f360_val.1 f1
    rw [f360_val.2, hfl] at hm
    have e1 : (360 : ℚ) * k = ((360 * k : Int) : ℚ) := by push_cast; ring
    have hr : rn b64 (360 * (k : ℚ)) = 360 * k := by rw [e1, rn_int (by omega)]
    obtain ⟨m1, m2, -⟩ := hm.moderate (by
      refine le_trans ?_ hbig
      rw [abs_mul, ← Int.cast_abs, ← Nat.cast_natAbs]
      have : (k.natAbs : ℚ) ≤ 2 ^ 23 := by exact_mod_cast hk
      rw [abs_of_pos (show (0 : ℚ) < 360 by norm_num)]
      nlinarith)
    rw [hr] at m2
    have hs := sub_mod hx m1 (by rw [m2]; refine le_trans hle (le_trans ?_ hbig); norm_num)
    rw [m2] at hs
    refine ⟨hs.1, le_trans hs.2 ?_⟩
    gcongr
  by_cases hint : (x.div f360).toRat = ((K + 1 : Int) : ℚ)
  · -- rounded up to the next integer: only for tiny negative angles
    have hK0 : K + 1 = 0 := by
      by_contra hne
      have hKq : (1 : ℚ) ≤ |((K + 1 : Int) : ℚ)| := by
        rw [← Int.cast_abs]; exact_mod_cast Int.one_le_abs hne
      have herr := rn_err b64_mb d3
      rw [← d2, hint, half_tiny] at herr
      have hxK : x.toRat ≠ ((360 * (K + 1) : Int) : ℚ) := by
        intro he
        push_cast at he
        linarith
      have hgap := float_gap hx h (360 * (K + 1)) hxK
      have e2 : |((K + 1 : Int) : ℚ) - x.toRat / 360| * 360 = |x.toRat - ((360 * (K + 1) : Int) : ℚ)| := by
        rw [abs_sub_comm, ← abs_of_pos (show (0 : ℚ) < 360 by norm_num), ← abs_mul,
          abs_of_pos (show (0 : ℚ) < 360 by norm_num)]
        congr 1; push_cast; ring
      have e3 : |x.toRat / 360| / 2 ^ 53 * 360 = |x.toRat| / 2 ^ 53 := by
        rw [abs_div, abs_of_pos (show (0 : ℚ) < 360 by norm_num)]; ring
      have hx1 : 1 / 2 ≤ |x.toRat / 360| := by
        have h1 := abs_sub_abs_le_abs_sub ((K + 1 : Int) : ℚ) (x.toRat / 360)
        have h2 : max (tiny / 2) (|x.toRat / 360| / 2 ^ 53) ≤ 1 / 4 := by
          refine max_le ?_ ?_
          · have := tiny_le; linarith
          · have : |x.toRat / 360| / 2 ^ 53 ≤ 2 ^ 30 / 360 / 2 ^ 53 := by gcongr
            refine le_trans this (by norm_num)
        have h3 := le_trans herr h2
        linarith
      have h4 : |((K + 1 : Int) : ℚ) - x.toRat / 360| ≤ |x.toRat / 360| / 2 ^ 53 := by
        refine le_trans herr (max_le ?_ (le_refl _))
        have : (1 : ℚ) / 2 / 2 ^ 53 ≤ |x.toRat / 360| / 2 ^ 53 := by gcongr
        have h5 := tiny_le
        refine le_trans ?_ this
        refine le_trans (show tiny / 2 ≤ 1 / 2 ^ 200 by linarith) (by norm_num)
      linarith
    have hfl : (x.div f360).floor.toRat = ((0 : Int) : ℚ) := by rw [f2, hint, hK0, Int.floor_intCast]
    have hneg : x.toRat < 0 := by
      have : ((K + 1 : Int) : ℚ) = 0 := by exact_mod_cast hK0
      push_cast at this
      by_contra hc
      have : 0 ≤ x.toRat / 360 := by apply div_nonneg <;> linarith
      linarith
    have htiny : -1 / 2 ^ 1066 ≤ x.toRat := by
      have herr := rn_err b64_mb d3
      rw [← d2, hint, hK0, half_tiny] at herr
      rw [Int.cast_zero, zero_sub, abs_neg] at herr
      have h1 : |x.toRat / 360| ≤ tiny / 2 := by
        rcases le_max_iff.1 herr with h | h
        · exact h
        · have h : |x.toRat / 360| ≤ |x.toRat / 360| / 2 ^ 53 := h
          have h2 := abs_nonneg (x.toRat / 360)
          have h3 : |x.toRat / 360| / 2 ^ 53 ≤ |x.toRat / 360| / 2 := by gcongr; norm_num
          linarith
      rw [abs_div, abs_of_neg hneg, abs_of_pos (show (0 : ℚ) < 360 by norm_num)] at h1
      have h2 : 1 / 2 ^ 1066 = 256 * tiny := by
        unfold tiny
        rw [mul_one_div, div_eq_div_iff (by positivity) (by positivity), one_mul,
          show (256 : ℚ) = 2 ^ 8 by norm_num, ← pow_add]
      rw [neg_div, h2]
      linarith
    refine ⟨0, Or.inr ⟨rfl, htiny, hneg⟩, hrest 0 (by simp) hfl ?_⟩
    rw [Int.cast_zero, mul_zero, sub_zero, abs_of_neg hneg]
    have : -1 / 2 ^ 1066 ≥ (-1 : ℚ) := by
      rw [ge_iff_le, le_div_iff₀ (by positivity)]
      have : (1 : ℚ) ≤ 2 ^ 1066 := one_le_pow₀ (by norm_num)
      generalize (2 : ℚ) ^ 1066 = w at this
      linarith
    generalize -1 / (2 : ℚ) ^ 1066 = w at this htiny
    linarith
  · have hlt : (x.div f360).toRat < K + 1 := by
      have := lt_of_le_of_ne hup hint
      push_cast at this; exact this
    have hfl : ⌊(x.div f360).toRat⌋ = K := Int.floor_eq_iff.2 ⟨hlow, hlt⟩
    refine ⟨K, Or.inl rfl, hrest K (by omega) (by rw [f2, hfl]) ?_⟩
    rw [abs_le]; constructor <;> linarith

end Rap
