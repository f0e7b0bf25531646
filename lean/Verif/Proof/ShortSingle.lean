import Verif.Proof.Shortest

/-!
# Float32s as texts, read as doubles and back
-/

namespace Rap

/-! ## Gaps between floats -/

theorem magInt_gap_form (mb m : Nat) : ∃ a, magInt mb m = a * 2 ^ (m / 2 ^ mb - 1) ∧ a < 2 ^ (mb + 1) := by
  unfold magInt
  have hp : 0 < 2 ^ mb := by positivity
  split
  · next h =>
    refine ⟨m, by rw [h]; simp, ?_⟩
    have := (Nat.div_eq_zero_iff_lt hp).1 h
    rw [pow_succ]; omega
  · refine ⟨2 ^ mb + m % 2 ^ mb, rfl, ?_⟩
    have := Nat.mod_lt m hp
    rw [pow_succ]; omega

/-- The float before or after is not nearer than the last bit allows. -/
theorem gap_le (mb : Nat) {m m' : Nat} (h : m' ≠ m) :
    (magInt mb m : ℚ) ≤ |(magInt mb m' : ℚ) - magInt mb m| * 2 ^ (mb + 1) := by
  rcases Nat.lt_or_gt_of_ne h with h | h
  · obtain ⟨n, rfl⟩ : ∃ n, m = n + 1 := ⟨m - 1, by omega⟩
    obtain ⟨a, h1, h2⟩ := magInt_gap_form mb n
    have h3 := magInt_succ mb n
    have h4 : magInt mb m' ≤ magInt mb n := magInt_le.2 (by omega)
    generalize 2 ^ (n / 2 ^ mb - 1) = g at h1 h3
    have h5 : magInt mb (n + 1) ≤ g * 2 ^ (mb + 1) := by
      rw [h3, h1, ← Nat.succ_mul, Nat.mul_comm]
      exact Nat.mul_le_mul_left _ h2
    have h6 : (g : ℚ) ≤ magInt mb (n + 1) - magInt mb m' := by
      have : g + magInt mb m' ≤ magInt mb (n + 1) := by omega
      have : (g : ℚ) + magInt mb m' ≤ magInt mb (n + 1) := by exact_mod_cast this
      linarith
    have h7 : (magInt mb (n + 1) : ℚ) ≤ g * 2 ^ (mb + 1) := by exact_mod_cast h5
    refine le_trans h7 (mul_le_mul_of_nonneg_right ?_ (by positivity))
    rw [abs_sub_comm]
    exact le_trans h6 (le_abs_self _)
  · obtain ⟨a, h1, h2⟩ := magInt_gap_form mb m
    have h3 := magInt_succ mb m
    have h4 : magInt mb (m + 1) ≤ magInt mb m' := magInt_le.2 (by omega)
    generalize 2 ^ (m / 2 ^ mb - 1) = g at h1 h3
    have h5 : magInt mb m ≤ g * 2 ^ (mb + 1) := by
      rw [h1, Nat.mul_comm]
      exact Nat.mul_le_mul_left _ h2.le
    have h6 : (g : ℚ) ≤ magInt mb m' - magInt mb m := by
      have : g + magInt mb m ≤ magInt mb m' := by omega
      have : (g : ℚ) + magInt mb m ≤ magInt mb m' := by exact_mod_cast this
      linarith
    have h7 : (magInt mb m : ℚ) ≤ g * 2 ^ (mb + 1) := by exact_mod_cast h5
    refine le_trans h7 (mul_le_mul_of_nonneg_right ?_ (by positivity))
    exact le_trans h6 (le_abs_self _)

/-- Close enough numbers are rounded to it. -/
theorem near_of_close {mb m : Nat} {q : ℚ} (h : |q - magInt mb m| * 2 ^ (mb + 2) < magInt mb m) : NearMag mb q m := by
  intro m'
  by_cases hm : m' = m
  · subst hm
    exact ⟨le_refl _, fun h => absurd rfl h⟩
  · have hg := gap_le mb hm
    have hp : (0 : ℚ) < 2 ^ (mb + 1) := by positivity
    rw [pow_succ, ← mul_assoc, mul_right_comm] at h
    have h2 : |q - magInt mb m| * 2 < |(magInt mb m' : ℚ) - magInt mb m| := by
      refine lt_of_mul_lt_mul_right (lt_of_lt_of_le h hg) hp.le
    have h3 := abs_sub_le (magInt mb m' : ℚ) q (magInt mb m)
    have h4 : |(magInt mb m : ℚ) - q| < |(magInt mb m' : ℚ) - q| := by
      rw [abs_sub_comm (magInt mb m : ℚ)]
      linarith
    exact ⟨h4.le, fun _ he => absurd he (ne_of_gt h4)⟩

/-- Rounding changes normal numbers by at most half of the last bit. -/
theorem close_of_near {mb m : Nat} {q : ℚ} (h : NearMag mb q m) (hm : 2 ^ mb ≤ m) :
    |(magInt mb m : ℚ) - q| * 2 ^ (mb + 1) ≤ magInt mb m := by
  have hp : 0 < 2 ^ mb := by positivity
  have hk : m / 2 ^ mb ≠ 0 := by
    have := (Nat.one_le_div_iff hp).2 hm
    omega
  have hM : 2 ^ mb * 2 ^ (m / 2 ^ mb - 1) ≤ magInt mb m := by
    unfold magInt
    rw [if_neg hk]
    exact Nat.mul_le_mul_right _ (by omega)
  have hs := magInt_succ mb m
  obtain ⟨n, rfl⟩ : ∃ n, m = n + 1 := ⟨m - 1, by omega⟩
  have hs' := magInt_succ mb n
  have hle : 2 ^ (n / 2 ^ mb - 1) ≤ 2 ^ ((n + 1) / 2 ^ mb - 1) := by
    refine Nat.pow_le_pow_right (by decide) ?_
    have := Nat.div_le_div_right (c := 2 ^ mb) (Nat.le_succ n)
    have e : n.succ = n + 1 := rfl
    rw [e] at this
    omega
  have hg0 : 0 < 2 ^ (n / 2 ^ mb - 1) := by positivity
  generalize 2 ^ (n / 2 ^ mb - 1) = g' at hs' hle hg0
  generalize 2 ^ ((n + 1) / 2 ^ mb - 1) = g at hs hle hM
  have hM : (2 : ℚ) ^ mb * g ≤ magInt mb (n + 1) := by exact_mod_cast hM
  have e1 : (magInt mb (n + 1 + 1) : ℚ) = magInt mb (n + 1) + g := by exact_mod_cast hs
  have e2 : (magInt mb (n + 1) : ℚ) = magInt mb n + g' := by exact_mod_cast hs'
  have hle : (g' : ℚ) ≤ g := by exact_mod_cast hle
  have hg0 : (0 : ℚ) < g' := by exact_mod_cast hg0
  have key : |(magInt mb (n + 1) : ℚ) - q| * 2 ≤ g := by
    rcases le_total q (magInt mb (n + 1)) with hq | hq
    · have h1 := (h n).1
      rw [abs_of_nonneg (by linarith)] at h1 ⊢
      rcases le_total q (magInt mb n) with hq2 | hq2
      · rw [abs_of_nonneg (by linarith)] at h1
        linarith
      · rw [abs_of_nonpos (by linarith)] at h1
        linarith
    · have h1 := (h (n + 1 + 1)).1
      rw [abs_of_nonpos (by linarith)] at h1 ⊢
      rcases le_total q (magInt mb (n + 1 + 1)) with hq2 | hq2
      · rw [abs_of_nonneg (by linarith)] at h1
        linarith
      · rw [abs_of_nonpos (by linarith)] at h1
        linarith
  calc |(magInt mb (n + 1) : ℚ) - q| * 2 ^ (mb + 1) = |(magInt mb (n + 1) : ℚ) - q| * 2 * 2 ^ mb := by rw [pow_succ]; ring
    _ ≤ g * 2 ^ mb := mul_le_mul_of_nonneg_right key (by positivity)
    _ = 2 ^ mb * g := mul_comm _ _
    _ ≤ _ := hM

/-! ## Few digits -/

theorem found_bound {f : Fmt} (hf : 0 < f.mb) {m v j : Nat} (h : Found f m v j) (hm : magInt f.mb m < 2 ^ f.scale * 10 ^ 400) :
    v ≤ 10 * 2 ^ (f.mb + 2) + 1 := by
  rcases Nat.eq_zero_or_pos j with rfl | hj
  · have h0 : shortDown f m 0 = 0 := by
      unfold shortDown
      rw [pow_zero, Nat.mul_one]
      exact Nat.div_eq_of_lt hm
    have : v ≤ 1 := by rcases h.near with h | h <;> omega
    omega
  · obtain ⟨i, rfl⟩ : ∃ i, j = i + 1 := ⟨j - 1, by omega⟩
    have hU := shortUnit_pos f (i + 1)
    have hun : shortUnit f i = 10 * shortUnit f (i + 1) := by
      have := shortUnit_add f i 1
      rwa [pow_one] at this
    have hno := (h.first i (by omega)).1
    obtain ⟨b1, b2⟩ := shortDown_bounds f m i
    have hM : (magInt f.mb m : ℚ) ≤ shortUnit f i * 2 ^ (f.mb + 2) := by
      by_contra hc
      have hc := lt_of_not_ge hc
      have : NearMag f.mb (shortDown f m i * shortUnit f i) m := by
        refine near_of_close (lt_of_le_of_lt (mul_le_mul_of_nonneg_right ?_ (by positivity)) hc)
        rw [abs_of_nonpos (by linarith)]
        linarith
      rw [← shortOk_iff hf] at this
      rw [this] at hno
      cases hno
    obtain ⟨c1, -⟩ := shortDown_bounds f m (i + 1)
    rw [hun] at hM
    have h5 : (shortDown f m (i + 1) : ℚ) ≤ 10 * 2 ^ (f.mb + 2) := by
      refine le_of_mul_le_mul_right (le_trans c1 (le_trans hM (le_of_eq ?_))) hU
      ring
    have h6 : shortDown f m (i + 1) ≤ 10 * 2 ^ (f.mb + 2) := by exact_mod_cast h5
    rcases h.near with h | h <;> omega

/-- Two texts of few digits that are read as the same double are the same number. -/
theorem short_unique {m v j : Nat} (hm : 2 ^ 52 ≤ m) (hv : v ≤ 10 ^ 9) (hn : NearMag 52 (v * shortUnit b64 j) m) {v' j' : Nat}
    (h' : Found b64 m v' j') : shortValue v' j' = shortValue v j := by
  have hU := shortUnit_pos b64 j
  have hc := close_of_near hn hm
  have small : (magInt 52 m : ℚ) ≤ 2 * 10 ^ 9 * shortUnit b64 j := by
    have h1 : (v : ℚ) * shortUnit b64 j ≤ 10 ^ 9 * shortUnit b64 j :=
      mul_le_mul_of_nonneg_right (by exact_mod_cast hv) hU.le
    have h2 := le_abs_self ((magInt 52 m : ℚ) - v * shortUnit b64 j)
    have h0 := abs_nonneg ((magInt 52 m : ℚ) - v * shortUnit b64 j)
    norm_num at hc ⊢
    linarith
  have near : ∀ {w : ℚ}, NearMag 52 (w * shortUnit b64 j) m → |(magInt 52 m : ℚ) - w * shortUnit b64 j| * 2 < shortUnit b64 j := by
    intro w hw
    have := close_of_near hw hm
    norm_num at this small ⊢
    linarith
  have h1 := near hn
  obtain ⟨b1, b2⟩ := shortDown_bounds b64 m j
  rw [show b64.mb = 52 from rfl] at b1 b2
  obtain ⟨l1, l2⟩ := abs_lt.1 (show |(magInt 52 m : ℚ) - v * shortUnit b64 j| < shortUnit b64 j / 2 by linarith)
  have hD : v = shortDown b64 m j ∨ v = shortDown b64 m j + 1 := by
    have h2 : (v : ℚ) < shortDown b64 m j + 2 := by
      refine lt_of_mul_lt_mul_right (a := shortUnit b64 j) ?_ hU.le
      linarith
    have h3 : (shortDown b64 m j : ℚ) < v + 1 := by
      refine lt_of_mul_lt_mul_right (a := shortUnit b64 j) ?_ hU.le
      linarith
    have h2 : v < shortDown b64 m j + 2 := by exact_mod_cast h2
    have h3 : shortDown b64 m j < v + 1 := by exact_mod_cast h3
    omega
  have hok : shortOk b64 m j v = true := (shortOk_iff b64_mb).2 hn
  have hj : j' ≤ j := by
    by_contra hc
    obtain ⟨f1, f2⟩ := h'.first j (by omega)
    rcases hD with h | h <;> rw [h] at hok
    · rw [f1] at hok; cases hok
    · rw [f2] at hok; cases hok
  obtain ⟨k, rfl⟩ := Nat.exists_eq_add_of_le hj
  have hn' := (shortOk_iff b64_mb).1 h'.ok
  rw [shortUnit_add b64 j' k, ← mul_assoc, show b64.mb = 52 from rfl] at hn'
  obtain ⟨r1, r2⟩ := abs_lt.1 (show |(magInt 52 m : ℚ) - v' * 10 ^ k * shortUnit b64 (j' + k)| < shortUnit b64 (j' + k) / 2 by
    have := near hn'; linarith)
  have he : v' * 10 ^ k = v := by
    have h2 : ((v' * 10 ^ k : Nat) : ℚ) < v + 1 := by
      refine lt_of_mul_lt_mul_right (a := shortUnit b64 (j' + k)) ?_ hU.le
      push_cast
      linarith
    have h3 : (v : ℚ) < (v' * 10 ^ k : Nat) + 1 := by
      refine lt_of_mul_lt_mul_right (a := shortUnit b64 (j' + k)) ?_ hU.le
      push_cast
      linarith
    have h2 : v' * 10 ^ k < v + 1 := by exact_mod_cast h2
    have h3 : v < v' * 10 ^ k + 1 := by exact_mod_cast h3
    omega
  have hS : (0 : ℚ) < 2 ^ b64.scale := by positivity
  refine mul_right_cancel₀ hS.ne' ?_
  rw [shortValue_unit, shortValue_unit, shortUnit_add b64 j' k, ← mul_assoc, ← he]
  push_cast
  rfl

end Rap
