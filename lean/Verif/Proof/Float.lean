import Verif.Model.Float
import Mathlib.Tactic.Linarith
import Mathlib.Tactic.Ring
import Mathlib.Tactic.Positivity
import Mathlib.Tactic.FieldSimp
import Mathlib.Tactic.NormNum
import Mathlib.Algebra.Order.Field.Rat
import Mathlib.Algebra.Order.AbsoluteValue.Basic
import Mathlib.Data.Rat.Cast.Order
import Mathlib.Data.Nat.Log

/-!
# Floating-point arithmetic

Magnitudes are ordered like their values, and `roundMag` yields the magnitude nearest to a rational number, ties
going to the even one. Everything else follows from these two facts.
-/

namespace Rap

/-! ## Magnitudes -/

theorem magInt_succ (mb m : Nat) : magInt mb (m + 1) = magInt mb m + 2 ^ (m / 2 ^ mb - 1) := by
  have hp : 0 < 2 ^ mb := by positivity
  generalize hP : 2 ^ mb = P at hp
  simp only [magInt, hP]
  have h1 := Nat.div_add_mod m P
  have h2 := Nat.mod_lt m hp
  generalize he : m / P = e at h1
  generalize hr : m % P = r at h1 h2
  by_cases hlast : r + 1 = P
  · have hd : (m + 1) / P = e + 1 := by
      rw [← h1, show P * e + r + 1 = (e + 1) * P by rw [← hlast]; ring, Nat.mul_div_cancel _ hp]
    have hm : (m + 1) % P = 0 := by
      have := Nat.div_add_mod (m + 1) P
      rw [hd] at this; nlinarith
    rw [hd, hm]
    simp only [Nat.add_one_ne_zero, if_false, Nat.add_zero, Nat.add_sub_cancel]
    by_cases h0 : e = 0
    · subst h0; simp at h1 ⊢; omega
    · rw [if_neg h0]
      obtain ⟨e, rfl⟩ : ∃ k, e = k + 1 := ⟨e - 1, by omega⟩
      simp only [Nat.add_sub_cancel, pow_succ]
      rw [← hlast]; ring
  · have hd : (m + 1) / P = e := by
      rw [← h1, Nat.add_assoc, Nat.mul_add_div hp, Nat.div_eq_of_lt (by omega), Nat.add_zero]
    have hm : (m + 1) % P = r + 1 := by
      have := Nat.div_add_mod (m + 1) P
      rw [hd] at this; omega
    rw [hd, hm]
    by_cases h0 : e = 0
    · subst h0; simp
    · rw [if_neg h0, if_neg h0]; ring

theorem magInt_strictMono (mb : Nat) : StrictMono (magInt mb) :=
  strictMono_nat_of_lt_succ fun m => by
    rw [magInt_succ]; have : 0 < 2 ^ (m / 2 ^ mb - 1) := by positivity
    omega

theorem magInt_lt {mb a b : Nat} : magInt mb a < magInt mb b ↔ a < b := (magInt_strictMono mb).lt_iff_lt
theorem magInt_le {mb a b : Nat} : magInt mb a ≤ magInt mb b ↔ a ≤ b := (magInt_strictMono mb).le_iff_le
theorem magInt_inj {mb a b : Nat} : magInt mb a = magInt mb b ↔ a = b := (magInt_strictMono mb).injective.eq_iff

@[simp] theorem magInt_zero (mb : Nat) : magInt mb 0 = 0 := by simp [magInt]

/-- Exponent and significand of a magnitude. -/
theorem magInt_eq (mb k r : Nat) (h1 : r ≤ 2 ^ (mb + 1)) (h2 : k = 0 ∨ 2 ^ mb ≤ r) :
    magInt mb (k * 2 ^ mb + r) = r * 2 ^ k := by
  have hp : 0 < 2 ^ mb := by positivity
  rw [pow_succ] at h1
  generalize hP : 2 ^ mb = P at hp h1 h2
  simp only [magInt, hP]
  have h3 : (k * P + r) / P = k + r / P := by rw [Nat.add_comm, Nat.add_mul_div_right _ _ hp, Nat.add_comm]
  have h4 : (k * P + r) % P = r % P := by rw [Nat.add_comm, Nat.add_mul_mod_self_right]
  rw [h3, h4]
  by_cases hr : r < P
  · have hk : k = 0 := by omega
    subst hk
    simp [Nat.div_eq_of_lt hr]
  · by_cases hr2 : r < 2 * P
    · have hd : r / P = 1 := by rw [Nat.div_eq_iff hp]; omega
      have hm : r % P = r - P := by rw [Nat.mod_eq_sub_mod (by omega), Nat.mod_eq_of_lt (by omega)]
      rw [hd, hm, if_neg (by omega)]
      rw [show P + (r - P) = r by omega, Nat.add_sub_cancel]
    · have hr3 : r = 2 * P := by omega
      have hd : r / P = 2 := by rw [hr3, Nat.mul_div_cancel _ hp]
      have hm : r % P = 0 := by rw [hr3, Nat.mul_mod_left]
      rw [hd, hm, if_neg (by omega), hr3, show k + 2 - 1 = k + 1 by omega, pow_succ]
      ring

/-- Each magnitude has a significand of `mb + 1` bits; above `2 ^ (mb + k)` it is a multiple of `2 ^ k`. -/
theorem magInt_form (mb m : Nat) : ∃ a j, magInt mb m = a * 2 ^ j ∧ a < 2 ^ (mb + 1) ∧
    (2 ^ mb ≤ a ∨ j = 0) := by
  have hp : 0 < 2 ^ mb := by positivity
  simp only [magInt]
  split
  · rename_i h
    exact ⟨m, 0, by simp, by rw [Nat.div_eq_zero_iff] at h; rw [pow_succ]; omega, .inr rfl⟩
  · refine ⟨_, _, rfl, ?_, .inl (by omega)⟩
    have := Nat.mod_lt m hp
    rw [pow_succ]; omega

theorem magInt_dvd {mb m k : Nat} (h : 2 ^ (mb + k) ≤ magInt mb m) : 2 ^ k ∣ magInt mb m := by
  obtain ⟨a, j, h1, h2, h3⟩ := magInt_form mb m
  rw [h1] at h ⊢
  have hkj : k ≤ j := by
    by_contra hc
    have h4 : a * 2 ^ j < 2 ^ (mb + 1) * 2 ^ j := by apply Nat.mul_lt_mul_of_pos_right h2 (by positivity)
    rw [← pow_add] at h4
    have h5 : 2 ^ (mb + 1 + j) ≤ 2 ^ (mb + k) := Nat.pow_le_pow_right (by omega) (by omega)
    omega
  exact Dvd.dvd.mul_left (pow_dvd_pow 2 hkj) a

/-! ## Rounding to integers -/

/-- Half of the last place: lower and upper bound, and evenness in both tie cases. -/
theorem rne_spec (num den : Nat) (hd : 0 < den) :
    2 * num ≤ (2 * rne num den + 1) * den ∧ 2 * rne num den * den ≤ 2 * num + den ∧
      (2 * num = (2 * rne num den + 1) * den → rne num den % 2 = 0) ∧
      (2 * rne num den * den = 2 * num + den → rne num den % 2 = 0) := by
  have h1 := Nat.div_add_mod num den
  have h2 := Nat.mod_lt num hd
  unfold rne
  generalize num / den = q at *
  generalize num % den = r at *
  subst h1
  split
  · refine ⟨by nlinarith, by nlinarith, fun h => ?_, fun h => ?_⟩
    · exfalso; nlinarith
    · exfalso; nlinarith
  · split
    · refine ⟨by nlinarith, by nlinarith, fun h => ?_, fun h => ?_⟩
      · exfalso; nlinarith
      · exfalso; nlinarith
    · have hr : 2 * r = den := by omega
      refine ⟨?_, ?_, fun _ => by omega, fun _ => by omega⟩
      · have : 0 ≤ q % 2 * den := Nat.zero_le _
        nlinarith
      · have : q % 2 ≤ 1 := by omega
        have : q % 2 * den ≤ 1 * den := Nat.mul_le_mul_right _ this
        nlinarith

theorem rne_exact (a den : Nat) (hd : 0 < den) : rne (a * den) den = a := by
  simp [rne, Nat.mul_div_cancel _ hd, hd]

/-- In rational numbers: within a half, and even when exactly a half away. -/
theorem rne_rat (num den : Nat) (hd : 0 < den) :
    |(rne num den : ℚ) - (num : ℚ) / den| ≤ 1 / 2 ∧
      (|(rne num den : ℚ) - (num : ℚ) / den| = 1 / 2 → rne num den % 2 = 0) := by
  obtain ⟨h1, h2, h3, h4⟩ := rne_spec num den hd
  have hd' : (0 : ℚ) < den := by exact_mod_cast hd
  have h1' : 2 * (num : ℚ) ≤ (2 * (rne num den : ℚ) + 1) * den := by exact_mod_cast h1
  have h2' : 2 * (rne num den : ℚ) * den ≤ 2 * num + den := by exact_mod_cast h2
  have hn : (num : ℚ) = num / den * den := by field_simp
  constructor
  · rw [abs_le]
    constructor
    · have : (num : ℚ) / den ≤ rne num den + 1 / 2 := by rw [div_le_iff₀ hd']; linarith
      linarith
    · have : (rne num den : ℚ) - 1 / 2 ≤ num / den := by rw [le_div_iff₀ hd']; linarith
      linarith
  · intro h
    rcases abs_eq (by norm_num : (0 : ℚ) ≤ 1 / 2) |>.1 h with h | h
    · apply h4
      have : 2 * (rne num den : ℚ) * den = 2 * num + den := by
        have : (rne num den : ℚ) = num / den + 1 / 2 := by linarith
        rw [this]; field_simp
      exact_mod_cast this
    · apply h3
      have : 2 * (num : ℚ) = (2 * (rne num den : ℚ) + 1) * den := by
        have : (rne num den : ℚ) = num / den - 1 / 2 := by linarith
        rw [this]; field_simp; ring
      exact_mod_cast this

/-- A nearest integer is at least as near as any other, and strictly nearer unless the distance is one half. -/
theorem near_int {r r' : Int} {q : ℚ} (h : |(r : ℚ) - q| ≤ 1 / 2) (hne : r' ≠ r) :
    1 / 2 ≤ |(r' : ℚ) - q| := by
  have h1 : (1 : ℚ) ≤ |(r' : ℚ) - r| := by
    have : 1 ≤ |r' - r| := Int.one_le_abs (by omega)
    exact_mod_cast this
  have h2 : |(r' : ℚ) - r| ≤ |(r' : ℚ) - q| + |(r : ℚ) - q| := by
    have := abs_sub_le (r' : ℚ) q r
    rwa [abs_sub_comm q (r : ℚ)] at this
  linarith

/-! ## Rounding to magnitudes -/

/-- `m` is the magnitude nearest to `q`, and even if another one is equally near. -/
def NearMag (mb : Nat) (q : ℚ) (m : Nat) : Prop :=
  ∀ m', |(magInt mb m : ℚ) - q| ≤ |(magInt mb m' : ℚ) - q| ∧
    (m' ≠ m → |(magInt mb m' : ℚ) - q| = |(magInt mb m : ℚ) - q| → m % 2 = 0)

/-- The pieces of `roundMag`: exponent and rounded significand. -/
theorem roundMag_parts (mb num den : Nat) (hd : 0 < den) :
    ∃ k r, roundMag mb num den = k * 2 ^ mb + r ∧ magInt mb (roundMag mb num den) = r * 2 ^ k ∧
      r = rne num (den * 2 ^ k) ∧ (k = 0 ∨ (2 ^ (mb + k) : ℚ) ≤ (num : ℚ) / den) ∧
      r ≤ 2 ^ (mb + 1) := by
  refine ⟨Nat.log2 (num / den) - mb, rne num (den * 2 ^ (Nat.log2 (num / den) - mb)), rfl, ?_, rfl, ?_, ?_⟩
  all_goals
    generalize hL : Nat.log2 (num / den) = L
    have hup : num / den < 2 ^ (L + 1) := by rw [← hL]; exact Nat.lt_log2_self
  · -- the value
    have hden : 0 < den * 2 ^ (L - mb) := by positivity
    have hbound : num < 2 ^ (L + 1) * den := by
      rwa [Nat.div_lt_iff_lt_mul hd] at hup
    obtain ⟨h1, h2, -, -⟩ := rne_spec num (den * 2 ^ (L - mb)) hden
    rw [roundMag, hL]
    apply magInt_eq
    · by_contra hc
      have hc : 2 ^ (mb + 1) + 1 ≤ rne num (den * 2 ^ (L - mb)) := by omega
      have h5 : (2 ^ (mb + 1) + 1) * (2 * (den * 2 ^ (L - mb))) ≤ 2 * num + den * 2 ^ (L - mb) := by
        refine le_trans ?_ h2
        calc _ ≤ rne num (den * 2 ^ (L - mb)) * (2 * (den * 2 ^ (L - mb))) := Nat.mul_le_mul_right _ hc
          _ = _ := by ring
      have h6 : 2 ^ (L + 1) ≤ 2 ^ (mb + 1) * 2 ^ (L - mb) := by
        rw [← pow_add]; exact Nat.pow_le_pow_right (by omega) (by omega)
      have h7 : 2 ^ (L + 1) * den ≤ 2 ^ (mb + 1) * 2 ^ (L - mb) * den := Nat.mul_le_mul_right _ h6
      have h8 : 0 < den * 2 ^ (L - mb) := hden
      nlinarith
    · by_cases hk : L - mb = 0
      · exact .inl hk
      · right
        by_contra hc
        have hc : rne num (den * 2 ^ (L - mb)) + 1 ≤ 2 ^ mb := by omega
        have hlow : 2 ^ L ≤ num / den := by
          rw [← hL]
          apply Nat.log2_self_le
          intro h0; rw [h0] at hL; simp at hL; omega
        rw [Nat.le_div_iff_mul_le hd] at hlow
        have h6 : 2 ^ L = 2 ^ mb * 2 ^ (L - mb) := by rw [← pow_add]; congr 1; omega
        rw [h6] at hlow
        have h9 : (2 * rne num (den * 2 ^ (L - mb)) + 1) * (den * 2 ^ (L - mb)) + den * 2 ^ (L - mb) ≤
            2 * 2 ^ mb * (den * 2 ^ (L - mb)) := by
          calc _ = 2 * (rne num (den * 2 ^ (L - mb)) + 1) * (den * 2 ^ (L - mb)) := by ring
            _ ≤ _ := Nat.mul_le_mul_right _ (by omega)
        nlinarith
  · -- the exponent
    by_cases hk : L - mb = 0
    · exact .inl hk
    · right
      have hlow : 2 ^ L ≤ num / den := by
        rw [← hL]
        apply Nat.log2_self_le
        intro h0; rw [h0] at hL; simp at hL; omega
      rw [Nat.le_div_iff_mul_le hd] at hlow
      rw [le_div_iff₀ (by exact_mod_cast hd), show mb + (L - mb) = L by omega]
      exact_mod_cast hlow
  · have hden : 0 < den * 2 ^ (L - mb) := by positivity
    have hbound : num < 2 ^ (L + 1) * den := by
      rwa [Nat.div_lt_iff_lt_mul hd] at hup
    obtain ⟨h1, h2, -, -⟩ := rne_spec num (den * 2 ^ (L - mb)) hden
    by_contra hc
    have hc : 2 ^ (mb + 1) + 1 ≤ rne num (den * 2 ^ (L - mb)) := by omega
    have h5 : (2 ^ (mb + 1) + 1) * (2 * (den * 2 ^ (L - mb))) ≤ 2 * num + den * 2 ^ (L - mb) := by
      refine le_trans ?_ h2
      calc _ ≤ rne num (den * 2 ^ (L - mb)) * (2 * (den * 2 ^ (L - mb))) := Nat.mul_le_mul_right _ hc
        _ = _ := by ring
    have h6 : 2 ^ (L + 1) ≤ 2 ^ (mb + 1) * 2 ^ (L - mb) := by
      rw [← pow_add]; exact Nat.pow_le_pow_right (by omega) (by omega)
    have h7 : 2 ^ (L + 1) * den ≤ 2 ^ (mb + 1) * 2 ^ (L - mb) * den := Nat.mul_le_mul_right _ h6
    have h8 : 0 < den * 2 ^ (L - mb) := hden
    nlinarith

/-- `roundMag` rounds to nearest, ties to even. -/
theorem roundMag_nearest (mb num den : Nat) (hmb : 0 < mb) (hd : 0 < den) :
    NearMag mb ((num : ℚ) / den) (roundMag mb num den) := by
  obtain ⟨k, r, h1, h2, h3, h4, -⟩ := roundMag_parts mb num den hd
  have hden : 0 < den * 2 ^ k := by positivity
  obtain ⟨e1, e2⟩ := rne_rat num (den * 2 ^ k) hden
  rw [← h3] at e1 e2
  have hk : (0 : ℚ) < 2 ^ k := by positivity
  have hscale : ∀ v : ℚ, |v * 2 ^ k - (num : ℚ) / den| = |v - (num : ℚ) / ((den * 2 ^ k : Nat) : ℚ)| * 2 ^ k := by
    intro v
    rw [← abs_of_pos hk, ← abs_mul, abs_of_pos hk]
    congr 1
    push_cast
    have hd' : (den : ℚ) ≠ 0 := by exact_mod_cast hd.ne'
    field_simp
  have hpar : roundMag mb num den % 2 = r % 2 := by
    rw [h1]
    obtain ⟨b, rfl⟩ : ∃ b, mb = b + 1 := ⟨mb - 1, by omega⟩
    rw [pow_succ, ← Nat.mul_assoc, Nat.add_comm, Nat.add_mul_mod_self_right]
  intro m'
  have hval : (magInt mb (roundMag mb num den) : ℚ) = (r : ℚ) * 2 ^ k := by rw [h2]; push_cast; ring
  rw [hval, hscale]
  -- other magnitudes that are multiples of the last place
  have hmult : ∀ r' : Nat, (magInt mb m' : ℚ) = (r' : ℚ) * 2 ^ k →
      |(r : ℚ) - (num : ℚ) / ((den * 2 ^ k : Nat) : ℚ)| * 2 ^ k ≤ |(magInt mb m' : ℚ) - (num : ℚ) / den| ∧
      (m' ≠ roundMag mb num den → |(magInt mb m' : ℚ) - (num : ℚ) / den| =
        |(r : ℚ) - (num : ℚ) / ((den * 2 ^ k : Nat) : ℚ)| * 2 ^ k → roundMag mb num den % 2 = 0) := by
    intro r' hr'
    rw [hr', hscale]
    by_cases hrr : r' = r
    · subst hrr
      refine ⟨le_refl _, fun hne => ?_⟩
      exfalso
      apply hne
      rw [← magInt_inj (mb := mb)]
      exact_mod_cast hr'.trans hval.symm
    · have h5 := near_int (r := (r : Int)) (r' := (r' : Int)) e1 (by exact_mod_cast hrr)
      have h5 : 1 / 2 ≤ |(r' : ℚ) - (num : ℚ) / ((den * 2 ^ k : Nat) : ℚ)| := by exact_mod_cast h5
      refine ⟨by nlinarith, fun _ heq => ?_⟩
      have heq := mul_right_cancel₀ hk.ne' heq
      rw [hpar]
      exact e2 (le_antisymm e1 (by rw [← heq]; exact h5))
  by_cases hbig : 2 ^ (mb + k) ≤ magInt mb m'
  · obtain ⟨c, hc⟩ := magInt_dvd hbig
    exact hmult c (by rw [hc]; push_cast; ring)
  · rcases h4 with h4 | h4
    · subst h4
      exact hmult (magInt mb m') (by simp)
    · -- a smaller magnitude is strictly farther away
      have hlt : (magInt mb m' : ℚ) < 2 ^ (mb + k) := by exact_mod_cast Nat.lt_of_not_le hbig
      have h6 : |(r : ℚ) - (num : ℚ) / ((den * 2 ^ k : Nat) : ℚ)| * 2 ^ k ≤ (num : ℚ) / den - 2 ^ (mb + k) := by
        have habs : |((2 ^ mb : Nat) : ℚ) * 2 ^ k - (num : ℚ) / den| = (num : ℚ) / den - 2 ^ (mb + k) := by
          rw [abs_sub_comm, abs_of_nonneg] <;> push_cast <;> rw [← pow_add]
          linarith
        rw [← habs, hscale]
        by_cases hrr : (2 ^ mb : Nat) = r
        · rw [hrr]
        · have h5 := near_int (r := (r : Int)) (r' := ((2 ^ mb : Nat) : Int)) e1 (by exact_mod_cast hrr)
          have h5 : 1 / 2 ≤ |((2 ^ mb : Nat) : ℚ) - (num : ℚ) / ((den * 2 ^ k : Nat) : ℚ)| := by exact_mod_cast h5
          nlinarith
      have h7 : |(magInt mb m' : ℚ) - (num : ℚ) / den| = (num : ℚ) / den - magInt mb m' := by
        rw [abs_sub_comm, abs_of_nonneg]; linarith
      rw [h7]
      exact ⟨by linarith, fun _ h => by exfalso; linarith⟩

/-- The rounding error: half a unit in the last place. -/
theorem roundMag_err (mb num den : Nat) (hd : 0 < den) :
    |(magInt mb (roundMag mb num den) : ℚ) - (num : ℚ) / den| ≤ max (1 / 2) ((num : ℚ) / den / 2 ^ (mb + 1)) := by
  obtain ⟨k, r, h1, h2, h3, h4, -⟩ := roundMag_parts mb num den hd
  have hden : 0 < den * 2 ^ k := by positivity
  obtain ⟨e1, -⟩ := rne_rat num (den * 2 ^ k) hden
  rw [← h3] at e1
  have hk : (0 : ℚ) < 2 ^ k := by positivity
  have hd' : (den : ℚ) ≠ 0 := by exact_mod_cast hd.ne'
  have hval : (magInt mb (roundMag mb num den) : ℚ) - (num : ℚ) / den =
      ((r : ℚ) - (num : ℚ) / ((den * 2 ^ k : Nat) : ℚ)) * 2 ^ k := by
    rw [h2]; push_cast; field_simp
  rw [hval, abs_mul, abs_of_pos hk]
  rcases h4 with h4 | h4
  · subst h4; simp at e1 ⊢; left; exact e1
  · refine le_trans ?_ (le_max_right _ _)
    rw [le_div_iff₀ (by positivity)]
    calc _ ≤ (1 / 2 : ℚ) * 2 ^ k * 2 ^ (mb + 1) := by
          apply mul_le_mul_of_nonneg_right _ (by positivity)
          exact mul_le_mul_of_nonneg_right e1 hk.le
      _ = 2 ^ (mb + k) := by rw [pow_succ, pow_add]; ring
      _ ≤ _ := h4

/-- NearMag magnitudes are ordered like the numbers rounded; in particular they are unique. -/
theorem NearMag.mono {mb : Nat} {q q' : ℚ} {m m' : Nat} (h : NearMag mb q m) (h' : NearMag mb q' m') (hq : q ≤ q') :
    m ≤ m' := by
  by_contra hc
  have hlt : m' < m := by omega
  have hv : (magInt mb m' : ℚ) < magInt mb m := by exact_mod_cast magInt_lt.2 hlt
  have h1 := (h m').1
  have h2 := (h' m).1
  have g1 : ((magInt mb m : ℚ) + magInt mb m') / 2 ≤ q := by
    by_contra hx
    have hx : q < ((magInt mb m : ℚ) + magInt mb m') / 2 := not_le.1 hx
    have : |(magInt mb m' : ℚ) - q| < (magInt mb m : ℚ) - q := by rw [abs_lt]; constructor <;> linarith
    have := le_abs_self ((magInt mb m : ℚ) - q)
    linarith
  have g2 : q' ≤ ((magInt mb m : ℚ) + magInt mb m') / 2 := by
    by_contra hx
    have hx : ((magInt mb m : ℚ) + magInt mb m') / 2 < q' := not_le.1 hx
    have : |(magInt mb m : ℚ) - q'| < q' - (magInt mb m' : ℚ) := by rw [abs_lt]; constructor <;> linarith
    have := neg_le_abs ((magInt mb m' : ℚ) - q')
    linarith
  have hqq : q = ((magInt mb m : ℚ) + magInt mb m') / 2 := by linarith
  have hqq' : q' = ((magInt mb m : ℚ) + magInt mb m') / 2 := by linarith
  have d1 : |(magInt mb m : ℚ) - q| = ((magInt mb m : ℚ) - magInt mb m') / 2 := by
    rw [hqq, abs_of_nonneg] <;> linarith
  have d2 : |(magInt mb m' : ℚ) - q| = ((magInt mb m : ℚ) - magInt mb m') / 2 := by
    rw [hqq, abs_sub_comm, abs_of_nonneg] <;> linarith
  have e1 := (h m').2 (by omega) (by rw [d1, d2])
  have e2 := (h' m).2 (by omega) (by
    rw [show q' = q by rw [hqq, hqq']]; rw [d1, d2])
  -- the magnitude in between is nearer
  have hb1 : (magInt mb m' : ℚ) < magInt mb (m' + 1) := by exact_mod_cast magInt_lt.2 (by omega)
  have hb2 : (magInt mb (m' + 1) : ℚ) < magInt mb m := by exact_mod_cast magInt_lt.2 (by omega)
  have h3 := (h (m' + 1)).1
  have : |(magInt mb (m' + 1) : ℚ) - q| < ((magInt mb m : ℚ) - magInt mb m') / 2 := by
    rw [hqq, abs_lt]; constructor <;> linarith
  linarith

theorem NearMag.unique {mb : Nat} {q : ℚ} {m m' : Nat} (h : NearMag mb q m) (h' : NearMag mb q m') : m = m' :=
  Nat.le_antisymm (h.mono h' (le_refl _)) (h'.mono h (le_refl _))

theorem NearMag.self (mb m : Nat) : NearMag mb (magInt mb m) m := by
  intro m'
  simp only [sub_self, abs_zero]
  refine ⟨abs_nonneg _, fun hne h => ?_⟩
  exfalso
  have : (magInt mb m' : ℚ) = magInt mb m := by
    have := abs_eq_zero.1 h; linarith
  exact hne (magInt_inj.1 (by exact_mod_cast this))

/-- Rounding a representable number changes nothing. -/
theorem roundMag_exact {mb num den m : Nat} (hmb : 0 < mb) (hd : 0 < den) (h : num = magInt mb m * den) :
    roundMag mb num den = m := by
  have h1 := roundMag_nearest mb num den hmb hd
  have : (num : ℚ) / den = magInt mb m := by
    rw [h]; push_cast
    have hd' : (den : ℚ) ≠ 0 := by exact_mod_cast hd.ne'
    field_simp
  rw [this] at h1
  exact h1.unique (NearMag.self mb m)

theorem roundMag_mono {mb num den num' den' : Nat} (hmb : 0 < mb) (hd : 0 < den) (hd' : 0 < den')
    (h : num * den' ≤ num' * den) : roundMag mb num den ≤ roundMag mb num' den' := by
  refine (roundMag_nearest mb num den hmb hd).mono (roundMag_nearest mb num' den' hmb hd') ?_
  rw [div_le_div_iff₀ (by exact_mod_cast hd) (by exact_mod_cast hd')]
  exact_mod_cast h

/-- Numbers with a significand of at most `mb + 1` bits are representable. -/
theorem exists_mag (mb a j : Nat) (ha : a ≤ 2 ^ (mb + 1)) : ∃ m, magInt mb m = a * 2 ^ j := by
  by_cases h0 : a = 0
  · exact ⟨0, by simp [h0]⟩
  -- shift the significand up as far as possible
  by_cases hbig : 2 ^ mb ≤ a
  · exact ⟨j * 2 ^ mb + a, magInt_eq mb j a ha (.inr hbig)⟩
  · induction j generalizing a with
    | zero => exact ⟨0 * 2 ^ mb + a, magInt_eq mb 0 a ha (.inl rfl)⟩
    | succ j ih =>
      have h2 : a * 2 ^ (j + 1) = (2 * a) * 2 ^ j := by rw [pow_succ]; ring
      have ha2 : 2 * a ≤ 2 ^ (mb + 1) := by rw [pow_succ]; omega
      rw [h2]
      by_cases hb : 2 ^ mb ≤ 2 * a
      · exact ⟨j * 2 ^ mb + 2 * a, magInt_eq mb j (2 * a) ha2 (.inr hb)⟩
      · exact ih (2 * a) ha2 (by omega) hb

end Rap
