import Verif.Proof.Round
import Verif.Proof.Bits

/-!
# Quantisation by binary search

Both the encoder and the decoder walk the same path of midpoints. `bst_walk` bounds the distance between the end of
the encoder's path and the value, `dec_walk` the distance between the decoder's path and the exact one.
-/

namespace Rap

/-- The smallest positive double. -/
def tiny : ℚ := 1 / 2 ^ 1074

/-- Results up to here are finite. -/
def big : ℚ := 2 ^ 1023

theorem tiny_pos : 0 < tiny := by unfold tiny; positivity
theorem big_pos : 0 < big := by unfold big; positivity

theorem maxVal64 : big ≤ b64.maxVal := by
  unfold big
  have h : magInt b64.mb (b64.infMag - 1) = (2 ^ 53 - 1) * 2 ^ 2045 := by decide +kernel
  have hs := scale_pos b64
  rw [Fmt.maxVal, le_div_iff₀ hs, h, b64_scale, ← pow_add]
  have : (2 : ℚ) ^ (1023 + 1074) = ((2 ^ 52 * 2 ^ 2045 : Nat) : ℚ) := by
    rw [Nat.cast_mul, Nat.cast_pow, Nat.cast_pow, Nat.cast_ofNat, ← pow_add]
  rw [this]
  exact_mod_cast Nat.mul_le_mul_right _ (by decide)

theorem tiny_eq : tiny = 1 / 2 ^ b64.scale := by rw [b64_scale]; rfl

theorem val_tiny (x : FP) : x.val b64 = x.int b64 * tiny := by rw [FP.val, tiny_eq, mul_one_div]

theorem half_tiny : (1 : ℚ) / 2 ^ (b64.scale + 1) = tiny / 2 := by rw [pow_succ, tiny_eq, div_div]

attribute [irreducible] tiny big

/-- Results of moderate size are finite. -/
theorem F64.Is.moderate {z : F64} {q : ℚ} (h : F64.Is z (rn b64 q)) (hq : |q| ≤ big) :
    z.isFinite = true ∧ z.toRat = rn b64 q ∧ |rn b64 q| < b64.top := by
  have h1 : |rn b64 q| < b64.top := rn_lt_top b64_mb (by decide) (le_trans hq maxVal64)
  have h2 := h.fin.2 h1
  exact ⟨h2, h.val h2, h1⟩

theorem add_mod {x y : F64} (hx : x.isFinite = true) (hy : y.isFinite = true) (h : |x.toRat + y.toRat| ≤ big) :
    (x.add y).isFinite = true ∧ |(x.add y).toRat - (x.toRat + y.toRat)| ≤ |x.toRat + y.toRat| / 2 ^ 53 := by
  obtain ⟨h1, h2, h3⟩ := (F64.is_add hx hy).moderate h
  exact ⟨h1, by rw [h2]; exact F64.rn_add_err hx hy h3⟩

theorem sub_mod {x y : F64} (hx : x.isFinite = true) (hy : y.isFinite = true) (h : |x.toRat - y.toRat| ≤ big) :
    (x.sub y).isFinite = true ∧ |(x.sub y).toRat - (x.toRat - y.toRat)| ≤ |x.toRat - y.toRat| / 2 ^ 53 := by
  obtain ⟨h1, h2, h3⟩ := (F64.is_sub hx hy).moderate h
  exact ⟨h1, by rw [h2]; exact F64.rn_sub_err hx hy h3⟩

/-- Numbers with few significant bits are floats. -/
theorem rn_dyadic {q : ℚ} {a j : Nat} (ha : a ≤ 2 ^ 53) (h : |q| = a * 2 ^ j * tiny) (hq : |q| ≤ big) :
    rn b64 q = q := by
  obtain ⟨m, hm⟩ := exists_mag 52 a j ha
  have hs := scale_pos b64
  have hval : |q| = FP.val b64 ⟨false, m⟩ := by
    rw [val_tiny, FP.sign_int, h, show b64.mb = 52 from rfl, hm]
    push_cast
    simp
  have hfin : m < b64.infMag := by
    have h1 : |FP.val b64 ⟨false, m⟩| < b64.top := by
      rw [← hval, abs_abs]
      refine lt_of_le_of_lt (le_trans hq maxVal64) ?_
      unfold Fmt.maxVal Fmt.top
      rw [div_lt_div_iff_of_pos_right hs]
      exact_mod_cast magInt_lt.2 (by decide)
    exact (FP.finite_iff b64 ⟨false, m⟩).2 h1
  have h1 : rn b64 |q| = |q| := by rw [hval, rn_val b64_mb hfin.le]
  rcases abs_cases q with ⟨e, -⟩ | ⟨e, -⟩
  · rwa [e] at h1
  · rw [e, rn_neg b64_mb] at h1; linarith

theorem toRat_mag (x : F64) (hx : x.isFinite = true) : |x.toRat| = magInt 52 x.fp.m * tiny := by
  rw [F64.toRat_fin hx, FP.abs_val, tiny_eq, mul_one_div]; rfl

/-- Dividing by a power of two is exact up to half the smallest float. -/
theorem rn_halve {x : F64} (hx : x.isFinite = true) (i : Nat) (hi : i ≤ 2) :
    |rn b64 (x.toRat / 2 ^ i) - x.toRat / 2 ^ i| ≤ tiny / 2 := by
  have hmag := toRat_mag x hx
  obtain ⟨a, j, h1, h2, -⟩ := magInt_form 52 x.fp.m
  have hp : (0 : ℚ) < 2 ^ i := by positivity
  have habs : |x.toRat / 2 ^ i| = |x.toRat| / 2 ^ i := by rw [abs_div, abs_of_pos hp]
  have hle : |x.toRat / 2 ^ i| ≤ |x.toRat| := by
    rw [habs]; exact div_le_self (abs_nonneg _) (one_le_pow₀ (by norm_num))
  have htop : |rn b64 (x.toRat / 2 ^ i)| < b64.top := by
    rw [abs_rn b64_mb]
    refine lt_of_le_of_lt (rn_mono b64_mb hle) ?_
    rw [← abs_rn b64_mb, F64.rn_toRat hx]; exact F64.toRat_lt_top hx
  by_cases hij : i ≤ j
  · -- exact
    obtain ⟨m, hm⟩ := exists_mag 52 a (j - i) h2.le
    have hval : |x.toRat / 2 ^ i| = FP.val b64 ⟨false, m⟩ := by
      rw [val_tiny, FP.sign_int, habs, hmag, h1, div_eq_iff hp.ne', show b64.mb = 52 from rfl, hm]
      have : (2 : Nat) ^ j = 2 ^ (j - i) * 2 ^ i := by rw [← pow_add]; congr 1; omega
      rw [this]; push_cast
      ring
    have hfin : m < b64.infMag := by
      have h1 : |FP.val b64 ⟨false, m⟩| < b64.top := by
        rw [← hval, abs_abs]; exact lt_of_le_of_lt hle (F64.toRat_lt_top hx)
      exact (FP.finite_iff b64 ⟨false, m⟩).2 h1
    have h3 : rn b64 |x.toRat / 2 ^ i| = |x.toRat / 2 ^ i| := by rw [hval, rn_val b64_mb hfin.le]
    have h4 : rn b64 (x.toRat / 2 ^ i) = x.toRat / 2 ^ i := by
      rcases abs_cases (x.toRat / 2 ^ i) with ⟨e, -⟩ | ⟨e, -⟩
      · rwa [e] at h3
      · rw [e, rn_neg b64_mb] at h3; linarith
    rw [h4, sub_self, abs_zero]
    have := tiny_pos; linarith
  · -- a small number
    refine le_trans (rn_err b64_mb htop) (max_le ?_ ?_)
    · rw [half_tiny]
    · rw [habs]
      have ht := tiny_pos
      have h5 : |x.toRat| ≤ 2 ^ 53 * 2 ^ j * tiny := by
        rw [hmag, h1]; push_cast
        have : (a : ℚ) ≤ 2 ^ 53 := by exact_mod_cast h2.le
        exact mul_le_mul_of_nonneg_right (mul_le_mul_of_nonneg_right this (by positivity)) ht.le
      have h6 : (2 : ℚ) ^ j * 2 ≤ 2 ^ i := by
        rw [← pow_succ]; exact pow_le_pow_right₀ (by norm_num) (by omega)
      show |x.toRat| / 2 ^ i / 2 ^ 53 ≤ tiny / 2
      rw [div_div, div_le_iff₀ (by positivity)]
      nlinarith

theorem f2_val : f2.isFinite = true ∧ f2.toRat = 2 := by decide +kernel
theorem f4_val : f4.isFinite = true ∧ f4.toRat = 4 := by decide +kernel

theorem half_spec {x : F64} (hx : x.isFinite = true) :
    (x.div f2).isFinite = true ∧ (x.div f2).toRat = rn b64 (x.toRat / 2) ∧
      |(x.div f2).toRat - x.toRat / 2| ≤ tiny / 2 ∧ (0 ≤ x.toRat → 0 ≤ (x.div f2).toRat) := by
  have h := F64.is_div hx f2_val.1 (by rw [f2_val.2]; norm_num)
  rw [f2_val.2] at h
  have htop : |rn b64 (x.toRat / 2)| < b64.top := by
    rw [abs_rn b64_mb]
    refine lt_of_le_of_lt (rn_mono b64_mb (q := |x.toRat|) ?_) ?_
    · rw [abs_div]; norm_num
    · rw [← abs_rn b64_mb, F64.rn_toRat hx]; exact F64.toRat_lt_top hx
  have hf := h.fin.2 htop
  have hv := h.val hf
  refine ⟨hf, hv, ?_, fun h0 => ?_⟩
  · have := rn_halve hx 1 (by omega)
    rw [pow_one] at this; rw [hv]; exact this
  · rw [hv]; exact rn_nonneg (by linarith)

theorem quarter_spec {x : F64} (hx : x.isFinite = true) :
    (x.div f4).isFinite = true ∧ (x.div f4).toRat = rn b64 (x.toRat / 4) ∧
      |(x.div f4).toRat - x.toRat / 4| ≤ tiny / 2 ∧ (0 ≤ x.toRat → 0 ≤ (x.div f4).toRat) := by
  have h := F64.is_div hx f4_val.1 (by rw [f4_val.2]; norm_num)
  rw [f4_val.2] at h
  have htop : |rn b64 (x.toRat / 4)| < b64.top := by
    rw [abs_rn b64_mb]
    refine lt_of_le_of_lt (rn_mono b64_mb (q := |x.toRat|) ?_) ?_
    · rw [abs_div]; norm_num; linarith [abs_nonneg x.toRat]
    · rw [← abs_rn b64_mb, F64.rn_toRat hx]; exact F64.toRat_lt_top hx
  have hf := h.fin.2 htop
  have hv := h.val hf
  refine ⟨hf, hv, ?_, fun h0 => ?_⟩
  · have := rn_halve hx 2 (by omega)
    rw [hv]; norm_num at this ⊢; exact this
  · rw [hv]; exact rn_nonneg (by linarith)

/-! ## The walk -/

/-- The offset of a path, in units of the first increment. -/
def offs : List Bool → ℚ
  | [] => 0
  | b :: bs => (if b then 1 else -1) + offs bs / 2

theorem offs_abs (bits : List Bool) : |offs bits| ≤ 2 - 2 / 2 ^ bits.length := by
  induction bits with
  | nil => norm_num [offs]
  | cons b bs ih =>
    rw [offs, List.length_cons, pow_succ]
    have h1 : |(if b then (1 : ℚ) else -1)| = 1 := by cases b <;> norm_num
    have h2 := abs_add_le (if b then (1 : ℚ) else -1) (offs bs / 2)
    rw [h1, abs_div, abs_two] at h2
    have : (2 : ℚ) / (2 ^ bs.length * 2) = 2 / 2 ^ bs.length / 2 := by field_simp
    rw [this]; linarith

theorem offs_abs_lt (bits : List Bool) : |offs bits| < 2 := by
  have := offs_abs bits
  have : (0 : ℚ) < 2 / 2 ^ bits.length := by positivity
  linarith

/-- One step of a path, rounded: `B` bounds everything in sight. -/
theorem step {cur inc : F64} (hc : cur.isFinite = true) (hi : inc.isFinite = true) (h0 : 0 ≤ inc.toRat) {B : ℚ}
    (hB : B ≤ big) (hb : |cur.toRat| + inc.toRat ≤ B) (b : Bool) (cur' : F64)
    (hcur' : cur' = if b then cur.add inc else cur.sub inc) :
    cur'.isFinite = true ∧ |cur'.toRat - (cur.toRat + (if b then 1 else -1) * inc.toRat)| ≤ B / 2 ^ 53 := by
  subst hcur'
  cases b
  · simp only [Bool.false_eq_true, if_false]
    have h1 : |cur.toRat - inc.toRat| ≤ B := by
      have := abs_sub cur.toRat inc.toRat
      rw [abs_of_nonneg h0] at this; linarith
    obtain ⟨h2, h3⟩ := sub_mod hc hi (le_trans h1 hB)
    refine ⟨h2, ?_⟩
    have : cur.toRat + -1 * inc.toRat = cur.toRat - inc.toRat := by ring
    rw [this]
    exact le_trans h3 (by gcongr)
  · simp only [if_true]
    have h1 : |cur.toRat + inc.toRat| ≤ B := by
      have := abs_add_le cur.toRat inc.toRat
      rw [abs_of_nonneg h0] at this; linarith
    obtain ⟨h2, h3⟩ := add_mod hc hi (le_trans h1 hB)
    refine ⟨h2, ?_⟩
    rw [one_mul]
    exact le_trans h3 (by gcongr)

/-- The rounding allowance of one step. -/
def stepErr (B : ℚ) : ℚ := B / 2 ^ 53 + tiny

/-- The path taken in floating point stays close to the exact one. -/
theorem dec_walk {B : ℚ} (hB0 : 0 ≤ B) (hB : B ≤ big) (bits : List Bool) {cur inc : F64} (hc : cur.isFinite = true)
    (hi : inc.isFinite = true) (h0 : 0 ≤ inc.toRat)
    (hb : |cur.toRat| + 2 * inc.toRat + bits.length * stepErr B ≤ B) :
    (bstDecBits bits cur inc).isFinite = true ∧
      |(bstDecBits bits cur inc).toRat - (cur.toRat + inc.toRat * offs bits)| ≤ bits.length * stepErr B := by
  induction bits generalizing cur inc with
  | nil => simp [bstDecBits, offs, hc]
  | cons b bs ih =>
    have ht := tiny_pos
    have hse : stepErr B = B / 2 ^ 53 + tiny := rfl
    have hnn : 0 ≤ stepErr B := by rw [hse]; positivity
    rw [List.length_cons] at hb
    push_cast at hb
    have hlen : (0 : ℚ) ≤ bs.length * stepErr B := by positivity
    obtain ⟨s1, s2⟩ := step hc hi h0 hB (by linarith) b _ rfl
    obtain ⟨g1, g2, g3, g4⟩ := half_spec hi
    have g4 := g4 h0
    set cur' := if b then cur.add inc else cur.sub inc with hcur'
    have hdec : bstDecBits (b :: bs) cur inc = bstDecBits bs cur' (inc.div f2) := by
      cases b <;> rfl
    have hcurabs : |cur'.toRat| ≤ |cur.toRat| + inc.toRat + B / 2 ^ 53 := by
      have h1 := abs_sub_abs_le_abs_sub cur'.toRat (cur.toRat + (if b then 1 else -1) * inc.toRat)
      have h2 : |cur.toRat + (if b then 1 else -1) * inc.toRat| ≤ |cur.toRat| + inc.toRat := by
        refine le_trans (abs_add_le _ _) ?_
        rw [abs_mul, abs_of_nonneg h0]
        cases b <;> norm_num
      linarith
    have hinc : (inc.div f2).toRat ≤ inc.toRat / 2 + tiny / 2 := by
      have := (abs_le.1 g3).2; linarith
    obtain ⟨i1, i2⟩ := ih s1 g1 g4 (by rw [hse] at hb hlen ⊢; linarith)
    rw [hdec]
    refine ⟨i1, ?_⟩
    rw [List.length_cons]
    push_cast
    have ho := offs_abs_lt bs
    have e : (bstDecBits bs cur' (inc.div f2)).toRat - (cur.toRat + inc.toRat * offs (b :: bs)) =
        ((bstDecBits bs cur' (inc.div f2)).toRat - (cur'.toRat + (inc.div f2).toRat * offs bs)) +
        (cur'.toRat - (cur.toRat + (if b then 1 else -1) * inc.toRat)) +
        ((inc.div f2).toRat - inc.toRat / 2) * offs bs := by
      rw [offs]; ring
    rw [e]
    have h3 : |((inc.div f2).toRat - inc.toRat / 2) * offs bs| ≤ tiny := by
      rw [abs_mul]
      calc _ ≤ tiny / 2 * 2 := mul_le_mul g3 ho.le (abs_nonneg _) (by linarith)
        _ = tiny := by ring
    have h4 := abs_add_three ((bstDecBits bs cur' (inc.div f2)).toRat - (cur'.toRat + (inc.div f2).toRat * offs bs))
      (cur'.toRat - (cur.toRat + (if b then 1 else -1) * inc.toRat)) (((inc.div f2).toRat - inc.toRat / 2) * offs bs)
    rw [hse] at i2 ⊢
    linarith

/-- The path chosen by the encoder ends close to the value (moved into the range if it lies outside). `e` is the error
made so far. -/
theorem bst_walk {B : ℚ} (hB0 : 0 ≤ B) (hB : B ≤ big) {v : F64} (hv : v.isFinite = true) {t lo hi : ℚ}
    (hlo : v.toRat < t → t = lo) (hhi : t < v.toRat → t = hi) (k : Nat) {cur inc : F64} (hc : cur.isFinite = true)
    (hi' : inc.isFinite = true) (h0 : 0 ≤ inc.toRat) (hb : |cur.toRat| + 2 * inc.toRat + k * stepErr B ≤ B) {e : ℚ} (he : 0 ≤ e)
    (h1 : lo - e ≤ cur.toRat - 2 * inc.toRat) (h2 : cur.toRat + 2 * inc.toRat ≤ hi + e)
    (h3 : |t - cur.toRat| ≤ 2 * inc.toRat + e) :
    (bstDecBits (bstEncBits v k cur inc) cur inc).isFinite = true ∧
      |(bstDecBits (bstEncBits v k cur inc) cur inc).toRat - t| ≤ 2 * inc.toRat / 2 ^ k + e + k * (stepErr B + tiny) := by
  have ht := tiny_pos
  have hse : stepErr B = B / 2 ^ 53 + tiny := rfl
  have hnn : 0 ≤ stepErr B := by rw [hse]; positivity
  induction k generalizing cur inc e with
  | zero =>
    refine ⟨hc, ?_⟩
    simp only [bstEncBits, bstDecBits, pow_zero, div_one, Nat.cast_zero, zero_mul, add_zero]
    rw [abs_sub_comm]; linarith
  | succ k ih =>
    push_cast at hb ⊢
    have hlen : (0 : ℚ) ≤ k * stepErr B := by positivity
    have hlt := F64.lt_iff hv hc
    obtain ⟨g1, g2, g3, g4⟩ := half_spec hi'
    have g4 := g4 h0
    have hinc1 : (inc.div f2).toRat ≤ inc.toRat / 2 + tiny / 2 := by have := (abs_le.1 g3).2; linarith
    have hinc2 : inc.toRat / 2 - tiny / 2 ≤ (inc.div f2).toRat := by have := (abs_le.1 g3).1; linarith
    have hfinal : ∀ cur' : F64, cur'.isFinite = true → |cur'.toRat| + 2 * (inc.div f2).toRat + k * stepErr B ≤ B →
        lo - (e + stepErr B) ≤ cur'.toRat - 2 * (inc.div f2).toRat →
        cur'.toRat + 2 * (inc.div f2).toRat ≤ hi + (e + stepErr B) →
        |t - cur'.toRat| ≤ 2 * (inc.div f2).toRat + (e + stepErr B) →
        (bstDecBits (bstEncBits v k cur' (inc.div f2)) cur' (inc.div f2)).isFinite = true ∧
          |(bstDecBits (bstEncBits v k cur' (inc.div f2)) cur' (inc.div f2)).toRat - t| ≤
            2 * inc.toRat / 2 ^ (k + 1) + e + (k + 1) * (stepErr B + tiny) := by
      intro cur' c1 c2 c3 c4 c5
      obtain ⟨i1, i2⟩ := ih c1 g1 g4 c2 (by linarith) c3 c4 c5
      refine ⟨i1, le_trans i2 ?_⟩
      have hp : (1 : ℚ) ≤ 2 ^ k := one_le_pow₀ (by norm_num)
      have h4 : 2 * (inc.div f2).toRat / 2 ^ k ≤ 2 * inc.toRat / 2 ^ (k + 1) + tiny := by
        calc 2 * (inc.div f2).toRat / 2 ^ k ≤ (inc.toRat + tiny) / 2 ^ k := by gcongr; linarith
          _ = 2 * inc.toRat / 2 ^ (k + 1) + tiny / 2 ^ k := by rw [pow_succ]; field_simp
          _ ≤ _ := by gcongr; exact div_le_self ht.le hp
      linarith
    by_cases hvc : v.toRat < cur.toRat
    · have hcond : v.lt cur = true := hlt.2 hvc
      simp only [bstEncBits, hcond, if_true, bstDecBits]
      obtain ⟨s1, s2⟩ := step hc hi' h0 hB (by linarith) false _ rfl
      simp only [Bool.false_eq_true, if_false] at s1 s2
      have s3 := abs_le.1 s2
      have a1 : t - cur.toRat ≤ e := by
        rcases le_or_gt t cur.toRat with h | h
        · linarith
        · have := hlo (by linarith); linarith
      apply hfinal _ s1
      · have := abs_sub_abs_le_abs_sub (cur.sub inc).toRat (cur.toRat + -1 * inc.toRat)
        have h5 : |cur.toRat + -1 * inc.toRat| ≤ |cur.toRat| + inc.toRat := by
          refine le_trans (abs_add_le _ _) ?_
          rw [abs_mul, abs_of_nonneg h0]; norm_num
        linarith
      · linarith
      · linarith
      · have := abs_le.1 h3
        rw [abs_le]; constructor <;> linarith
    · have hcond : v.lt cur = false := by
        cases h : v.lt cur
        · rfl
        · exact absurd (hlt.1 h) hvc
      simp only [bstEncBits, hcond, Bool.false_eq_true, if_false, bstDecBits]
      obtain ⟨s1, s2⟩ := step hc hi' h0 hB (by linarith) true _ rfl
      simp only [if_true] at s1 s2
      have s3 := abs_le.1 s2
      have a1 : cur.toRat - t ≤ e := by
        rcases le_or_gt cur.toRat t with h | h
        · linarith
        · have := hhi (by linarith); linarith
      apply hfinal _ s1
      · have := abs_sub_abs_le_abs_sub (cur.add inc).toRat (cur.toRat + 1 * inc.toRat)
        have h5 : |cur.toRat + 1 * inc.toRat| ≤ |cur.toRat| + inc.toRat := by
          refine le_trans (abs_add_le _ _) ?_
          rw [abs_mul, abs_of_nonneg h0]; norm_num
        linarith
      · linarith
      · linarith
      · have := abs_le.1 h3
        rw [abs_le]; constructor <;> linarith

theorem bstEncBits_length (v : F64) (k : Nat) (cur inc : F64) : (bstEncBits v k cur inc).length = k := by
  induction k generalizing cur inc with
  | zero => rfl
  | succ k ih => simp only [bstEncBits]; split <;> simp [ih]

/-- `x` moved into `[lo, hi]`. -/
def clamp (lo hi x : ℚ) : ℚ := max lo (min x hi)

/-- The starting point of a path for the range `[lo, hi]`, up to an error of `e`. -/
structure Starts (lo hi e : ℚ) (cur inc : F64) : Prop where
  range : lo ≤ hi
  cfin : cur.isFinite = true
  ifin : inc.isFinite = true
  nonneg : 0 ≤ inc.toRat
  close : |cur.toRat - (lo + hi) / 2| + 2 * |inc.toRat - (hi - lo) / 4| ≤ e

theorem Starts.bounds {lo hi e : ℚ} {cur inc : F64} (h : Starts lo hi e cur inc) :
    0 ≤ e ∧ |cur.toRat| + 2 * inc.toRat ≤ max |lo| |hi| + e ∧ lo - e ≤ cur.toRat - 2 * inc.toRat ∧
      cur.toRat + 2 * inc.toRat ≤ hi + e ∧ (hi - lo) / 2 - e ≤ 2 * inc.toRat ∧ 2 * inc.toRat ≤ (hi - lo) / 2 + e := by
  obtain ⟨h0, -, -, h1, h2⟩ := h
  have a1 := abs_le.1 (le_refl |cur.toRat - (lo + hi) / 2|)
  have a2 := abs_le.1 (le_refl |inc.toRat - (hi - lo) / 4|)
  have b1 := abs_nonneg (cur.toRat - (lo + hi) / 2)
  have b2 := abs_nonneg (inc.toRat - (hi - lo) / 4)
  refine ⟨by linarith, ?_, by linarith, by linarith, by linarith, by linarith⟩
  have l1 := le_max_left |lo| |hi|
  have l2 := le_max_right |lo| |hi|
  have c1 := neg_abs_le lo
  have c2 := le_abs_self hi
  rcases abs_cases cur.toRat with ⟨e1, -⟩ | ⟨e1, -⟩ <;> rw [e1] <;> linarith

/-- Encoding a value and following the path again gives the value moved into the range. -/
theorem Starts.enc {lo hi e : ℚ} {cur inc : F64} (h : Starts lo hi e cur inc) {B : ℚ} (hB0 : 0 ≤ B) (hB : B ≤ big)
    {k : Nat} (hk : max |lo| |hi| + e + k * stepErr B ≤ B) {v : F64} (hv : v.isFinite = true) :
    (bstDecBits (bstEncBits v k cur inc) cur inc).isFinite = true ∧
      |(bstDecBits (bstEncBits v k cur inc) cur inc).toRat - clamp lo hi v.toRat| ≤
        (hi - lo) / 2 ^ (k + 1) + 2 * e + k * (stepErr B + tiny) := by
  obtain ⟨b1, b2, b3, b4, b5, b6⟩ := h.bounds
  have hrange := h.range
  have hcl : lo ≤ clamp lo hi v.toRat ∧ clamp lo hi v.toRat ≤ hi :=
    ⟨le_max_left _ _, max_le hrange (min_le_right _ _)⟩
  have a1 := abs_le.1 (le_refl |cur.toRat - (lo + hi) / 2|)
  have a2 := abs_le.1 (le_refl |inc.toRat - (hi - lo) / 4|)
  have hcl' := h.close
  obtain ⟨r1, r2⟩ := bst_walk hB0 hB hv (t := clamp lo hi v.toRat) (lo := lo) (hi := hi)
    (by
      intro h1
      unfold clamp at h1 ⊢
      rcases le_total (min v.toRat hi) lo with h2 | h2
      · exact max_eq_left h2
      · rw [max_eq_right h2] at h1
        exact absurd (min_le_left v.toRat hi) (by linarith))
    (by
      intro h1
      unfold clamp at h1 ⊢
      rcases le_total v.toRat hi with h2 | h2
      · rw [min_eq_left h2] at h1
        exact absurd (le_max_right lo v.toRat) (by linarith)
      · rw [min_eq_right h2, max_eq_right hrange])
    k h.cfin h.ifin h.nonneg (by linarith) b1 b3 b4 (by rw [abs_le]; constructor <;> linarith)
  refine ⟨r1, le_trans r2 ?_⟩
  have hp : (1 : ℚ) ≤ 2 ^ k := one_le_pow₀ (by norm_num)
  have : 2 * inc.toRat / 2 ^ k ≤ (hi - lo) / 2 ^ (k + 1) + e := by
    calc 2 * inc.toRat / 2 ^ k ≤ ((hi - lo) / 2 + e) / 2 ^ k := by gcongr
      _ = (hi - lo) / 2 ^ (k + 1) + e / 2 ^ k := by rw [pow_succ]; field_simp
      _ ≤ _ := by gcongr; exact div_le_self b1 hp
  linarith

/-- The fraction of the range a path ends at. -/
def frac (bits : List Bool) : ℚ := 1 / 2 + offs bits / 4

theorem frac_pos (bits : List Bool) : 0 < frac bits ∧ frac bits < 1 := by
  have := abs_lt.1 (offs_abs_lt bits)
  unfold frac
  constructor <;> linarith

/-- The place a path ends at. -/
theorem Starts.dec {lo hi e : ℚ} {cur inc : F64} (h : Starts lo hi e cur inc) {B : ℚ} (hB0 : 0 ≤ B) (hB : B ≤ big)
    (bits : List Bool) (hk : max |lo| |hi| + e + bits.length * stepErr B ≤ B) :
    (bstDecBits bits cur inc).isFinite = true ∧
      |(bstDecBits bits cur inc).toRat - (lo * (1 - frac bits) + hi * frac bits)| ≤ e + bits.length * stepErr B := by
  obtain ⟨b1, b2, b3, b4, b5, b6⟩ := h.bounds
  obtain ⟨r1, r2⟩ := dec_walk hB0 hB bits h.cfin h.ifin h.nonneg (by linarith)
  refine ⟨r1, ?_⟩
  have ho := offs_abs_lt bits
  have e1 : (bstDecBits bits cur inc).toRat - (lo * (1 - frac bits) + hi * frac bits) =
      ((bstDecBits bits cur inc).toRat - (cur.toRat + inc.toRat * offs bits)) +
      ((cur.toRat - (lo + hi) / 2) + (inc.toRat - (hi - lo) / 4) * offs bits) := by unfold frac; ring
  rw [e1]
  have e2 : |(inc.toRat - (hi - lo) / 4) * offs bits| ≤ 2 * |inc.toRat - (hi - lo) / 4| := by
    rw [abs_mul, mul_comm]
    exact mul_le_mul_of_nonneg_right ho.le (abs_nonneg _)
  have e3 := abs_add_le ((bstDecBits bits cur inc).toRat - (cur.toRat + inc.toRat * offs bits))
    ((cur.toRat - (lo + hi) / 2) + (inc.toRat - (hi - lo) / 4) * offs bits)
  have e4 := abs_add_le (cur.toRat - (lo + hi) / 2) ((inc.toRat - (hi - lo) / 4) * offs bits)
  have := h.close
  linarith

/-- The same fraction of two ranges. -/
theorem frac_diff (bits : List Bool) {lo hi lo' hi' a : ℚ} (h1 : |lo' - lo| ≤ a) (h2 : |hi' - hi| ≤ a) :
    |(lo' * (1 - frac bits) + hi' * frac bits) - (lo * (1 - frac bits) + hi * frac bits)| ≤ a := by
  obtain ⟨p1, p2⟩ := frac_pos bits
  have e : (lo' * (1 - frac bits) + hi' * frac bits) - (lo * (1 - frac bits) + hi * frac bits) =
      (lo' - lo) * (1 - frac bits) + (hi' - hi) * frac bits := by ring
  rw [e]
  refine le_trans (abs_add_le _ _) ?_
  rw [abs_mul, abs_mul, abs_of_pos p1, abs_of_pos (show 0 < 1 - frac bits by linarith)]
  nlinarith

/-- A bound on everything in sight, for `k` steps in a range of size `M`. -/
theorem exists_bound {M : ℚ} (hM : 0 ≤ M) (hM' : M ≤ big / 4) (k : Nat) (hk : k ≤ 2 ^ 49) :
    ∃ B, 0 ≤ B ∧ B ≤ big ∧ M + (k + 8) * stepErr B ≤ B ∧ stepErr B ≤ M / 2 ^ 52 + 2 * tiny := by
  have ht := tiny_pos
  have hkq : (k : ℚ) ≤ 2 ^ 49 := by exact_mod_cast hk
  have htb : 2 ^ 60 * tiny ≤ big := by
    unfold tiny big
    rw [mul_one_div, div_le_iff₀ (by positivity), ← pow_add]
    exact pow_le_pow_right₀ (by norm_num) (by norm_num)
  have hk0 : (0 : ℚ) ≤ k := by positivity
  refine ⟨2 * (M + (k + 8) * tiny), by positivity, ?_, ?_, ?_⟩
  · nlinarith
  · unfold stepErr
    have h1 : ((k : ℚ) + 8) / 2 ^ 53 ≤ 1 / 8 := by rw [div_le_div_iff₀ (by positivity) (by norm_num)]; linarith
    have h2 : ((k : ℚ) + 8) * (2 * (M + (k + 8) * tiny) / 2 ^ 53) = (k + 8) / 2 ^ 53 * (2 * (M + (k + 8) * tiny)) := by ring
    rw [mul_add, h2]
    have h3 : 0 ≤ 2 * (M + (k + 8) * tiny) := by positivity
    have h4 := mul_le_mul_of_nonneg_right h1 h3
    have h5 : 0 ≤ ((k : ℚ) + 8) * tiny := by positivity
    linarith
  · unfold stepErr
    have h1 : ((k : ℚ) + 8) * tiny / 2 ^ 52 ≤ tiny := by
      rw [div_le_iff₀ (by positivity)]; nlinarith
    have h2 : 2 * (M + ((k : ℚ) + 8) * tiny) / 2 ^ 53 = M / 2 ^ 52 + (k + 8) * tiny / 2 ^ 52 := by ring
    rw [h2]; linarith

/-- The starting point of `UnsignedFloatBSTToBytes`. -/
theorem starts_bst {S D : F64} (hS : S.isFinite = true) (hD : D.isFinite = true) (h0 : 0 ≤ D.toRat) {B : ℚ}
    (hB : B ≤ big) (hb : |S.toRat| + D.toRat + 2 * stepErr B ≤ B) (hB0 : 0 ≤ B) :
    Starts S.toRat (S.toRat + D.toRat) (stepErr B + tiny) (S.add (D.div f2)) (D.div f4) := by
  have ht := tiny_pos
  have hse : stepErr B = B / 2 ^ 53 + tiny := rfl
  have hp : 0 ≤ B / 2 ^ 53 := by positivity
  obtain ⟨g1, g2, g3, g4⟩ := half_spec hD
  obtain ⟨q1, q2, q3, q4⟩ := quarter_spec hD
  have hinc := abs_le.1 g3
  have hsum : |S.toRat + (D.div f2).toRat| ≤ B := by
    refine le_trans (abs_add_le _ _) ?_
    rw [abs_of_nonneg (g4 h0)]; linarith
  obtain ⟨a1, a2⟩ := add_mod hS g1 (le_trans hsum hB)
  have a2 : |(S.add (D.div f2)).toRat - (S.toRat + (D.div f2).toRat)| ≤ B / 2 ^ 53 := le_trans a2 (by gcongr)
  refine ⟨by linarith, a1, q1, q4 h0, ?_⟩
  have e1 : (S.add (D.div f2)).toRat - (S.toRat + (S.toRat + D.toRat)) / 2 =
      ((S.add (D.div f2)).toRat - (S.toRat + (D.div f2).toRat)) + ((D.div f2).toRat - D.toRat / 2) := by ring
  have e2 : (D.div f4).toRat - (S.toRat + D.toRat - S.toRat) / 4 = (D.div f4).toRat - D.toRat / 4 := by ring
  rw [e1, e2]
  have := abs_add_le ((S.add (D.div f2)).toRat - (S.toRat + (D.div f2).toRat)) ((D.div f2).toRat - D.toRat / 2)
  linarith

/-- The quantiser: any finite value is read back as the value moved into the range, up to half a cell and roundings. -/
theorem bst_error {S D v : F64} (hS : S.isFinite = true) (hD : D.isFinite = true) (hv : v.isFinite = true)
    (h0 : 0 ≤ D.toRat) (hM : |S.toRat| + D.toRat ≤ big / 4) (n : Nat) (hn : 8 * n ≤ 2 ^ 49) :
    (bstDec S D (bstEnc v S D n)).isFinite = true ∧
      |(bstDec S D (bstEnc v S D n)).toRat - clamp S.toRat (S.toRat + D.toRat) v.toRat| ≤
        D.toRat / 2 ^ (8 * n + 1) + (8 * n + 2) * ((|S.toRat| + D.toRat) / 2 ^ 52 + 3 * tiny) := by
  have ht := tiny_pos
  have hMn : 0 ≤ |S.toRat| + D.toRat := by positivity
  obtain ⟨B, hB0, hB, hb, hse⟩ := exists_bound hMn hM (8 * n) hn
  have hs0 : 0 ≤ stepErr B := by unfold stepErr; positivity
  have hst : tiny ≤ stepErr B := by unfold stepErr; have : 0 ≤ B / 2 ^ 53 := by positivity
                                    linarith
  push_cast at hb
  have hk0 : (0 : ℚ) ≤ 8 * n * stepErr B := by positivity
  have hstart := starts_bst hS hD h0 hB (by nlinarith) hB0
  have hmax : max |S.toRat| |S.toRat + D.toRat| ≤ |S.toRat| + D.toRat := by
    refine max_le (by linarith) ?_
    have := abs_add_le S.toRat D.toRat
    rwa [abs_of_nonneg h0] at this
  obtain ⟨r1, r2⟩ := hstart.enc hB0 hB (k := 8 * n) (by push_cast; nlinarith) hv
  have hdec : bstDec S D (bstEnc v S D n) =
      bstDecBits (bstEncBits v (8 * n) (S.add (D.div f2)) (D.div f4)) (S.add (D.div f2)) (D.div f4) := by
    rw [bstDec, bstEnc, unpack_pack _ _ (bstEncBits_length ..)]
  rw [hdec]
  refine ⟨r1, le_trans r2 ?_⟩
  push_cast
  have e1 : S.toRat + D.toRat - S.toRat = D.toRat := by ring
  rw [e1]
  have : (8 * (n : ℚ) + 2) * (stepErr B + tiny) ≤ (8 * n + 2) * ((|S.toRat| + D.toRat) / 2 ^ 52 + 3 * tiny) := by
    exact mul_le_mul_of_nonneg_left (by linarith) (by positivity)
  linarith

/-- What any bytes decode to: a fraction of the range that depends only on the bytes. -/
theorem bst_dec {S D : F64} (hS : S.isFinite = true) (hD : D.isFinite = true)
    (h0 : 0 ≤ D.toRat) (hM : |S.toRat| + D.toRat ≤ big / 4) (b : Bytes) (hn : 8 * b.length ≤ 2 ^ 49) :
    (bstDec S D b).isFinite = true ∧
      |(bstDec S D b).toRat - (S.toRat + D.toRat * frac (unpackBits b))| ≤
        (8 * b.length + 2) * ((|S.toRat| + D.toRat) / 2 ^ 52 + 2 * tiny) := by
  have ht := tiny_pos
  have hMn : 0 ≤ |S.toRat| + D.toRat := by positivity
  obtain ⟨B, hB0, hB, hb, hse⟩ := exists_bound hMn hM (8 * b.length) hn
  have hs0 : 0 ≤ stepErr B := by unfold stepErr; positivity
  have hst : tiny ≤ stepErr B := by unfold stepErr; have : 0 ≤ B / 2 ^ 53 := by positivity
                                    linarith
  push_cast at hb
  have hk0 : (0 : ℚ) ≤ 8 * b.length * stepErr B := by positivity
  have hstart := starts_bst hS hD h0 hB (by nlinarith) hB0
  have hmax : max |S.toRat| |S.toRat + D.toRat| ≤ |S.toRat| + D.toRat := by
    refine max_le (by linarith) ?_
    have := abs_add_le S.toRat D.toRat
    rwa [abs_of_nonneg h0] at this
  have hlen : (unpackBits b).length = 8 * b.length := by
    induction b with
    | nil => rfl
    | cons x b ih => simp [unpackBits, bitsOfByte_length, List.length_flatMap]; omega
  obtain ⟨r1, r2⟩ := hstart.dec hB0 hB (unpackBits b) (by rw [hlen]; push_cast; nlinarith)
  refine ⟨r1, ?_⟩
  rw [hlen] at r2
  push_cast at r2
  have e1 : S.toRat * (1 - frac (unpackBits b)) + (S.toRat + D.toRat) * frac (unpackBits b) =
      S.toRat + D.toRat * frac (unpackBits b) := by ring
  rw [e1] at r2
  have : (8 * (b.length : ℚ) + 2) * stepErr B ≤ (8 * b.length + 2) * ((|S.toRat| + D.toRat) / 2 ^ 52 + 2 * tiny) := by
    gcongr
  exact le_trans r2 (by linarith)

end Rap
