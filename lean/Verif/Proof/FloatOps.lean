import Verif.Proof.Float
import Mathlib.Data.Rat.Floor

/-!
# Floating-point operations as rounded rational operations

`rn f q` is the rational number `q` rounded to the format `f`; an infinity counts as the first power of two that is
too large. On finite floats the operations of the model are the exact operations followed by `rn`.
-/

namespace Rap

/-- The value in units of the smallest positive float; an infinity counts as the next power of two. -/
def FP.val (f : Fmt) (x : FP) : ℚ := (x.int f : ℚ) / 2 ^ f.scale

/-- `q` (in units of the smallest positive float) rounded. -/
def rnMag (f : Fmt) (q : ℚ) : Nat := min (roundMag f.mb q.num.natAbs q.den) f.infMag

/-- Rounding of rational numbers to the format. -/
def rn (f : Fmt) (q : ℚ) : ℚ :=
  (if q < 0 then -(magInt f.mb (rnMag f (q * 2 ^ f.scale)) : ℚ) else magInt f.mb (rnMag f (q * 2 ^ f.scale))) /
    2 ^ f.scale

/-- The largest value `rn` takes, an infinity. -/
def Fmt.top (f : Fmt) : ℚ := (magInt f.mb f.infMag : ℚ) / 2 ^ f.scale

/-- The largest finite value. -/
def Fmt.maxVal (f : Fmt) : ℚ := (magInt f.mb (f.infMag - 1) : ℚ) / 2 ^ f.scale

theorem scale_pos (f : Fmt) : (0 : ℚ) < 2 ^ f.scale := by positivity

theorem natAbs_num_div_den (q : ℚ) : (q.num.natAbs : ℚ) / q.den = |q| := by
  conv_rhs => rw [← Rat.num_div_den q]
  rw [abs_div, Nat.cast_natAbs, Int.cast_abs]
  congr 1
  exact (abs_of_nonneg (by positivity)).symm

theorem roundMag_congr {mb num den num' den' : Nat} (hmb : 0 < mb) (hd : 0 < den) (hd' : 0 < den')
    (h : num * den' = num' * den) : roundMag mb num den = roundMag mb num' den' :=
  Nat.le_antisymm (roundMag_mono hmb hd hd' h.le) (roundMag_mono hmb hd' hd h.ge)

theorem roundMag_of_rat {mb num den : Nat} (hmb : 0 < mb) (hd : 0 < den) {q : ℚ} (h : |q| = (num : ℚ) / den) :
    roundMag mb num den = roundMag mb q.num.natAbs q.den := by
  have h1 := roundMag_nearest mb num den hmb hd
  have h2 := roundMag_nearest mb q.num.natAbs q.den hmb q.den_pos
  rw [natAbs_num_div_den, h] at h2
  exact h1.unique h2

theorem rnMag_neg (f : Fmt) (q : ℚ) : rnMag f (-q) = rnMag f q := by
  simp [rnMag]

theorem rn_neg {f : Fmt} (hf : 0 < f.mb) (q : ℚ) : rn f (-q) = -rn f q := by
  unfold rn
  rw [neg_mul, rnMag_neg]
  rcases lt_trichotomy q 0 with h | h | h
  · rw [if_neg (by linarith), if_pos h]; ring
  · subst h
    have : rnMag f 0 = 0 := by
      have : roundMag f.mb 0 1 = 0 := roundMag_exact hf (by omega) (by simp)
      simp [rnMag, this]
    simp [this]
  · rw [if_pos (by linarith), if_neg (by linarith)]; ring

/-- NearMag magnitude of `|q|`. -/
theorem rnMag_mono {f : Fmt} (hf : 0 < f.mb) {p q : ℚ} (h : |p| ≤ |q|) : rnMag f p ≤ rnMag f q := by
  unfold rnMag
  apply min_le_min_right
  refine (roundMag_nearest f.mb _ _ hf p.den_pos).mono (roundMag_nearest f.mb _ _ hf q.den_pos) ?_
  rwa [natAbs_num_div_den, natAbs_num_div_den]

theorem rn_nonneg {f : Fmt} {q : ℚ} (h : 0 ≤ q) : 0 ≤ rn f q := by
  unfold rn
  rw [if_neg (by linarith)]
  positivity

theorem rn_mono {f : Fmt} (hf : 0 < f.mb) {p q : ℚ} (h : p ≤ q) : rn f p ≤ rn f q := by
  have hs := scale_pos f
  rcases le_total 0 p with hp | hp
  · have hq : 0 ≤ q := le_trans hp h
    unfold rn
    rw [if_neg (by linarith), if_neg (by linarith), div_le_div_iff_of_pos_right hs]
    have := rnMag_mono hf (f := f) (p := p * 2 ^ f.scale) (q := q * 2 ^ f.scale) (by
      rw [abs_of_nonneg (by positivity), abs_of_nonneg (by positivity)]; nlinarith)
    exact_mod_cast magInt_le.2 this
  · rcases le_total 0 q with hq | hq
    · have h1 : rn f p ≤ 0 := by
        have := rn_nonneg (f := f) (q := -p) (by linarith)
        rw [rn_neg hf] at this; linarith
      exact le_trans h1 (rn_nonneg hq)
    · rw [← neg_neg p, ← neg_neg q, rn_neg hf, rn_neg hf (-q)]
      apply neg_le_neg
      unfold rn
      rw [if_neg (by linarith), if_neg (by linarith), div_le_div_iff_of_pos_right hs]
      have := rnMag_mono hf (f := f) (p := -q * 2 ^ f.scale) (q := -p * 2 ^ f.scale) (by
        rw [abs_of_nonneg (mul_nonneg (by linarith) hs.le), abs_of_nonneg (mul_nonneg (by linarith) hs.le)]; nlinarith)
      exact_mod_cast magInt_le.2 this

theorem rnMag_exact {f : Fmt} (hf : 0 < f.mb) {m : Nat} (hm : m ≤ f.infMag) {q : ℚ} (hq : |q| = magInt f.mb m) :
    rnMag f q = m := by
  have : roundMag f.mb (magInt f.mb m) 1 = m := roundMag_exact hf (by omega) (by simp)
  have h2 := roundMag_of_rat (mb := f.mb) (num := magInt f.mb m) (den := 1) hf (by omega) (q := q) (by simpa using hq)
  simp only [rnMag, ← h2, this]
  omega

/-- Values of floats are not changed. -/
theorem rn_val {f : Fmt} (hf : 0 < f.mb) {x : FP} (hm : x.m ≤ f.infMag) : rn f (x.val f) = x.val f := by
  have hs := scale_pos f
  have h1 : x.val f * 2 ^ f.scale = x.int f := by simp only [FP.val]; field_simp
  have habs : |(x.int f : ℚ)| = magInt f.mb x.m := by
    simp only [FP.int]
    split
    · push_cast; rw [abs_neg, abs_of_nonneg (by positivity)]
    · push_cast; rw [abs_of_nonneg (by positivity)]
  unfold rn
  rw [h1, rnMag_exact hf hm habs]
  congr 1
  by_cases h0 : x.val f < 0
  · rw [if_pos h0]
    have : (x.int f : ℚ) < 0 := by
      rw [← h1]; exact mul_neg_of_neg_of_pos h0 hs
    rw [abs_of_neg this] at habs; linarith
  · rw [if_neg h0]
    have : (0 : ℚ) ≤ x.int f := by
      rw [← h1]; exact mul_nonneg (by linarith) hs.le
    rw [abs_of_nonneg this] at habs; linarith

theorem top_eq_val (f : Fmt) : f.top = FP.val f ⟨false, f.infMag⟩ := by simp [Fmt.top, FP.val, FP.int]
theorem maxVal_eq_val (f : Fmt) : f.maxVal = FP.val f ⟨false, f.infMag - 1⟩ := by simp [Fmt.maxVal, FP.val, FP.int]

theorem abs_rn {f : Fmt} (hf : 0 < f.mb) (q : ℚ) : |rn f q| = rn f |q| := by
  rcases le_total 0 q with h | h
  · rw [abs_of_nonneg (rn_nonneg h), abs_of_nonneg h]
  · rw [abs_of_nonpos h, rn_neg hf, abs_of_nonpos]
    have := rn_nonneg (f := f) (q := -q) (by linarith)
    rw [rn_neg hf] at this; linarith

theorem rn_le_top {f : Fmt} (q : ℚ) : |rn f q| ≤ f.top := by
  have hs := scale_pos f
  unfold rn Fmt.top
  rw [abs_div, abs_of_pos hs, div_le_div_iff_of_pos_right hs]
  have : magInt f.mb (rnMag f (q * 2 ^ f.scale)) ≤ magInt f.mb f.infMag := magInt_le.2 (min_le_right _ _)
  split
  · rw [abs_neg, abs_of_nonneg (by positivity)]; exact_mod_cast this
  · rw [abs_of_nonneg (by positivity)]; exact_mod_cast this

/-- Numbers up to the largest finite float stay finite. -/
theorem rn_lt_top {f : Fmt} (hf : 0 < f.mb) (hi : 0 < f.infMag) {q : ℚ} (h : |q| ≤ f.maxVal) : |rn f q| < f.top := by
  rw [abs_rn hf]
  refine lt_of_le_of_lt (rn_mono hf h) ?_
  rw [maxVal_eq_val, rn_val hf (by simp), ← maxVal_eq_val]
  unfold Fmt.maxVal Fmt.top
  rw [div_lt_div_iff_of_pos_right (scale_pos f)]
  exact_mod_cast magInt_lt.2 (by omega)

/-- The error of a rounding that does not overflow. -/
theorem rn_err {f : Fmt} (hf : 0 < f.mb) {q : ℚ} (h : |rn f q| < f.top) :
    |rn f q - q| ≤ max (1 / 2 ^ (f.scale + 1)) (|q| / 2 ^ (f.mb + 1)) := by
  have hs := scale_pos f
  have key : ∀ p : ℚ, 0 ≤ p → rn f p < f.top → |rn f p - p| ≤ max (1 / 2 ^ (f.scale + 1)) (p / 2 ^ (f.mb + 1)) := by
    intro p hp h
    have h1 := roundMag_err f.mb (p * 2 ^ f.scale).num.natAbs (p * 2 ^ f.scale).den (Rat.den_pos _)
    rw [natAbs_num_div_den, abs_of_nonneg (a := p * 2 ^ f.scale) (mul_nonneg hp hs.le)] at h1
    unfold rn at h ⊢
    rw [if_neg (by linarith)] at h ⊢
    have hlt : rnMag f (p * 2 ^ f.scale) < f.infMag := by
      rw [Fmt.top, div_lt_div_iff_of_pos_right hs] at h
      exact magInt_lt.1 (by exact_mod_cast h)
    have hm : rnMag f (p * 2 ^ f.scale) = roundMag f.mb (p * 2 ^ f.scale).num.natAbs (p * 2 ^ f.scale).den := by
      unfold rnMag at hlt ⊢; omega
    rw [hm]
    have h2 : (magInt f.mb (roundMag f.mb (p * 2 ^ f.scale).num.natAbs (p * 2 ^ f.scale).den) : ℚ) / 2 ^ f.scale - p =
        ((magInt f.mb (roundMag f.mb (p * 2 ^ f.scale).num.natAbs (p * 2 ^ f.scale).den) : ℚ) - p * 2 ^ f.scale) /
          2 ^ f.scale := by field_simp
    rw [h2, abs_div, abs_of_pos hs, div_le_iff₀ hs, max_mul_of_nonneg _ _ hs.le]
    have e1 : (1 : ℚ) / 2 ^ (f.scale + 1) * 2 ^ f.scale = 1 / 2 := by rw [pow_succ]; field_simp
    have e2 : p / 2 ^ (f.mb + 1) * 2 ^ f.scale = p * 2 ^ f.scale / 2 ^ (f.mb + 1) := by ring
    rw [e1, e2]
    exact h1
  rcases le_total 0 q with hq | hq
  · rw [abs_of_nonneg hq]
    rw [abs_of_nonneg (rn_nonneg hq)] at h
    exact key q hq h
  · have := key (-q) (by linarith) (by
      rw [abs_rn hf, abs_of_nonpos hq] at h; exact h)
    rw [rn_neg hf] at this
    rw [abs_of_nonpos hq, abs_sub_comm]
    convert this using 2
    ring

/-- Multiples of the smallest positive float are rounded with a relative error only. -/
theorem rn_err_int {f : Fmt} (hf : 0 < f.mb) {q : ℚ} (h : |rn f q| < f.top) {n : Int} (hn : q * 2 ^ f.scale = n) :
    |rn f q - q| ≤ |q| / 2 ^ (f.mb + 1) := by
  have hs := scale_pos f
  by_cases hbig : 2 ^ (f.mb + 1) ≤ n.natAbs
  · refine le_trans (rn_err hf h) (max_le ?_ (le_refl _))
    have h1 : (2 ^ (f.mb + 1) : ℚ) ≤ |q| * 2 ^ f.scale := by
      have : |q| * 2 ^ f.scale = |(n : ℚ)| := by rw [← hn, abs_mul, abs_of_pos hs]
      rw [this, ← Int.cast_abs, ← Nat.cast_natAbs]
      exact_mod_cast hbig
    rw [div_le_div_iff₀ (by positivity) (by positivity), pow_succ 2 f.scale]
    have : (0 : ℚ) ≤ |q| * 2 ^ f.scale := by positivity
    linarith
  · obtain ⟨m, hm⟩ := exists_mag f.mb n.natAbs 0 (by omega)
    simp only [pow_zero, Nat.mul_one] at hm
    by_cases hle : m ≤ f.infMag
    · have : q = FP.val f ⟨decide (n < 0), m⟩ := by
        have : (FP.int f ⟨decide (n < 0), m⟩ : ℚ) = n := by
          simp only [FP.int, hm]
          by_cases h0 : n < 0
          · simp only [h0, decide_true, if_true]
            have : -((n.natAbs : Nat) : Int) = n := by omega
            exact_mod_cast this
          · simp only [h0, decide_false, Bool.false_eq_true, if_false]
            have : ((n.natAbs : Nat) : Int) = n := by omega
            exact_mod_cast this
        rw [FP.val, this, ← hn]; field_simp
      rw [this, rn_val hf hle, sub_self, abs_zero]
      positivity
    · exfalso
      have : f.top ≤ |rn f q| := by
        rw [abs_rn hf, top_eq_val, ← rn_val hf (x := ⟨false, f.infMag⟩) (le_refl _), ← top_eq_val]
        apply rn_mono hf
        rw [Fmt.top, div_le_iff₀ hs]
        have h2 : |q| * 2 ^ f.scale = magInt f.mb m := by
          have : |q| * 2 ^ f.scale = |(n : ℚ)| := by rw [← hn, abs_mul, abs_of_pos hs]
          rw [this, ← Int.cast_abs, ← Nat.cast_natAbs, hm]
        rw [h2]
        exact_mod_cast magInt_le.2 (by omega)
      linarith

theorem magInt_eq_zero (mb m : Nat) : magInt mb m = 0 ↔ m = 0 := by
  have := @magInt_inj mb m 0
  rwa [magInt_zero] at this

/-! ## Operations on split floats -/

namespace FP

theorem key_lt_iff (f : Fmt) (x y : FP) : x.key < y.key ↔ x.val f < y.val f := by
  unfold val
  rw [div_lt_div_iff_of_pos_right (scale_pos f), Int.cast_lt]
  unfold key int
  have h1 := @magInt_lt f.mb x.m y.m
  have h2 := @magInt_lt f.mb y.m x.m
  have h3 := magInt_eq_zero f.mb x.m
  have h4 := magInt_eq_zero f.mb y.m
  split <;> split <;> omega

theorem key_eq_iff (f : Fmt) (x y : FP) : x.key = y.key ↔ x.val f = y.val f := by
  have h1 := key_lt_iff f x y
  have h2 := key_lt_iff f y x
  constructor
  · intro h
    apply le_antisymm
    · apply not_lt.1; rw [← h2]; omega
    · apply not_lt.1; rw [← h1]; omega
  · intro h
    rw [h] at h1 h2
    simp only [lt_irrefl, iff_false] at h1 h2
    omega

theorem val_neg (f : Fmt) (x : FP) : x.neg.val f = -x.val f := by
  unfold val neg int
  cases x.s <;> simp [neg_div]

/-- The value of a rounding. -/
theorem val_round {f : Fmt} (hf : 0 < f.mb) (s : Bool) (num den : Nat) (hd : 0 < den) :
    (round f s num den).val f = rn f ((if s then -1 else 1) * ((num : ℚ) / den / 2 ^ f.scale)) := by
  have hs := scale_pos f
  have key : (round f false num den).val f = rn f ((num : ℚ) / den / 2 ^ f.scale) := by
    unfold rn
    have h0 : (0 : ℚ) ≤ (num : ℚ) / den / 2 ^ f.scale := by positivity
    rw [if_neg (by linarith), div_mul_cancel₀ _ hs.ne']
    simp only [val, round, int, rnMag]
    have := roundMag_of_rat (mb := f.mb) hf hd (q := (num : ℚ) / den) (abs_of_nonneg (by positivity))
    rw [← this]
    rfl
  cases s with
  | false => simpa using key
  | true =>
    rw [show round f true num den = (round f false num den).neg from rfl, val_neg, key]
    simp only [if_true, neg_one_mul, rn_neg hf]

theorem round_m_le (f : Fmt) (s : Bool) (num den : Nat) : (round f s num den).m ≤ f.infMag := min_le_right _ _

theorem val_of_m_zero (f : Fmt) (s : Bool) : val f ⟨s, 0⟩ = 0 := by cases s <;> simp [val, int]

theorem abs_val (f : Fmt) (x : FP) : |x.val f| = magInt f.mb x.m / 2 ^ f.scale := by
  unfold val int
  rw [abs_div, abs_of_pos (scale_pos f)]
  split <;> push_cast
  · rw [abs_neg, abs_of_nonneg (by positivity)]
  · rw [abs_of_nonneg (by positivity)]

theorem finite_iff (f : Fmt) (x : FP) : x.m < f.infMag ↔ |x.val f| < f.top := by
  rw [abs_val, Fmt.top, div_lt_div_iff_of_pos_right (scale_pos f), Nat.cast_lt, magInt_lt]

theorem val_eq_zero (f : Fmt) (x : FP) : x.val f = 0 ↔ x.m = 0 := by
  rw [← abs_eq_zero, abs_val, div_eq_zero_iff, or_iff_left (scale_pos f).ne', Nat.cast_eq_zero,
    magInt_eq_zero]

theorem notNaN_of_finite {f : Fmt} {x : FP} (h : x.m < f.infMag) : x.isNaN f = false ∧ x.isInf f = false := by
  simp only [isNaN, isInf, decide_eq_false_iff_not, beq_eq_false_iff_ne]
  omega

theorem val_scale (f : Fmt) (x : FP) : x.val f * 2 ^ f.scale = x.int f := by
  have := scale_pos f
  unfold val; field_simp

theorem val_add {f : Fmt} (hf : 0 < f.mb) {x y : FP} (hx : x.m < f.infMag) (hy : y.m < f.infMag) :
    (add f x y).val f = rn f (x.val f + y.val f) := by
  have hs := scale_pos f
  obtain ⟨a1, a2⟩ := notNaN_of_finite hx
  obtain ⟨b1, b2⟩ := notNaN_of_finite hy
  simp only [add, a1, a2, b1, b2, Bool.or_self, Bool.false_eq_true, if_false]
  have hsum : x.val f + y.val f = ((x.int f + y.int f : Int) : ℚ) / 2 ^ f.scale := by
    unfold val; push_cast; ring
  rw [hsum]
  generalize x.int f + y.int f = t
  split
  · rename_i h0
    subst h0
    rw [val_of_m_zero]
    simp only [Int.cast_zero, zero_div]
    rw [← val_of_m_zero f false, rn_val hf (by simp)]
  · rw [val_round hf _ _ _ (by omega)]
    congr 1
    by_cases h : t < 0
    · simp only [h, decide_true, if_true, Nat.cast_one, div_one, Nat.cast_natAbs, abs_of_neg h]
      push_cast; ring
    · simp only [h, decide_false, Bool.false_eq_true, if_false, Nat.cast_one, div_one, Nat.cast_natAbs,
        abs_of_nonneg (not_lt.1 h), one_mul]

theorem val_sub {f : Fmt} (hf : 0 < f.mb) {x y : FP} (hx : x.m < f.infMag) (hy : y.m < f.infMag) :
    (sub f x y).val f = rn f (x.val f - y.val f) := by
  rw [sub, val_add hf hx (show y.neg.m < _ from hy), val_neg, sub_eq_add_neg]

theorem add_m_le {f : Fmt} {x y : FP} (hx : x.m < f.infMag) (hy : y.m < f.infMag) : (add f x y).m ≤ f.infMag := by
  obtain ⟨a1, a2⟩ := notNaN_of_finite hx
  obtain ⟨b1, b2⟩ := notNaN_of_finite hy
  simp only [add, a1, a2, b1, b2, Bool.or_self, Bool.false_eq_true, if_false]
  split
  · exact Nat.zero_le _
  · exact round_m_le ..

theorem sign_int (f : Fmt) (x : FP) : (x.int f : ℚ) = (if x.s then -1 else 1) * (magInt f.mb x.m : ℚ) := by
  unfold int; split <;> push_cast <;> ring

theorem val_mul {f : Fmt} (hf : 0 < f.mb) {x y : FP} (hx : x.m < f.infMag) (hy : y.m < f.infMag) :
    (mul f x y).val f = rn f (x.val f * y.val f) := by
  have hs := scale_pos f
  obtain ⟨a1, a2⟩ := notNaN_of_finite hx
  obtain ⟨b1, b2⟩ := notNaN_of_finite hy
  simp only [mul, a1, a2, b1, b2, Bool.or_self, Bool.false_eq_true, if_false]
  rw [val_round hf _ _ _ (by positivity)]
  congr 1
  unfold val
  rw [sign_int, sign_int]
  cases x.s <;> cases y.s <;> simp <;> field_simp

theorem mul_m_le {f : Fmt} {x y : FP} (hx : x.m < f.infMag) (hy : y.m < f.infMag) : (mul f x y).m ≤ f.infMag := by
  obtain ⟨a1, a2⟩ := notNaN_of_finite hx
  obtain ⟨b1, b2⟩ := notNaN_of_finite hy
  simp only [mul, a1, a2, b1, b2, Bool.or_self, Bool.false_eq_true, if_false]
  exact round_m_le ..

theorem val_div {f : Fmt} (hf : 0 < f.mb) {x y : FP} (hx : x.m < f.infMag) (hy : y.m < f.infMag) (h0 : y.m ≠ 0) :
    (div f x y).val f = rn f (x.val f / y.val f) := by
  have hs := scale_pos f
  obtain ⟨a1, a2⟩ := notNaN_of_finite hx
  obtain ⟨b1, b2⟩ := notNaN_of_finite hy
  have hm : 0 < magInt f.mb y.m := by
    have := @magInt_lt f.mb 0 y.m
    rw [magInt_zero] at this; omega
  simp only [div, a1, a2, b1, b2, Bool.or_self, Bool.false_eq_true, if_false, beq_iff_eq, h0]
  rw [val_round hf _ _ _ hm]
  congr 1
  unfold val
  rw [sign_int, sign_int]
  have : (magInt f.mb y.m : ℚ) ≠ 0 := by exact_mod_cast hm.ne'
  cases x.s <;> cases y.s <;> simp <;> field_simp

theorem div_m_le {f : Fmt} {x y : FP} (hx : x.m < f.infMag) (hy : y.m < f.infMag) (h0 : y.m ≠ 0) :
    (div f x y).m ≤ f.infMag := by
  obtain ⟨a1, a2⟩ := notNaN_of_finite hx
  obtain ⟨b1, b2⟩ := notNaN_of_finite hy
  simp only [div, a1, a2, b1, b2, Bool.or_self, Bool.false_eq_true, if_false, beq_iff_eq, h0]
  exact round_m_le ..

theorem val_ofInt {f : Fmt} (hf : 0 < f.mb) (i : Int) : (ofInt f i).val f = rn f i := by
  have hs := scale_pos f
  rw [ofInt, val_round hf _ _ _ (by omega)]
  congr 1
  push_cast [Nat.cast_natAbs]
  by_cases h : i < 0
  · simp only [h, decide_true, if_true, div_one]
    rw [abs_of_neg (by exact_mod_cast h)]
    field_simp
  · simp only [h, decide_false, Bool.false_eq_true, if_false, div_one]
    rw [abs_of_nonneg (by exact_mod_cast not_lt.1 h)]
    field_simp

theorem val_floor {f : Fmt} (hf : 0 < f.mb) {x : FP} (hx : x.m < f.infMag) :
    (floor f x).val f = rn f ⌊x.val f⌋ := by
  have hs := scale_pos f
  obtain ⟨a1, a2⟩ := notNaN_of_finite hx
  simp only [floor, a1, a2, Bool.or_self, Bool.false_or]
  split
  · rename_i h0
    simp only [beq_iff_eq] at h0
    have : x.val f = 0 := (val_eq_zero f x).2 h0
    rw [this, Int.floor_zero, Int.cast_zero]
    conv_rhs => rw [← val_of_m_zero f false, rn_val hf (by simp)]
    rw [val_of_m_zero]
  · have hfl : ⌊x.val f⌋ = x.int f / ((2 ^ f.scale : Nat) : Int) := by
      rw [val, show (2 ^ f.scale : ℚ) = ((2 ^ f.scale : Nat) : ℚ) by push_cast; rfl]
      exact Rat.floor_intCast_div_natCast _ _
    rw [hfl]
    generalize x.int f / ((2 ^ f.scale : Nat) : Int) = i
    rw [val_round hf _ _ _ (by omega)]
    congr 1
    push_cast [Nat.cast_natAbs]
    by_cases h : i < 0
    · simp only [h, decide_true, if_true, div_one]
      rw [abs_of_neg (by exact_mod_cast h)]
      field_simp
    · simp only [h, decide_false, Bool.false_eq_true, if_false, div_one]
      rw [abs_of_nonneg (by exact_mod_cast not_lt.1 h)]
      field_simp

theorem val_convert {f g : Fmt} (hg : 0 < g.mb) {x : FP} (hx : x.m < f.infMag) :
    (convert f g x).val g = rn g (x.val f) := by
  have hs := scale_pos f
  have hs' := scale_pos g
  obtain ⟨a1, a2⟩ := notNaN_of_finite hx
  simp only [convert, a1, a2, Bool.false_eq_true, if_false]
  rw [val_round hg _ _ _ (by positivity)]
  congr 1
  unfold val
  rw [sign_int]
  push_cast
  field_simp

theorem convert_m_le {f g : Fmt} {x : FP} (hx : x.m < f.infMag) : (convert f g x).m ≤ g.infMag := by
  obtain ⟨a1, a2⟩ := notNaN_of_finite hx
  simp only [convert, a1, a2, Bool.false_eq_true, if_false]
  exact round_m_le ..

end FP
end Rap
