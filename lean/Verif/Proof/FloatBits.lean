import Verif.Proof.FloatOps
import Verif.Spec.Number

/-!
# Bit patterns
-/

namespace Rap

theorem b64_mb : 0 < b64.mb := by decide
theorem b32_mb : 0 < b32.mb := by decide
theorem b64_inf : b64.infMag = 2047 * 2 ^ 52 := rfl
theorem b32_inf : b32.infMag = 255 * 2 ^ 23 := rfl
theorem b64_scale : b64.scale = 1074 := rfl
theorem b32_scale : b32.scale = 149 := rfl

/-- The datum of a split float. -/
def FP.number (f : Fmt) (x : FP) : Number :=
  if f.infMag < x.m then .nan
  else if x.m = f.infMag then (if x.s then .ninf else .pinf)
  else .fin (x.val f)

theorem FP.number_fin {f : Fmt} {x : FP} (h : x.m < f.infMag) : x.number f = .fin (x.val f) := by
  simp [FP.number, Nat.not_lt.2 h.le, h.ne]

/-- Order of split floats. -/
theorem FP.lt_number (f : Fmt) (hi : 0 < f.infMag) (x y : FP) :
    FP.lt f x y = true ↔ (x.number f).lt (y.number f) := by
  simp only [FP.lt, FP.isNaN, Bool.and_eq_true, Bool.not_eq_true', decide_eq_false_iff_not, decide_eq_true_eq]
  by_cases hx : f.infMag < x.m
  · simp [FP.number, hx, Number.lt]
  by_cases hy : f.infMag < y.m
  · simp only [hy, not_true_eq_false, and_false, false_and, false_iff]
    simp only [FP.number, hx, hy, if_true, if_false]
    split
    · split <;> simp [Number.lt]
    · simp [Number.lt]
  simp only [hx, hy, not_false_eq_true, true_and]
  by_cases hxi : x.m = f.infMag
  · by_cases hyi : y.m = f.infMag
    · simp only [FP.number, hxi, hyi, if_true, FP.key]
      cases x.s <;> cases y.s <;> simp [Number.lt] <;> omega
    · simp only [FP.number, hxi, hyi, if_true, if_false, FP.key, hy]
      cases x.s <;> cases y.s <;> simp [Number.lt] <;> omega
  · by_cases hyi : y.m = f.infMag
    · simp only [FP.number, hxi, hyi, if_true, if_false, FP.key, hx]
      cases x.s <;> cases y.s <;> simp [Number.lt] <;> omega
    · rw [FP.number_fin (by omega), FP.number_fin (by omega), FP.key_lt_iff f]
      rfl

theorem FP.eq_number (f : Fmt) (hi : 0 < f.infMag) (x y : FP) :
    FP.eq f x y = true ↔ (x.number f = y.number f ∧ x.number f ≠ .nan) := by
  simp only [FP.eq, FP.isNaN, Bool.and_eq_true, Bool.not_eq_true', decide_eq_false_iff_not, decide_eq_true_eq]
  by_cases hx : f.infMag < x.m
  · simp [FP.number, hx]
  by_cases hy : f.infMag < y.m
  · simp only [hy, not_true_eq_false, and_false, false_and, false_iff]
    simp only [FP.number, hx, hy, if_true, if_false]
    split
    · split <;> simp
    · simp
  simp only [hx, hy, not_false_eq_true, true_and]
  by_cases hxi : x.m = f.infMag
  · by_cases hyi : y.m = f.infMag
    · simp only [FP.number, hxi, hyi, if_true, FP.key]
      cases x.s <;> cases y.s <;> simp <;> omega
    · simp only [FP.number, hxi, hyi, if_true, if_false, FP.key, hy]
      cases x.s <;> cases y.s <;> simp <;> omega
  · by_cases hyi : y.m = f.infMag
    · simp only [FP.number, hxi, hyi, if_true, if_false, FP.key, hx]
      cases x.s <;> cases y.s <;> simp <;> omega
    · rw [FP.number_fin (by omega), FP.number_fin (by omega), FP.key_eq_iff f]
      simp

/-- The datum of sign, exponent and fraction fields. -/
theorem number_eq (f : Fmt) (s : Nat) (x : FP) (hs : s = 0 ↔ x.s = false) (hm : x.m / 2 ^ f.mb ≤ 2 ^ f.eb - 1) :
    number f.mb (2 ^ f.eb - 1) f.scale s (x.m / 2 ^ f.mb) (x.m % 2 ^ f.mb) = x.number f := by
  have hp : 0 < 2 ^ f.mb := by positivity
  have hdm := Nat.div_add_mod x.m (2 ^ f.mb)
  have hr := Nat.mod_lt x.m hp
  by_cases he : x.m / 2 ^ f.mb = 2 ^ f.eb - 1
  · have hinf : x.m = f.infMag + x.m % 2 ^ f.mb := by rw [Fmt.infMag, ← he, Nat.mul_comm]; exact hdm.symm
    by_cases hf : x.m % 2 ^ f.mb = 0
    · have hxm : x.m = f.infMag := by omega
      have h1 : x.number f = if x.s then .ninf else .pinf := by simp [FP.number, hxm]
      have h2 : number f.mb (2 ^ f.eb - 1) f.scale s (x.m / 2 ^ f.mb) (x.m % 2 ^ f.mb) =
          if s = 0 then .pinf else .ninf := by rw [number, he, hf]; simp
      rw [h1, h2]
      cases h : x.s <;> simp [hs, h]
    · have h1 : x.number f = .nan := by simp [FP.number]; omega
      have h2 : number f.mb (2 ^ f.eb - 1) f.scale s (x.m / 2 ^ f.mb) (x.m % 2 ^ f.mb) = .nan := by
        rw [number, he, if_pos rfl, if_neg hf]
      rw [h1, h2]
  · have hlt : x.m < f.infMag := by
      rw [Fmt.infMag]
      exact (Nat.div_lt_iff_lt_mul hp).1 (by omega)
    rw [FP.number_fin hlt, number]
    rw [if_neg he]
    congr 1
    have hsign : (if s = 0 then (1 : ℚ) else -1) = if x.s then -1 else 1 := by cases h : x.s <;> simp [hs, h]
    rw [FP.val, FP.sign_int, hsign]
    simp only [magInt]
    by_cases h0 : x.m / 2 ^ f.mb = 0
    · rw [if_pos h0, if_pos h0, Nat.mod_eq_of_lt ((Nat.div_eq_zero_iff_lt hp).1 h0)]; ring
    · rw [if_neg h0, if_neg h0]; push_cast; ring

namespace F64

theorem fp_m_lt (x : F64) : x.fp.m < 2 ^ 63 := Nat.mod_lt _ (by positivity)

theorem ofFP_fp (x : F64) : ofFP x.fp = x := by
  have := x.isLt
  apply BitVec.eq_of_toNat_eq
  simp only [ofFP, fp, BitVec.toNat_ofNat, decide_eq_true_eq]
  split <;> omega

theorem fp_ofFP {x : FP} (h : x.m < 2 ^ 63) : (ofFP x).fp = x := by
  obtain ⟨s, m⟩ := x
  simp only at h
  simp only [ofFP, fp, BitVec.toNat_ofNat]
  cases s
  · have e : (m : Nat) % 2 ^ 64 = m := Nat.mod_eq_of_lt (by omega)
    simp only [Bool.false_eq_true, if_false, Nat.zero_add, e, FP.mk.injEq, decide_eq_false_iff_not]
    omega
  · have e : (2 ^ 63 + m) % 2 ^ 64 = 2 ^ 63 + m := Nat.mod_eq_of_lt (by omega)
    simp only [if_true, e, FP.mk.injEq, decide_eq_true_eq]
    omega

theorem number_fp (x : F64) : number64 x = x.fp.number b64 := by
  have hlt := x.isLt
  have h1 : x.toNat / 2 ^ 52 % 2048 = x.fp.m / 2 ^ 52 := by simp only [fp]; omega
  have h2 : x.toNat % 2 ^ 52 = x.fp.m % 2 ^ 52 := by simp only [fp]; omega
  have h3 : (x.toNat / 2 ^ 63 = 0) ↔ x.fp.s = false := by simp only [fp, decide_eq_false_iff_not]; omega
  have hm := x.fp_m_lt
  unfold number64
  rw [h1, h2]
  exact number_eq b64 _ x.fp h3 (by show x.fp.m / 2 ^ 52 ≤ 2047; omega)

theorem finite_iff (x : F64) : x.isFinite = true ↔ x.fp.m < b64.infMag := by simp [isFinite]

theorem toRat_fin {x : F64} (h : x.isFinite = true) : x.toRat = x.fp.val b64 := by
  simp only [toRat, h, if_true, FP.val]

/-- `isFinite` and `toRat` are what the bit pattern says. -/
theorem finite_number (x : F64) : x.isFinite = true ↔ ∃ q, number64 x = .fin q := by
  rw [number_fp, finite_iff]
  constructor
  · intro h; exact ⟨_, FP.number_fin h⟩
  · rintro ⟨q, h⟩
    by_contra hc
    unfold FP.number at h
    split at h
    · cases h
    · split at h
      · split at h <;> cases h
      · omega

theorem number_fin {x : F64} (h : x.isFinite = true) : number64 x = .fin x.toRat := by
  rw [number_fp, FP.number_fin ((finite_iff x).1 h), toRat_fin h]

theorem isNaN_number (x : F64) : x.isNaN = true ↔ number64 x = .nan := by
  rw [number_fp, isNaN, FP.isNaN, decide_eq_true_eq, FP.number]
  constructor
  · intro h; rw [if_pos h]
  · intro h
    split at h
    · assumption
    · split at h <;> [split at h; skip] <;> cases h

theorem lt_number (x y : F64) : x.lt y = true ↔ (number64 x).lt (number64 y) := by
  rw [lt, FP.lt_number b64 (by decide), number_fp, number_fp]

theorem le_number (x y : F64) : x.le y = true ↔ (number64 x).le (number64 y) := by
  rw [le, Bool.or_eq_true, FP.lt_number b64 (by decide), FP.eq_number b64 (by decide), number_fp, number_fp]
  rfl

theorem lt_iff {x y : F64} (hx : x.isFinite = true) (hy : y.isFinite = true) : x.lt y = true ↔ x.toRat < y.toRat := by
  rw [lt_number, number_fin hx, number_fin hy]; rfl

theorem le_iff {x y : F64} (hx : x.isFinite = true) (hy : y.isFinite = true) : x.le y = true ↔ x.toRat ≤ y.toRat := by
  rw [le_number, number_fin hx, number_fin hy]
  simp [Number.le, Number.lt, le_iff_lt_or_eq]

/-- A result given as a split float. -/
theorem of_val {p : FP} (hm : p.m ≤ b64.infMag) :
    ((ofFP p).isFinite = true ↔ |p.val b64| < b64.top) ∧
      ((ofFP p).isFinite = true → (ofFP p).toRat = p.val b64) ∧ (ofFP p).isNaN = false := by
  have h63 : p.m < 2 ^ 63 := by rw [b64_inf] at hm; omega
  refine ⟨?_, ?_, ?_⟩
  · rw [finite_iff, fp_ofFP h63, FP.finite_iff]
  · intro h; rw [toRat_fin h, fp_ofFP h63]
  · simp only [isNaN, fp_ofFP h63, FP.isNaN, decide_eq_false_iff_not]; omega

theorem val_eq {x : F64} (h : x.isFinite = true) : x.fp.val b64 = x.toRat := (toRat_fin h).symm

/-- Summary of an operation: finite iff the rounded result is below the top, and then it is the rounded result. -/
structure Is (z : F64) (v : ℚ) : Prop where
  fin : z.isFinite = true ↔ |v| < b64.top
  val : z.isFinite = true → z.toRat = v
  nn : z.isNaN = false

theorem is_of_val {p : FP} {v : ℚ} (hm : p.m ≤ b64.infMag) (hv : p.val b64 = v) : Is (ofFP p) v := by
  obtain ⟨h1, h2, h3⟩ := of_val hm
  exact ⟨by rw [← hv]; exact h1, fun h => by rw [← hv]; exact h2 h, h3⟩

theorem is_add {x y : F64} (hx : x.isFinite = true) (hy : y.isFinite = true) :
    Is (x.add y) (rn b64 (x.toRat + y.toRat)) := by
  rw [← val_eq hx, ← val_eq hy]
  exact is_of_val (FP.add_m_le ((finite_iff x).1 hx) ((finite_iff y).1 hy))
    (FP.val_add b64_mb ((finite_iff x).1 hx) ((finite_iff y).1 hy))

theorem is_sub {x y : F64} (hx : x.isFinite = true) (hy : y.isFinite = true) :
    Is (x.sub y) (rn b64 (x.toRat - y.toRat)) := by
  rw [← val_eq hx, ← val_eq hy]
  exact is_of_val (FP.add_m_le ((finite_iff x).1 hx) (show y.fp.neg.m < _ from (finite_iff y).1 hy))
    (FP.val_sub b64_mb ((finite_iff x).1 hx) ((finite_iff y).1 hy))

theorem is_mul {x y : F64} (hx : x.isFinite = true) (hy : y.isFinite = true) :
    Is (x.mul y) (rn b64 (x.toRat * y.toRat)) := by
  rw [← val_eq hx, ← val_eq hy]
  exact is_of_val (FP.mul_m_le ((finite_iff x).1 hx) ((finite_iff y).1 hy))
    (FP.val_mul b64_mb ((finite_iff x).1 hx) ((finite_iff y).1 hy))

theorem is_div {x y : F64} (hx : x.isFinite = true) (hy : y.isFinite = true) (h0 : y.toRat ≠ 0) :
    Is (x.div y) (rn b64 (x.toRat / y.toRat)) := by
  have : y.fp.m ≠ 0 := by rw [← val_eq hy] at h0; rwa [Ne, FP.val_eq_zero] at h0
  rw [← val_eq hx, ← val_eq hy]
  exact is_of_val (FP.div_m_le ((finite_iff x).1 hx) ((finite_iff y).1 hy) this)
    (FP.val_div b64_mb ((finite_iff x).1 hx) ((finite_iff y).1 hy) this)

theorem is_ofInt (i : Int) : Is (ofInt i) (rn b64 i) :=
  is_of_val (FP.round_m_le ..) (FP.val_ofInt b64_mb i)

/-- Values of float64s are not changed by rounding. -/
theorem rn_toRat {x : F64} (h : x.isFinite = true) : rn b64 x.toRat = x.toRat := by
  rw [toRat_fin h, rn_val b64_mb ((finite_iff x).1 h).le]

theorem toRat_lt_top {x : F64} (h : x.isFinite = true) : |x.toRat| < b64.top := by
  rw [toRat_fin h, ← FP.finite_iff]; exact (finite_iff x).1 h

/-- Every float64 is a multiple of the smallest positive one. -/
theorem toRat_scale (x : F64) (h : x.isFinite = true) : x.toRat * 2 ^ b64.scale = x.fp.int b64 := by
  rw [toRat_fin h, FP.val_scale]

/-- Sums and differences have a relative error only. -/
theorem rn_add_err {x y : F64} (hx : x.isFinite = true) (hy : y.isFinite = true)
    (h : |rn b64 (x.toRat + y.toRat)| < b64.top) :
    |rn b64 (x.toRat + y.toRat) - (x.toRat + y.toRat)| ≤ |x.toRat + y.toRat| / 2 ^ 53 := by
  refine rn_err_int b64_mb h (n := x.fp.int b64 + y.fp.int b64) ?_
  rw [add_mul, toRat_scale x hx, toRat_scale y hy]; push_cast; rfl

theorem rn_sub_err {x y : F64} (hx : x.isFinite = true) (hy : y.isFinite = true)
    (h : |rn b64 (x.toRat - y.toRat)| < b64.top) :
    |rn b64 (x.toRat - y.toRat) - (x.toRat - y.toRat)| ≤ |x.toRat - y.toRat| / 2 ^ 53 := by
  refine rn_err_int b64_mb h (n := x.fp.int b64 - y.fp.int b64) ?_
  rw [sub_mul, toRat_scale x hx, toRat_scale y hy]; push_cast; rfl

end F64

namespace F32

theorem fp_m_lt (x : F32) : x.fp.m < 2 ^ 31 := Nat.mod_lt _ (by positivity)

theorem ofFP_fp (x : F32) : ofFP x.fp = x := by
  have := x.isLt
  apply BitVec.eq_of_toNat_eq
  simp only [ofFP, fp, BitVec.toNat_ofNat, decide_eq_true_eq]
  split <;> omega

theorem fp_ofFP {x : FP} (h : x.m < 2 ^ 31) : (ofFP x).fp = x := by
  obtain ⟨s, m⟩ := x
  simp only at h
  simp only [ofFP, fp, BitVec.toNat_ofNat]
  cases s
  · have e : (m : Nat) % 2 ^ 32 = m := Nat.mod_eq_of_lt (by omega)
    simp only [Bool.false_eq_true, if_false, Nat.zero_add, e, FP.mk.injEq, decide_eq_false_iff_not]
    omega
  · have e : (2 ^ 31 + m) % 2 ^ 32 = 2 ^ 31 + m := Nat.mod_eq_of_lt (by omega)
    simp only [if_true, e, FP.mk.injEq, decide_eq_true_eq]
    omega

theorem number_fp (x : F32) : number32 x = x.fp.number b32 := by
  have hlt := x.isLt
  have h1 : x.toNat / 2 ^ 23 % 256 = x.fp.m / 2 ^ 23 := by simp only [fp]; omega
  have h2 : x.toNat % 2 ^ 23 = x.fp.m % 2 ^ 23 := by simp only [fp]; omega
  have h3 : (x.toNat / 2 ^ 31 = 0) ↔ x.fp.s = false := by simp only [fp, decide_eq_false_iff_not]; omega
  have hm := x.fp_m_lt
  unfold number32
  rw [h1, h2]
  exact number_eq b32 _ x.fp h3 (by show x.fp.m / 2 ^ 23 ≤ 255; omega)

theorem finite_iff (x : F32) : x.isFinite = true ↔ x.fp.m < b32.infMag := by simp [isFinite]

theorem toRat_fin {x : F32} (h : x.isFinite = true) : x.toRat = x.fp.val b32 := by
  simp only [toRat, h, if_true, FP.val]

theorem number_fin {x : F32} (h : x.isFinite = true) : number32 x = .fin x.toRat := by
  rw [number_fp, FP.number_fin ((finite_iff x).1 h), toRat_fin h]

/-- Summary of an operation, as for `F64.Is`. -/
structure Is (z : F32) (v : ℚ) : Prop where
  fin : z.isFinite = true ↔ |v| < b32.top
  val : z.isFinite = true → z.toRat = v
  nn : z.isNaN = false

theorem is_of_val {p : FP} {v : ℚ} (hm : p.m ≤ b32.infMag) (hv : p.val b32 = v) : Is (ofFP p) v := by
  have h31 : p.m < 2 ^ 31 := by rw [b32_inf] at hm; omega
  refine ⟨?_, ?_, ?_⟩
  · rw [finite_iff, fp_ofFP h31, FP.finite_iff, hv]
  · intro h; rw [toRat_fin h, fp_ofFP h31, hv]
  · simp only [isNaN, fp_ofFP h31, FP.isNaN, decide_eq_false_iff_not]; omega

theorem is_sub {x y : F32} (hx : x.isFinite = true) (hy : y.isFinite = true) :
    Is (x.sub y) (rn b32 (x.toRat - y.toRat)) := by
  rw [toRat_fin hx, toRat_fin hy]
  exact is_of_val (FP.add_m_le ((finite_iff x).1 hx) (show y.fp.neg.m < _ from (finite_iff y).1 hy))
    (FP.val_sub b32_mb ((finite_iff x).1 hx) ((finite_iff y).1 hy))

theorem rn_toRat {x : F32} (h : x.isFinite = true) : rn b32 x.toRat = x.toRat := by
  rw [toRat_fin h, rn_val b32_mb ((finite_iff x).1 h).le]

theorem toRat_lt_top {x : F32} (h : x.isFinite = true) : |x.toRat| < b32.top := by
  rw [toRat_fin h, ← FP.finite_iff]; exact (finite_iff x).1 h

end F32

/-! ## Conversions -/

theorem is_narrow {x : F64} (hx : x.isFinite = true) : F32.Is (narrow x) (rn b32 x.toRat) := by
  rw [F64.toRat_fin hx]
  exact F32.is_of_val (FP.convert_m_le ((F64.finite_iff x).1 hx)) (FP.val_convert b32_mb ((F64.finite_iff x).1 hx))

/-- A finite float32 magnitude as a float64 magnitude. -/
theorem widen_mag {m : Nat} (h : m < b32.infMag) :
    ∃ m', m' < b64.infMag ∧ magInt 52 m' = magInt 23 m * 2 ^ (b64.scale - b32.scale) := by
  obtain ⟨a, j, h1, h2, -⟩ := magInt_form 23 m
  obtain ⟨m', hm'⟩ := exists_mag 52 a (j + (b64.scale - b32.scale)) (by
    have : 2 ^ (23 + 1) ≤ 2 ^ (52 + 1) := by norm_num
    omega)
  have heq : magInt 52 m' = magInt 23 m * 2 ^ (b64.scale - b32.scale) := by rw [hm', h1, pow_add]; ring
  refine ⟨m', ?_, heq⟩
  rw [← magInt_lt (mb := 52), heq]
  have : magInt 23 m < magInt 23 b32.infMag := magInt_lt.2 h
  have e1 : magInt 23 b32.infMag = 2 ^ 277 := by decide +kernel
  have e2 : magInt 52 b64.infMag = 2 ^ 2098 := by decide +kernel
  rw [e1] at this
  rw [e2, b64_scale, b32_scale]
  calc magInt 23 m * 2 ^ (1074 - 149) < 2 ^ 277 * 2 ^ (1074 - 149) := Nat.mul_lt_mul_of_pos_right this (by positivity)
    _ = 2 ^ (277 + (1074 - 149)) := (pow_add ..).symm
    _ ≤ 2 ^ 2098 := Nat.pow_le_pow_right (by decide) (by decide)

/-- Widening is exact. -/
theorem widen_finite {x : F32} (hx : x.isFinite = true) : (widen x).isFinite = true ∧ (widen x).toRat = x.toRat := by
  have hx' := (F32.finite_iff x).1 hx
  have his := F64.is_of_val (FP.convert_m_le (f := b32) (g := b64) hx') (FP.val_convert b64_mb hx')
  obtain ⟨m', h1, h2⟩ := widen_mag hx'
  have hv : x.fp.val b32 = FP.val b64 ⟨x.fp.s, m'⟩ := by
    unfold FP.val
    rw [FP.sign_int, FP.sign_int]
    simp only [show b32.mb = 23 from rfl, show b64.mb = 52 from rfl, h2]
    have : (2 : ℚ) ^ b64.scale = 2 ^ b32.scale * 2 ^ (b64.scale - b32.scale) := by rw [← pow_add]; rfl
    rw [this]
    push_cast
    field_simp
  have hr : rn b64 (x.fp.val b32) = x.fp.val b32 := by rw [hv, rn_val b64_mb h1.le]
  rw [hr] at his
  have hfin : (widen x).isFinite = true := his.fin.2 (by rw [hv, ← FP.finite_iff]; exact h1)
  exact ⟨hfin, by rw [F32.toRat_fin hx]; exact his.val hfin⟩

end Rap
