import Verif.Proof.FloatBits
import Verif.Spec.Rounding
import Verif.Spec.Stored

/-!
# The arithmetic of the model rounds to nearest
-/

namespace Rap

/-- Half a unit past the largest finite number. -/
def Fmt.limit (f : Fmt) : ℚ := ((magInt f.mb (f.infMag - 1) + magInt f.mb f.infMag : Nat) : ℚ) / 2 / 2 ^ f.scale

theorem rnMag_near {f : Fmt} (hf : 0 < f.mb) (Q : ℚ) :
    NearMag f.mb |Q| (roundMag f.mb Q.num.natAbs Q.den) := by
  rw [← natAbs_num_div_den]; exact roundMag_nearest f.mb _ _ hf Q.den_pos

/-- Below the limit nothing overflows. -/
theorem rnMag_below {f : Fmt} (hf : 0 < f.mb) (hi : 0 < f.infMag) {q : ℚ} (h : |q| < f.limit) :
    rnMag f (q * 2 ^ f.scale) < f.infMag ∧ NearMag f.mb (|q| * 2 ^ f.scale) (rnMag f (q * 2 ^ f.scale)) := by
  have hs := scale_pos f
  have hn := rnMag_near hf (q * 2 ^ f.scale)
  rw [abs_mul, abs_of_pos hs] at hn
  have hlt : roundMag f.mb (q * 2 ^ f.scale).num.natAbs (q * 2 ^ f.scale).den < f.infMag := by
    by_contra hc
    have hc : f.infMag ≤ roundMag f.mb (q * 2 ^ f.scale).num.natAbs (q * 2 ^ f.scale).den := by omega
    generalize roundMag f.mb (q * 2 ^ f.scale).num.natAbs (q * 2 ^ f.scale).den = m at hn hc
    have h1 := (hn (f.infMag - 1)).1
    have h2 : (magInt f.mb f.infMag : ℚ) ≤ magInt f.mb m := by exact_mod_cast magInt_le.2 hc
    have h3 : (magInt f.mb (f.infMag - 1) : ℚ) < magInt f.mb f.infMag := by
      exact_mod_cast magInt_lt.2 (by omega)
    rw [Fmt.limit, lt_div_iff₀ hs] at h
    push_cast at h
    generalize |q| * 2 ^ f.scale = Q at h h1
    have h4 := le_abs_self ((magInt f.mb m : ℚ) - Q)
    rcases abs_cases ((magInt f.mb (f.infMag - 1) : ℚ) - Q) with ⟨e, -⟩ | ⟨e, -⟩ <;> rw [e] at h1 <;> linarith
  have : rnMag f (q * 2 ^ f.scale) = roundMag f.mb (q * 2 ^ f.scale).num.natAbs (q * 2 ^ f.scale).den := by
    unfold rnMag; omega
  rw [this]
  exact ⟨hlt, hn⟩

/-- From the limit on the result is an infinity. -/
theorem rnMag_above {f : Fmt} (hf : 0 < f.mb) (hi : 0 < f.infMag) (ho : f.infMag % 2 = 0) {q : ℚ} (h : f.limit ≤ |q|) :
    rnMag f (q * 2 ^ f.scale) = f.infMag := by
  have hs := scale_pos f
  have hn := rnMag_near hf (q * 2 ^ f.scale)
  rw [abs_mul, abs_of_pos hs] at hn
  suffices f.infMag ≤ roundMag f.mb (q * 2 ^ f.scale).num.natAbs (q * 2 ^ f.scale).den by unfold rnMag; omega
  by_contra hc
  have hc : roundMag f.mb (q * 2 ^ f.scale).num.natAbs (q * 2 ^ f.scale).den ≤ f.infMag - 1 := by omega
  generalize roundMag f.mb (q * 2 ^ f.scale).num.natAbs (q * 2 ^ f.scale).den = m at hn hc
  have h2 : (magInt f.mb m : ℚ) ≤ magInt f.mb (f.infMag - 1) := by exact_mod_cast magInt_le.2 hc
  have h3 : (magInt f.mb (f.infMag - 1) : ℚ) < magInt f.mb f.infMag := by exact_mod_cast magInt_lt.2 (by omega)
  obtain ⟨h1, h1'⟩ := hn f.infMag
  rw [Fmt.limit, div_le_iff₀ hs] at h
  push_cast at h
  generalize |q| * 2 ^ f.scale = Q at h h1 h1'
  have h5 : |(magInt f.mb m : ℚ) - Q| = Q - magInt f.mb m := by rw [abs_of_nonpos] <;> linarith
  rw [h5] at h1 h1'
  rcases abs_cases ((magInt f.mb f.infMag : ℚ) - Q) with ⟨e, -⟩ | ⟨e, -⟩
  · rw [e] at h1 h1'
    have hmm : (magInt f.mb m : ℚ) = magInt f.mb (f.infMag - 1) := by linarith
    have hm : m = f.infMag - 1 := by
      have : magInt f.mb m = magInt f.mb (f.infMag - 1) := by exact_mod_cast hmm
      rcases Nat.lt_trichotomy m (f.infMag - 1) with h | h | h
      · exact absurd (magInt_lt.2 h) (by rw [this]; exact Nat.lt_irrefl _)
      · exact h
      · omega
    have := h1' (by omega) (by linarith)
    omega
  · rw [e] at h1
    linarith

theorem rn_mag (f : Fmt) (q : ℚ) :
    |rn f q| * 2 ^ f.scale = magInt f.mb (rnMag f (q * 2 ^ f.scale)) ∧ (0 ≤ q → 0 ≤ rn f q) ∧ (q ≤ 0 → rn f q ≤ 0 ∨ q = 0) := by
  have hs := scale_pos f
  refine ⟨?_, rn_nonneg, ?_⟩
  · unfold rn
    rw [abs_div, abs_of_pos hs, div_mul_cancel₀ _ hs.ne']
    split
    · rw [abs_neg, abs_of_nonneg (by positivity)]
    · rw [abs_of_nonneg (by positivity)]
  · intro h
    rcases h.lt_or_eq with h | h
    · left
      unfold rn
      rw [if_pos h, div_nonpos_iff]
      right
      exact ⟨neg_nonpos.2 (by positivity), hs.le⟩
    · exact Or.inr h

/-- A float with the value of the rounded number is the nearest one. -/
theorem FP.nearest {f : Fmt} (hf : 0 < f.mb) (hi : 0 < f.infMag) (ho : f.infMag % 2 = 0) {w : Nat}
    {number : BitVec w → Number} {fp : BitVec w → FP}
    (hnum : ∀ z, number z = (fp z).number f) (hpar : ∀ z : BitVec w, z.toNat % 2 = (fp z).m % 2)
    {y : BitVec w} {q : ℚ} (hv : (fp y).val f = rn f q) : Nearest number f.limit q y := by
  have hs := scale_pos f
  obtain ⟨hmag, hpos, hneg⟩ := rn_mag f q
  have hym : (fp y).m = rnMag f (q * 2 ^ f.scale) := by
    have h1 : |(fp y).val f| * 2 ^ f.scale = magInt f.mb (fp y).m := by
      rw [FP.abs_val, div_mul_cancel₀ _ hs.ne']
    rw [hv, hmag] at h1
    have h1 : magInt f.mb (rnMag f (q * 2 ^ f.scale)) = magInt f.mb (fp y).m := by exact_mod_cast h1
    rcases Nat.lt_trichotomy (fp y).m (rnMag f (q * 2 ^ f.scale)) with h | h | h
    · have := (magInt_lt (mb := f.mb)).2 h; omega
    · exact h
    · have := (magInt_lt (mb := f.mb)).2 h; omega
  unfold Nearest
  split
  · rename_i hl
    have hinf := rnMag_above hf hi ho hl
    rw [hinf] at hym
    have h0 : (fp y).val f ≠ 0 := by rw [Ne, FP.val_eq_zero]; omega
    rw [hnum, FP.number, if_neg (by omega), if_pos hym]
    have hsgn : ((fp y).s = true) ↔ q < 0 := by
      have hval := FP.sign_int f (fp y)
      have hp : (0 : ℚ) ≤ magInt f.mb (fp y).m := by positivity
      have hvs := FP.val_scale f (fp y)
      rw [hval, hv] at hvs
      rw [hv] at h0
      constructor
      · intro hss
        by_contra hc
        have h2 := hpos (by linarith)
        rw [hss, if_pos rfl] at hvs
        have h3 : 0 < rn f q := lt_of_le_of_ne h2 (Ne.symm h0)
        have : 0 < rn f q * 2 ^ f.scale := mul_pos h3 hs
        linarith
      · intro hq
        by_contra hc
        rw [if_neg hc] at hvs
        have h3 : rn f q < 0 := by
          rcases hneg hq.le with h | h
          · exact lt_of_le_of_ne h h0
          · linarith
        have : rn f q * 2 ^ f.scale < 0 := mul_neg_of_neg_of_pos h3 hs
        linarith
    by_cases hq : q < 0
    · rw [if_pos (hsgn.2 hq), if_pos hq]
    · rw [if_neg (fun h => hq (hsgn.1 h)), if_neg hq]
  · rename_i hl
    obtain ⟨hlt, hnear⟩ := rnMag_below hf hi (lt_of_not_ge hl)
    rw [← hym] at hlt hnear
    refine ⟨_, by rw [hnum, FP.number_fin hlt], ?_⟩
    rw [hv]
    intro z r' hz
    rw [hpar]
    rw [hnum] at hz
    have hzm : (fp z).m < f.infMag := by
      by_contra hc
      unfold FP.number at hz
      split at hz
      · cases hz
      · split at hz
        · split at hz <;> cases hz
        · omega
    rw [FP.number_fin hzm] at hz
    obtain rfl : (fp z).val f = r' := by simpa using hz
    rw [← hv] at *
    -- in units of the smallest float and with the sign of q
    have hyabs : |(fp y).val f| * 2 ^ f.scale = magInt f.mb (fp y).m := by rw [FP.abs_val, div_mul_cancel₀ _ hs.ne']
    have hzabs : |(fp z).val f| * 2 ^ f.scale = magInt f.mb (fp z).m := by rw [FP.abs_val, div_mul_cancel₀ _ hs.ne']
    have hd1 : |(fp y).val f - q| * 2 ^ f.scale = |(magInt f.mb (fp y).m : ℚ) - |q| * 2 ^ f.scale| := by
      rw [← hyabs, ← sub_mul, abs_mul, abs_of_pos hs]
      congr 1
      rcases lt_trichotomy q 0 with h | h | h
      · rcases hneg h.le with h2 | h2
        · rw [abs_of_nonpos h2, abs_of_neg h, ← abs_neg]; congr 1; ring
        · linarith
      · rw [h]; simp
      · rw [abs_of_nonneg (hpos h.le), abs_of_pos h]
    have hd2 : |(magInt f.mb (fp z).m : ℚ) - |q| * 2 ^ f.scale| ≤ |(fp z).val f - q| * 2 ^ f.scale := by
      rw [← hzabs, ← sub_mul, abs_mul, abs_of_pos hs]
      exact mul_le_mul_of_nonneg_right (abs_abs_sub_abs_le_abs_sub _ _) hs.le
    obtain ⟨n1, n2⟩ := hnear (fp z).m
    refine ⟨le_of_mul_le_mul_right (by rw [hd1]; exact le_trans n1 hd2) hs, fun hne heq => ?_⟩
    rw [heq, hd1] at hd2
    have he := le_antisymm hd2 n1
    by_cases hmm : (fp z).m = (fp y).m
    · -- opposite values at the same distance: q is 0, and both are 0
      exfalso
      have hopp : (fp z).val f = -(fp y).val f := by
        have : |(fp z).val f| = |(fp y).val f| := by
          rw [hmm, ← hyabs] at hzabs
          exact mul_right_cancel₀ hs.ne' hzabs
        rcases abs_eq_abs.1 this with h | h
        · exact absurd h hne
        · exact h
      rw [hopp] at heq hne
      rcases abs_eq_abs.1 heq with h | h
      · apply hne; linarith
      · have hq0 : q = 0 := by linarith
        subst hq0
        have h0 := (hnear 0).1
        rw [magInt_zero] at h0
        simp only [abs_zero, zero_mul, sub_zero, Nat.cast_zero] at h0
        rw [abs_of_nonneg (by positivity)] at h0
        have : (fp y).val f = 0 := by
          have h2 : |(fp y).val f| * 2 ^ f.scale ≤ 0 := by rw [hyabs]; exact h0
          have h3 : |(fp y).val f| ≤ 0 := by
            by_contra hc
            have := mul_pos (lt_of_not_ge hc) hs
            linarith
          exact abs_nonpos_iff.1 h3
        apply hne; rw [this]; simp
    · exact n2 hmm he

theorem limit64 : b64.limit = 2 ^ 1024 - 2 ^ 970 := by
  have h : magInt b64.mb (b64.infMag - 1) + magInt b64.mb b64.infMag = (2 ^ 54 - 1) * 2 ^ 2045 := by decide +kernel
  rw [Fmt.limit, h, b64_scale]
  have e1 : (2 : ℚ) ^ 2045 = 2 ^ 970 * 2 * 2 ^ 1074 := by rw [← pow_succ, ← pow_add]
  have e2 : (2 : ℚ) ^ 1024 = 2 ^ 54 * 2 ^ 970 := by rw [← pow_add]
  have e3 : (((2 ^ 54 - 1) * 2 ^ 2045 : Nat) : ℚ) = (2 ^ 54 - 1) * 2 ^ 970 * 2 * 2 ^ 1074 := by
    rw [Nat.cast_mul, Nat.cast_pow, Nat.cast_ofNat, e1]; norm_num; ring
  rw [e3, e2]
  have h1 : (2 : ℚ) ^ 1074 ≠ 0 := by positivity
  rw [mul_div_right_comm, mul_div_cancel_right₀ _ (two_ne_zero), mul_div_cancel_right₀ _ h1]
  ring

theorem limit32 : b32.limit = 2 ^ 128 - 2 ^ 103 := by
  have h : magInt b32.mb (b32.infMag - 1) + magInt b32.mb b32.infMag = (2 ^ 25 - 1) * 2 ^ 253 := by decide +kernel
  rw [Fmt.limit, h, b32_scale]
  norm_num

theorem nearest64_of_val {p : FP} {q : ℚ} (hm : p.m ≤ b64.infMag) (hv : p.val b64 = rn b64 q) :
    Nearest64 q (F64.ofFP p) := by
  have h63 : p.m < 2 ^ 63 := by rw [b64_inf] at hm; omega
  rw [Nearest64, ← limit64]
  refine FP.nearest b64_mb (by decide) (by decide) (fp := F64.fp) F64.number_fp ?_ ?_
  · intro z
    have := z.isLt
    simp only [F64.fp]; omega
  · rw [F64.fp_ofFP h63]; exact hv

theorem nearest32_of_val {p : FP} {q : ℚ} (hm : p.m ≤ b32.infMag) (hv : p.val b32 = rn b32 q) :
    Nearest32 q (F32.ofFP p) := by
  have h31 : p.m < 2 ^ 31 := by rw [b32_inf] at hm; omega
  rw [Nearest32, ← limit32]
  refine FP.nearest b32_mb (by decide) (by decide) (fp := F32.fp) F32.number_fp ?_ ?_
  · intro z
    have := z.isLt
    simp only [F32.fp]; omega
  · rw [F32.fp_ofFP h31]; exact hv

/-! ## Operations of float64 -/

theorem nearest_add {x y : F64} (hx : x.isFinite = true) (hy : y.isFinite = true) :
    Nearest64 (x.toRat + y.toRat) (x.add y) := by
  rw [← F64.val_eq hx, ← F64.val_eq hy]
  exact nearest64_of_val (FP.add_m_le ((F64.finite_iff x).1 hx) ((F64.finite_iff y).1 hy))
    (FP.val_add b64_mb ((F64.finite_iff x).1 hx) ((F64.finite_iff y).1 hy))

theorem nearest_sub {x y : F64} (hx : x.isFinite = true) (hy : y.isFinite = true) :
    Nearest64 (x.toRat - y.toRat) (x.sub y) := by
  rw [← F64.val_eq hx, ← F64.val_eq hy]
  exact nearest64_of_val (FP.add_m_le ((F64.finite_iff x).1 hx) (show y.fp.neg.m < _ from (F64.finite_iff y).1 hy))
    (FP.val_sub b64_mb ((F64.finite_iff x).1 hx) ((F64.finite_iff y).1 hy))

/-! ## Conversion to float32 and back -/

theorem nearest_narrow {x : F64} (hx : x.isFinite = true) : Nearest32 x.toRat (narrow x) := by
  rw [F64.toRat_fin hx]
  exact nearest32_of_val (FP.convert_m_le ((F64.finite_iff x).1 hx)) (FP.val_convert b32_mb ((F64.finite_iff x).1 hx))

theorem convert_s (f g : Fmt) (x : FP) : (FP.convert f g x).s = x.s := by
  unfold FP.convert
  split
  · rfl
  · split
    · rfl
    · rfl

theorem lor_lt {a b n : Nat} (ha : a < 2 ^ n) (hb : b < 2 ^ n) : a ||| b < 2 ^ n := Nat.or_lt_two_pow ha hb

/-- What narrowing makes of a NaN. -/
theorem narrow_nan {x : F64} (h : b64.infMag < x.fp.m) :
    (FP.convert b64 b32 x.fp) = ⟨x.fp.s, b32.infMag + ((x.fp.m - b64.infMag) / 2 ^ 29 ||| 2 ^ 22)⟩ ∧
      ((x.fp.m - b64.infMag) / 2 ^ 29 ||| 2 ^ 22) < 2 ^ 23 := by
  have hm := x.fp_m_lt
  constructor
  · have : FP.isNaN b64 x.fp = true := by simp [FP.isNaN, h]
    simp only [FP.convert, this, if_true]
    have e : (x.fp.m - b64.infMag) <<< b32.mb >>> b64.mb = (x.fp.m - b64.infMag) / 2 ^ 29 := by
      rw [Nat.shiftLeft_eq, Nat.shiftRight_eq_div_pow]
      show _ * 2 ^ 23 / 2 ^ 52 = _
      omega
    rw [e]; rfl
  · apply lor_lt
    · rw [b64_inf]; omega
    · decide

theorem convert_lt {x : F64} : (FP.convert b64 b32 x.fp).m < 2 ^ 31 := by
  by_cases h : b64.infMag < x.fp.m
  · obtain ⟨h1, h2⟩ := narrow_nan h
    rw [h1, b32_inf]; dsimp only; omega
  · by_cases hi : x.fp.m = b64.infMag
    · have h1 : FP.isNaN b64 x.fp = false := by simp [FP.isNaN, hi]
      have h2 : FP.isInf b64 x.fp = true := by simp [FP.isInf, hi]
      simp only [FP.convert, h1, h2, if_true, Bool.false_eq_true, if_false, b32_inf]
      decide
    · have := FP.convert_m_le (f := b64) (g := b32) (x := x.fp) (by omega)
      rw [b32_inf] at this; omega

theorem narrow_fp (x : F64) : (narrow x).fp = FP.convert b64 b32 x.fp := F32.fp_ofFP convert_lt

/-- The datum of the float32. -/
theorem rounds_narrow (x : F64) : Rounds32 (number64 x) (narrow x) := by
  by_cases hx : x.isFinite = true
  · rw [F64.number_fin hx]; exact nearest_narrow hx
  · rw [F64.finite_iff] at hx
    by_cases h : b64.infMag < x.fp.m
    · have : number64 x = .nan := by rw [F64.number_fp, FP.number, if_pos h]
      rw [this]
      show number32 _ = _
      rw [F32.number_fp, narrow_fp, (narrow_nan h).1, FP.number, if_pos]
      have : 2 ^ 22 ≤ (x.fp.m - b64.infMag) / 2 ^ 29 ||| 2 ^ 22 := Nat.right_le_or
      dsimp only
      omega
    · have hi : x.fp.m = b64.infMag := by omega
      have h1 : FP.isNaN b64 x.fp = false := by simp [FP.isNaN, hi]
      have h2 : FP.isInf b64 x.fp = true := by simp [FP.isInf, hi]
      have hn : number64 x = if x.fp.s then .ninf else .pinf := by
        rw [F64.number_fp, FP.number, if_neg h, if_pos hi]
      have hc : FP.convert b64 b32 x.fp = ⟨x.fp.s, b32.infMag⟩ := by
        simp only [FP.convert, h1, h2, if_true, Bool.false_eq_true, if_false]
      have hn' : number32 (narrow x) = if x.fp.s then .ninf else .pinf := by
        rw [F32.number_fp, narrow_fp, hc]; simp [FP.number]
      cases hs : x.fp.s <;> rw [hs] at hn hn' <;> simp only [if_true, Bool.false_eq_true, if_false] at hn hn' <;>
        rw [hn] <;> exact hn'

theorem F64.msb_fp (x : F64) : x.msb = x.fp.s := by
  simp only [BitVec.msb_eq_decide, F64.fp, Nat.add_one_sub_one]

theorem F32.msb_fp (x : F32) : x.msb = x.fp.s := by
  simp only [BitVec.msb_eq_decide, F32.fp, Nat.add_one_sub_one]

/-- What widening makes of a NaN. -/
theorem widen_nan {x : F32} (h : b32.infMag < x.fp.m) :
    (FP.convert b32 b64 x.fp) = ⟨x.fp.s, b64.infMag + ((x.fp.m - b32.infMag) * 2 ^ 29 ||| 2 ^ 51)⟩ ∧
      ((x.fp.m - b32.infMag) * 2 ^ 29 ||| 2 ^ 51) < 2 ^ 52 := by
  have hm := x.fp_m_lt
  constructor
  · have : FP.isNaN b32 x.fp = true := by simp [FP.isNaN, h]
    simp only [FP.convert, this, if_true]
    have e : (x.fp.m - b32.infMag) <<< b64.mb >>> b32.mb = (x.fp.m - b32.infMag) * 2 ^ 29 := by
      rw [Nat.shiftLeft_eq, Nat.shiftRight_eq_div_pow]
      show _ * 2 ^ 52 / 2 ^ 23 = _
      omega
    rw [e]; rfl
  · apply lor_lt
    · rw [b32_inf]; omega
    · decide

theorem widen_convert_lt {x : F32} : (FP.convert b32 b64 x.fp).m < 2 ^ 63 := by
  by_cases h : b32.infMag < x.fp.m
  · obtain ⟨h1, h2⟩ := widen_nan h
    rw [h1, b64_inf]; dsimp only; omega
  · by_cases hi : x.fp.m = b32.infMag
    · have h1 : FP.isNaN b32 x.fp = false := by simp [FP.isNaN, hi]
      have h2 : FP.isInf b32 x.fp = true := by simp [FP.isInf, hi]
      simp only [FP.convert, h1, h2, if_true, Bool.false_eq_true, if_false, b64_inf]
      decide
    · have := FP.convert_m_le (f := b32) (g := b64) (x := x.fp) (by omega)
      rw [b64_inf] at this; omega

theorem widen_fp (x : F32) : (widen x).fp = FP.convert b32 b64 x.fp := F64.fp_ofFP widen_convert_lt

/-- Widening is exact. -/
theorem number_widen (x : F32) : number64 (widen x) = number32 x := by
  by_cases hx : x.isFinite = true
  · obtain ⟨h1, h2⟩ := widen_finite hx
    rw [F64.number_fin h1, h2, F32.number_fin hx]
  · rw [F32.finite_iff] at hx
    by_cases h : b32.infMag < x.fp.m
    · have : number32 x = .nan := by rw [F32.number_fp, FP.number, if_pos h]
      rw [this, F64.number_fp, widen_fp, (widen_nan h).1, FP.number, if_pos]
      have : 2 ^ 51 ≤ (x.fp.m - b32.infMag) * 2 ^ 29 ||| 2 ^ 51 := Nat.right_le_or
      dsimp only
      omega
    · have hi : x.fp.m = b32.infMag := by omega
      have h1 : FP.isNaN b32 x.fp = false := by simp [FP.isNaN, hi]
      have h2 : FP.isInf b32 x.fp = true := by simp [FP.isInf, hi]
      have hc : FP.convert b32 b64 x.fp = ⟨x.fp.s, b64.infMag⟩ := by
        simp only [FP.convert, h1, h2, if_true, Bool.false_eq_true, if_false]
      rw [F32.number_fp, FP.number, if_neg h, if_pos hi, F64.number_fp, widen_fp, hc]
      simp [FP.number]

/-- The stored value of a component kept as float32. -/
theorem single_near32 (x : F64) : Single x (near32 x) := by
  refine ⟨narrow x, rounds_narrow x, number_widen _, ?_, ?_⟩
  · rw [F32.msb_fp, F64.msb_fp, narrow_fp, convert_s]
  · rw [F64.msb_fp, F64.msb_fp, near32, widen_fp, convert_s, narrow_fp, convert_s]

theorem or_pow_idem {a : Nat} : (a ||| 2 ^ 22) * 2 ^ 29 ||| 2 ^ 51 = (a ||| 2 ^ 22) * 2 ^ 29 := by
  have : (2 : Nat) ^ 51 = 2 ^ 22 * 2 ^ 29 := by norm_num
  rw [this]
  simp only [← Nat.shiftLeft_eq]
  rw [← Nat.shiftLeft_or_distrib, Nat.or_assoc, Nat.or_self]

/-- Once narrowed, a float64 is not changed by narrowing. -/
theorem narrow_near32 (x : F64) : narrow (near32 x) = narrow x := by
  suffices h : FP.convert b64 b32 (near32 x).fp = (narrow x).fp by
    rw [← F32.ofFP_fp (narrow x), ← h]; rfl
  by_cases hy : (narrow x).isFinite = true
  · -- finite: the value is that of a float32
    obtain ⟨h1, h2⟩ := widen_finite hy
    have hy' := (F32.finite_iff _).1 hy
    have hw := (F64.finite_iff _).1 h1
    have h3 := FP.val_convert (f := b64) (g := b32) (x := (near32 x).fp) b32_mb hw
    have h4 : (near32 x).fp.val b64 = (narrow x).fp.val b32 := by
      show (widen (narrow x)).fp.val b64 = _
      rw [F64.val_eq h1, ← F32.toRat_fin hy]; exact h2
    rw [h4, rn_val b32_mb hy'.le] at h3
    have hms : (FP.convert b64 b32 (near32 x).fp).s = (narrow x).fp.s := by
      rw [convert_s, near32, widen_fp, convert_s]
    have hmm : (FP.convert b64 b32 (near32 x).fp).m = (narrow x).fp.m := by
      have hs := scale_pos b32
      have e1 := FP.abs_val b32 (FP.convert b64 b32 (near32 x).fp)
      have e2 := FP.abs_val b32 (narrow x).fp
      rw [h3, e2] at e1
      have e3 : (magInt b32.mb (narrow x).fp.m : ℚ) = magInt b32.mb (FP.convert b64 b32 (near32 x).fp).m := by
        have := hs.ne'
        field_simp at e1
        linarith
      have e4 : magInt b32.mb (narrow x).fp.m = magInt b32.mb (FP.convert b64 b32 (near32 x).fp).m := by exact_mod_cast e3
      generalize (FP.convert b64 b32 (near32 x).fp).m = a at e4 ⊢
      rcases Nat.lt_trichotomy a (narrow x).fp.m with h | h | h
      · have := (magInt_lt (mb := b32.mb)).2 h; omega
      · exact h
      · have := (magInt_lt (mb := b32.mb)).2 h; omega
    cases ha : FP.convert b64 b32 (near32 x).fp
    cases hb : (narrow x).fp
    rw [ha, hb] at hms hmm
    simp only at hms hmm
    rw [hms, hmm]
  · rw [F32.finite_iff] at hy
    by_cases h : b64.infMag < x.fp.m
    · -- a NaN
      obtain ⟨h1, h2⟩ := narrow_nan h
      rw [← narrow_fp] at h1
      have hge : 2 ^ 22 ≤ (x.fp.m - b64.infMag) / 2 ^ 29 ||| 2 ^ 22 := Nat.right_le_or
      have hnan : b32.infMag < (narrow x).fp.m := by rw [h1]; dsimp only; omega
      obtain ⟨h3, h4⟩ := widen_nan hnan
      rw [← widen_fp] at h3
      have hge' : 2 ^ 51 ≤ ((narrow x).fp.m - b32.infMag) * 2 ^ 29 ||| 2 ^ 51 := Nat.right_le_or
      have hnan' : b64.infMag < (near32 x).fp.m := by
        rw [near32, h3]; dsimp only; omega
      obtain ⟨h5, -⟩ := narrow_nan hnan'
      rw [h5]
      have hsub : (near32 x).fp.m - b64.infMag = ((narrow x).fp.m - b32.infMag) * 2 ^ 29 ||| 2 ^ 51 := by
        rw [near32, h3]; dsimp only; omega
      have hsub2 : (narrow x).fp.m - b32.infMag = (x.fp.m - b64.infMag) / 2 ^ 29 ||| 2 ^ 22 := by
        rw [h1]; dsimp only; omega
      rw [hsub, hsub2, or_pow_idem, Nat.mul_div_cancel _ (by positivity), Nat.or_assoc, Nat.or_self, h1]
      have : (near32 x).fp.s = x.fp.s := by rw [near32, h3]; dsimp only; rw [h1]
      rw [this]
    · -- an infinity
      have hi : (narrow x).fp.m = b32.infMag := by
        by_cases hxi : x.fp.m = b64.infMag
        · have h1 : FP.isNaN b64 x.fp = false := by simp [FP.isNaN, hxi]
          have h2 : FP.isInf b64 x.fp = true := by simp [FP.isInf, hxi]
          rw [narrow_fp]
          simp only [FP.convert, h1, h2, if_true, Bool.false_eq_true, if_false]
        · have := FP.convert_m_le (f := b64) (g := b32) (x := x.fp) (by omega)
          rw [← narrow_fp] at this
          omega
      have e1 : (near32 x).fp = ⟨(narrow x).fp.s, b64.infMag⟩ := by
        have h1 : FP.isNaN b32 (narrow x).fp = false := by simp [FP.isNaN, hi]
        have h2 : FP.isInf b32 (narrow x).fp = true := by simp [FP.isInf, hi]
        rw [near32, widen_fp]
        simp only [FP.convert, h1, h2, if_true, Bool.false_eq_true, if_false]
      have h1 : FP.isNaN b64 (near32 x).fp = false := by simp [FP.isNaN, e1]
      have h2 : FP.isInf b64 (near32 x).fp = true := by simp [FP.isInf, e1]
      simp only [FP.convert, h1, h2, if_true, Bool.false_eq_true, if_false]
      rw [e1, ← hi]

theorem near32_near32 (x : F64) : near32 (near32 x) = near32 x := by
  unfold near32
  exact congrArg widen (narrow_near32 x)

/-- Error of a float32 that did not overflow. -/
theorem near32_err {x : F64} (hx : x.isFinite = true) (h : |x.toRat| < 2 ^ 128 - 2 ^ 103) :
    (near32 x).isFinite = true ∧ (near32 x).toRat = rn b32 x.toRat ∧
      |(near32 x).toRat - x.toRat| ≤ max (1 / 2 ^ 150) (|x.toRat| / 2 ^ 24) := by
  have hn := is_narrow hx
  have hlt : |rn b32 x.toRat| < b32.top := by
    have hs := scale_pos b32
    rw [← limit32] at h
    have h1 := (rnMag_below b32_mb (by decide) h).1
    have h2 := (rn_mag b32 x.toRat).1
    rw [Fmt.top, lt_div_iff₀ hs, h2]
    exact_mod_cast magInt_lt.2 h1
  have hf := hn.fin.2 hlt
  obtain ⟨w1, w2⟩ := widen_finite hf
  have hv : (near32 x).toRat = rn b32 x.toRat := by rw [near32, w2, hn.val hf]
  refine ⟨w1, hv, ?_⟩
  rw [hv]
  exact rn_err b32_mb hlt

/-- In the normal range the error is relative. -/
theorem near32_rel {x : F64} (hx : x.isFinite = true) (h : |x.toRat| < 2 ^ 128 - 2 ^ 103)
    (hn : 1 / 2 ^ 126 ≤ |x.toRat|) : |(near32 x).toRat - x.toRat| ≤ |x.toRat| / 2 ^ 24 := by
  refine le_trans (near32_err hx h).2.2 (max_le ?_ (le_refl _))
  calc (1 : ℚ) / 2 ^ 150 = 1 / 2 ^ 126 / 2 ^ 24 := by norm_num
    _ ≤ _ := by gcongr

end Rap
