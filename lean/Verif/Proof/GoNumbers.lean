import Verif.Proof.ShortSingle

/-!
# Float32s and integers through JSON
-/

namespace Rap

/-! ## Integers -/

theorem shortUnit_one (f : Fmt) : shortUnit f 400 = 2 ^ f.scale := by
  unfold shortUnit
  have h : (0 : ℚ) < 10 ^ 400 := by positivity
  rw [mul_comm, mul_div_cancel_right₀ _ h.ne']

theorem found_integral {f : Fmt} (hf : 0 < f.mb) {m v j : Nat} (h : Found f m v j) (hd : 2 ^ f.scale ∣ magInt f.mb m) :
    j ≤ 400 := by
  by_contra hc
  have hno := (h.first 400 (by omega)).1
  have hdown : (shortDown f m 400 : ℚ) * shortUnit f 400 = magInt f.mb m := by
    have e : shortDown f m 400 = magInt f.mb m / 2 ^ f.scale := by
      unfold shortDown
      exact Nat.mul_div_mul_right _ _ (by positivity)
    rw [shortUnit_one, e]
    exact_mod_cast Nat.div_mul_cancel hd
  have := NearMag.self f.mb m
  rw [← hdown, ← shortOk_iff hf] at this
  rw [this] at hno
  cases hno

theorem shortValue_nat {v j : Nat} (h : j ≤ 400) : shortValue v j = ((v * 10 ^ (400 - j) : Nat) : ℚ) := by
  have hj : (0 : ℚ) < 10 ^ j := by positivity
  rw [shortValue, div_eq_iff hj.ne', Nat.cast_mul, Nat.cast_pow, Nat.cast_ofNat, mul_assoc, ← pow_add, Nat.sub_add_cancel h]

theorem near_integral {mb s V m : Nat} (h : NearMag mb (V * 2 ^ s) m) :
    2 ^ s ∣ magInt mb m ∧ (V ≤ 2 ^ (mb + 1) → magInt mb m = V * 2 ^ s) := by
  have exact : V ≤ 2 ^ (mb + 1) → magInt mb m = V * 2 ^ s := by
    intro hV
    obtain ⟨m0, h0⟩ := exists_mag mb V s hV
    have h1 := NearMag.self mb m0
    rw [h0, Nat.cast_mul, Nat.cast_pow, Nat.cast_ofNat] at h1
    rw [h.unique h1, h0]
  refine ⟨?_, exact⟩
  rcases Nat.le_total V (2 ^ (mb + 1)) with hV | hV
  · rw [exact hV]; exact Nat.dvd_mul_left _ _
  · apply magInt_dvd
    obtain ⟨m0, h0⟩ := exists_mag mb (2 ^ (mb + 1)) s (le_refl _)
    have h1 := NearMag.self mb m0
    rw [h0, Nat.cast_mul, Nat.cast_pow, Nat.cast_pow, Nat.cast_ofNat] at h1
    have hle : m0 ≤ m := h1.mono h (by
      have : ((2 ^ (mb + 1) : Nat) : ℚ) ≤ V := by exact_mod_cast hV
      have hp : (0 : ℚ) ≤ 2 ^ s := by positivity
      rw [Nat.cast_pow, Nat.cast_ofNat] at this
      exact mul_le_mul_of_nonneg_right this hp)
    have h2 := (magInt_le (mb := mb)).2 hle
    rw [h0] at h2
    refine le_trans ?_ h2
    rw [pow_add]
    exact Nat.mul_le_mul_right _ (Nat.pow_le_pow_right (by decide) (by omega))

theorem near_ge {mb s V m : Nat} (h : NearMag mb (V * 2 ^ s) m) (hV : 2 ^ (mb + 1) ≤ V) : 2 ^ (mb + 1) * 2 ^ s ≤ magInt mb m := by
  obtain ⟨m0, h0⟩ := exists_mag mb (2 ^ (mb + 1)) s (le_refl _)
  have h1 := NearMag.self mb m0
  rw [h0, Nat.cast_mul, Nat.cast_pow, Nat.cast_pow, Nat.cast_ofNat] at h1
  have hle : m0 ≤ m := h1.mono h (by
    have : ((2 ^ (mb + 1) : Nat) : ℚ) ≤ V := by exact_mod_cast hV
    have hp : (0 : ℚ) ≤ 2 ^ s := by positivity
    rw [Nat.cast_pow, Nat.cast_ofNat] at this
    exact mul_le_mul_of_nonneg_right this hp)
  rw [← h0]
  exact magInt_le.2 hle

theorem magInt_at (mb k : Nat) : magInt mb ((k + 1) * 2 ^ mb) = 2 ^ mb * 2 ^ k := by
  unfold magInt
  have hp : 0 < 2 ^ mb := by positivity
  rw [Nat.mul_div_cancel _ hp, if_neg (by omega), Nat.mul_mod_left]
  simp

theorem short_top64 : shortestOf b64 (1076 * 2 ^ 52) = (9007199254740992, 400) := by decide +kernel
theorem short_top32 : shortestOf b32 (151 * 2 ^ 23) = (16777216, 400) := by decide +kernel

/-- Integers of at most `mb + 1` bits are written with all their digits. -/
theorem short_integer {f : Fmt} (hf : 0 < f.mb) (hs : f.scale ≤ 1074) {m n : Nat} (hm : magInt f.mb m = n * 2 ^ f.scale)
    (hn : n ≤ 2 ^ (f.mb + 1)) (top : shortestOf f ((f.scale + 2) * 2 ^ f.mb) = (2 ^ (f.mb + 1), 400)) :
    (shortestOf f m).2 ≤ 400 ∧ (shortestOf f m).1 * 10 ^ (400 - (shortestOf f m).2) = n := by
  have h := shortestOf_found hf hs m
  have hj := found_integral hf h (hm ▸ Nat.dvd_mul_left _ _)
  refine ⟨hj, ?_⟩
  have hok := (shortOk_iff hf).1 h.ok
  rw [← shortValue_unit, shortValue_nat hj] at hok
  rcases Nat.lt_or_ge (2 ^ (f.mb + 1)) ((shortestOf f m).1 * 10 ^ (400 - (shortestOf f m).2)) with hV | hV
  · have h1 := near_ge hok hV.le
    rw [hm] at h1
    have h2 : 2 ^ (f.mb + 1) ≤ n := Nat.le_of_mul_le_mul_right h1 (by positivity)
    have h3 : n = 2 ^ (f.mb + 1) := Nat.le_antisymm hn h2
    have h4 : m = (f.scale + 2) * 2 ^ f.mb := by
      apply (magInt_inj (mb := f.mb)).1
      rw [hm, h3, magInt_at f.mb (f.scale + 1), pow_succ, pow_succ]
      ring
    rw [h4, top] at hV
    simp at hV
  · have h1 := (near_integral hok).2 hV
    rw [hm] at h1
    exact (Nat.eq_of_mul_eq_mul_right (by positivity) h1).symm

/-! ## Float32s -/

theorem mul_pow_split (A : ℚ) {i j k : Nat} (h : i + j = k) : A * 2 ^ k = A * 2 ^ i * 2 ^ j := by
  rw [← h, pow_add, mul_assoc]

/-- Numbers in the range of float32s are normal doubles. -/
theorem double_range {A : ℚ} (hlow : 1 / 2 ≤ A * 2 ^ 149) (hhigh : A * 2 ^ 149 ≤ 2 ^ 277) :
    ∃ m, NearMag 52 (A * 2 ^ 1074) m ∧ 2 ^ 52 ≤ m ∧ m < b64.infMag := by
  rw [mul_pow_split A (show 149 + 925 = 1074 from rfl)]
  generalize A * 2 ^ 149 = B at hlow hhigh
  have hp : (0 : ℚ) < 2 ^ 925 := by positivity
  have hB : 0 ≤ B * 2 ^ 925 := mul_nonneg (by linarith) hp.le
  have hn := roundMag_nearest 52 (B * 2 ^ 925).num.natAbs (B * 2 ^ 925).den (by decide) (Rat.den_pos _)
  rw [natAbs_num_div_den, abs_of_nonneg hB] at hn
  refine ⟨_, hn, ?_, ?_⟩
  · obtain ⟨m0, h1⟩ := exists_mag 52 1 924 (by decide)
    have h2 := NearMag.self 52 m0
    rw [h1, Nat.one_mul, Nat.cast_pow, Nat.cast_ofNat] at h2
    have h3 := h2.mono hn (by
      have e : (2 : ℚ) ^ 924 = 1 / 2 * 2 ^ 925 := by
        rw [pow_succ (2 : ℚ) 924]
        generalize (2 : ℚ) ^ 924 = T
        ring
      rw [e]
      exact mul_le_mul_of_nonneg_right hlow hp.le)
    refine le_trans ?_ h3
    apply (magInt_le (mb := 52)).1
    rw [h1]; decide +kernel
  · obtain ⟨m1, h1⟩ := exists_mag 52 1 1202 (by decide)
    have h2 := NearMag.self 52 m1
    rw [h1, Nat.one_mul, Nat.cast_pow, Nat.cast_ofNat] at h2
    have h3 := hn.mono h2 (by
      have e : (2 : ℚ) ^ 1202 = 2 ^ 277 * 2 ^ 925 := by
        have := mul_pow_split 1 (show 277 + 925 = 1202 from rfl)
        rwa [one_mul, one_mul] at this
      rw [e]
      exact mul_le_mul_of_nonneg_right hhigh hp.le)
    refine lt_of_le_of_lt h3 ?_
    apply (magInt_lt (mb := 52)).1
    rw [h1]; decide +kernel

theorem readSingle_eq {s : Bool} {m m' : Nat} (hm : m < b64.infMag) (h0 : m ≠ 0) (hm' : m' < b32.infMag)
    (h : shortOk b32 m' (shortestOf b64 m).2 (shortestOf b64 m).1 = true) :
    readSingle (F64.ofFP ⟨s, m⟩) = some (F32.ofFP ⟨s, m'⟩) := by
  have hfp : (F64.ofFP ⟨s, m⟩).fp = ⟨s, m⟩ := F64.fp_ofFP (lt_trans hm (by decide))
  have hr := beq_iff_eq.1 h
  rw [readSingle, hfp, if_neg (Nat.not_le.2 hm), if_neg h0]
  generalize shortestOf b64 m = p at hr
  obtain ⟨v, j⟩ := p
  show (if b32.infMag ≤ roundMag b32.mb (v * 10 ^ 400 * 2 ^ b32.scale) (10 ^ j) then none else
    some (F32.ofFP ⟨s, roundMag b32.mb (v * 10 ^ 400 * 2 ^ b32.scale) (10 ^ j)⟩)) = _
  rw [hr, if_neg (Nat.not_le.2 hm')]

/-- The double that the text of a float32 is read as. -/
theorem single_double {x : F32} (hx : x.isFinite = true) : ∃ (t : Bytes) (d : F64), jsonFloat b32 x.fp = some t ∧ JsonNumber t d ∧
    readSingle d = some x ∧ d.fp.s = x.fp.s ∧ (2 ^ 1074 ∣ magInt 52 d.fp.m ↔ 2 ^ 149 ∣ magInt 23 x.fp.m) ∧
    (∀ n, n ≤ 2 ^ 24 → magInt 23 x.fp.m = n * 2 ^ 149 → magInt 52 d.fp.m = n * 2 ^ 1074) := by
  have hxm := (F32.finite_iff x).1 hx
  obtain ⟨t, A, ht, hT, hnear, hA0, hA⟩ := jsonFloat_text b32_mb (by decide) hxm
  rw [show b32.mb = 23 from rfl, b32_scale] at hnear
  by_cases h0 : x.fp.m = 0
  · have hfp : (F64.ofFP ⟨x.fp.s, 0⟩).fp = ⟨x.fp.s, 0⟩ := F64.fp_ofFP (show 0 < 2 ^ 63 by decide)
    have e := hA0 h0
    refine ⟨t, F64.ofFP ⟨x.fp.s, 0⟩, ht, jsonNumber_iff.2 ⟨A, by rw [hfp]; exact hT, by rw [hfp]; exact show 0 < b64.infMag by decide, ?_⟩, ?_, by rw [hfp], ?_, ?_⟩
    · rw [hfp, e, zero_mul]
      have := NearMag.self 52 0
      rwa [magInt_zero, Nat.cast_zero] at this
    · rw [readSingle, hfp, if_neg (show ¬ b64.infMag ≤ 0 by decide), if_pos rfl]
      refine congrArg some ?_
      rw [← F32.ofFP_fp x]
      congr 1
      rw [← h0, F32.ofFP_fp]
    · rw [hfp, h0, magInt_zero, magInt_zero]
      exact ⟨fun _ => Nat.dvd_zero _, fun _ => Nat.dvd_zero _⟩
    · intro n _ hn
      rw [h0, magInt_zero] at hn
      have : n = 0 := by
        rcases Nat.mul_eq_zero.1 hn.symm with h | h
        · exact h
        · exact absurd h (by positivity)
      rw [hfp, this, magInt_zero, Nat.zero_mul]
  · have hA := hA h0
    have hfound := shortestOf_found (f := b32) b32_mb (by decide) x.fp.m
    have htop : magInt 23 x.fp.m < magInt 23 b32.infMag := magInt_lt.2 hxm
    have hinf : magInt 23 b32.infMag = 2 ^ 277 := by decide +kernel
    rw [hinf] at htop
    have hbound : (shortestOf b32 x.fp.m).1 ≤ 10 ^ 9 := by
      refine le_trans (found_bound b32_mb hfound (lt_trans htop ?_)) (by decide)
      rw [b32_scale]; decide +kernel
    have hint := fun hd => found_integral b32_mb hfound hd
    have hexact := fun n hm hn => short_integer (f := b32) (n := n) b32_mb (by decide) (m := x.fp.m) hm hn short_top32
    generalize shortestOf b32 x.fp.m = p at *
    obtain ⟨v, j⟩ := p
    dsimp only at *
    -- bounds of the number written
    have hAlow : (1 : ℚ) / 2 ≤ A * 2 ^ 149 := by
      have h1 := (hnear 0).1
      rw [magInt_zero, Nat.cast_zero, zero_sub, abs_neg] at h1
      have h2 : (1 : ℚ) ≤ magInt 23 x.fp.m := by
        have : magInt 23 x.fp.m ≠ 0 := fun h => h0 ((magInt_eq_zero 23 _).1 h)
        exact_mod_cast Nat.one_le_iff_ne_zero.2 this
      have h3 : 0 ≤ A * 2 ^ 149 := by
        rw [hA]; unfold shortValue; positivity
      rw [abs_of_nonneg h3] at h1
      have h4 := le_abs_self ((magInt 23 x.fp.m : ℚ) - A * 2 ^ 149)
      linarith
    have hAhigh : A * 2 ^ 149 ≤ 2 ^ 277 := by
      have h1 := (hnear (x.fp.m + 1)).1
      have h2 : (magInt 23 (x.fp.m + 1) : ℚ) ≤ 2 ^ 277 := by
        have : magInt 23 (x.fp.m + 1) ≤ magInt 23 b32.infMag := magInt_le.2 (by omega)
        rw [hinf] at this
        exact_mod_cast this
      have h3 : (magInt 23 x.fp.m : ℚ) < magInt 23 (x.fp.m + 1) := by exact_mod_cast magInt_lt.2 (Nat.lt_succ_self _)
      by_contra hc
      have hc := lt_of_not_ge hc
      generalize (2 : ℚ) ^ 277 = T at h2 hc
      generalize A * 2 ^ 149 = Q at h1 hc
      rw [abs_of_nonpos (by linarith), abs_of_nonpos (by linarith)] at h1
      linarith
    obtain ⟨m', hn64, hlow, hfin⟩ := double_range hAlow hAhigh
    have hfp : (F64.ofFP ⟨x.fp.s, m'⟩).fp = ⟨x.fp.s, m'⟩ := F64.fp_ofFP (lt_trans hfin (by decide))
    -- the digits of the double are those of the float32
    have hsame : shortValue (shortestOf b64 m').1 (shortestOf b64 m').2 = A := by
      rw [hA]
      refine short_unique hlow hbound ?_ (shortestOf_found b64_mb (by decide) m')
      rw [← shortValue_unit, ← hA, b64_scale]
      exact hn64
    refine ⟨t, F64.ofFP ⟨x.fp.s, m'⟩, ht, jsonNumber_iff.2 ⟨A, by rw [hfp]; exact hT, by rw [hfp]; exact hfin, by rw [hfp]; exact hn64⟩,
      ?_, by rw [hfp], ?_, ?_⟩
    · have h1 : shortOk b32 x.fp.m (shortestOf b64 m').2 (shortestOf b64 m').1 = true := by
        rw [shortOk_iff b32_mb, ← shortValue_unit, hsame, b32_scale]
        exact hnear
      rw [readSingle_eq hfin (Nat.ne_of_gt (lt_of_lt_of_le (by decide) hlow)) hxm h1]
      exact congrArg some (F32.ofFP_fp x)
    · rw [hfp]
      constructor
      · intro hd
        have hj := found_integral b64_mb (shortestOf_found b64_mb (by decide) m') hd
        rw [shortValue_nat hj] at hsame
        rw [← hsame] at hnear
        exact (near_integral hnear).1
      · intro hd
        have hj := hint hd
        rw [shortValue_nat hj] at hA
        rw [hA] at hn64
        exact (near_integral hn64).1
    · intro n hn hm
      obtain ⟨hj, hV⟩ := hexact n hm hn
      rw [shortValue_nat hj, hV] at hA
      rw [hA] at hn64
      rw [hfp]
      exact (near_integral hn64).2 (le_trans hn (by decide))

end Rap
