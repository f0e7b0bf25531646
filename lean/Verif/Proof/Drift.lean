import Verif.Proof.Quant
import Verif.Proof.Round
import Verif.Spec.Stored

/-!
# The quantiser with drift correction
-/

namespace Rap

/-! ## Smallest and largest of a list -/

theorem lt_inf {x : F64} (hx : x.isFinite = true) : x.lt F64.inf = true := by
  rw [F64.lt_number, F64.number_fin hx, show number64 F64.inf = .pinf by decide +kernel]; trivial

theorem ninf_lt {x : F64} (hx : x.isFinite = true) : F64.ninf.lt x = true := by
  rw [F64.lt_number, F64.number_fin hx, show number64 F64.ninf = .ninf by decide +kernel]; trivial

theorem foldl_fmin (m : F64) (xs : List F64) (hm : m.isFinite = true) (hx : ∀ x ∈ xs, x.isFinite = true) :
    xs.foldl fmin m ∈ m :: xs ∧ ∀ x ∈ m :: xs, (xs.foldl fmin m).toRat ≤ x.toRat := by
  induction xs generalizing m with
  | nil => simp
  | cons y ys ih =>
    have hy := hx y (by simp)
    have hf : (fmin m y).isFinite = true := by unfold fmin; split <;> assumption
    have hle : (fmin m y).toRat ≤ m.toRat ∧ (fmin m y).toRat ≤ y.toRat := by
      unfold fmin
      split
      · next h => rw [F64.lt_iff hy hm] at h; exact ⟨h.le, le_refl _⟩
      · next h => rw [F64.lt_iff hy hm] at h; exact ⟨le_refl _, not_lt.1 h⟩
    have hmem : fmin m y = m ∨ fmin m y = y := by unfold fmin; split <;> simp
    obtain ⟨h1, h2⟩ := ih (fmin m y) hf fun x h => hx x (by simp [h])
    have h0 := h2 _ (List.mem_cons_self ..)
    rw [List.foldl_cons]
    refine ⟨?_, fun x h => ?_⟩
    · rcases List.mem_cons.1 h1 with h | h
      · rw [h]; rcases hmem with e | e <;> simp [e]
      · simp [h]
    · rcases List.mem_cons.1 h with rfl | h
      · exact h0.trans hle.1
      · rcases List.mem_cons.1 h with rfl | h
        · exact h0.trans hle.2
        · exact h2 x (by simp [h])

theorem foldl_fmax (m : F64) (xs : List F64) (hm : m.isFinite = true) (hx : ∀ x ∈ xs, x.isFinite = true) :
    xs.foldl fmax m ∈ m :: xs ∧ ∀ x ∈ m :: xs, x.toRat ≤ (xs.foldl fmax m).toRat := by
  induction xs generalizing m with
  | nil => simp
  | cons y ys ih =>
    have hy := hx y (by simp)
    have hf : (fmax m y).isFinite = true := by unfold fmax; split <;> assumption
    have hle : m.toRat ≤ (fmax m y).toRat ∧ y.toRat ≤ (fmax m y).toRat := by
      unfold fmax
      split
      · next h => rw [F64.lt_iff hm hy] at h; exact ⟨h.le, le_refl _⟩
      · next h => rw [F64.lt_iff hm hy] at h; exact ⟨le_refl _, not_lt.1 h⟩
    have hmem : fmax m y = m ∨ fmax m y = y := by unfold fmax; split <;> simp
    obtain ⟨h1, h2⟩ := ih (fmax m y) hf fun x h => hx x (by simp [h])
    have h0 := h2 _ (List.mem_cons_self ..)
    rw [List.foldl_cons]
    refine ⟨?_, fun x h => ?_⟩
    · rcases List.mem_cons.1 h1 with h | h
      · rw [h]; rcases hmem with e | e <;> simp [e]
      · simp [h]
    · rcases List.mem_cons.1 h with rfl | h
      · exact hle.1.trans h0
      · rcases List.mem_cons.1 h with rfl | h
        · exact hle.2.trans h0
        · exact h2 x (by simp [h])

/-- The smallest of finite numbers, starting from +Inf. -/
theorem fmin_spec {xs : List F64} (hne : xs ≠ []) (hx : ∀ x ∈ xs, x.isFinite = true) :
    xs.foldl fmin F64.inf ∈ xs ∧ ∀ x ∈ xs, (xs.foldl fmin F64.inf).toRat ≤ x.toRat := by
  match xs, hne with
  | y :: ys, _ =>
    rw [List.foldl_cons, fmin, if_pos (lt_inf (hx y (by simp)))]
    exact foldl_fmin y ys (hx y (by simp)) fun x h => hx x (by simp [h])

/-- The largest of finite numbers, starting from -Inf. -/
theorem fmax_spec {xs : List F64} (hne : xs ≠ []) (hx : ∀ x ∈ xs, x.isFinite = true) :
    xs.foldl fmax F64.ninf ∈ xs ∧ ∀ x ∈ xs, x.toRat ≤ (xs.foldl fmax F64.ninf).toRat := by
  match xs, hne with
  | y :: ys, _ =>
    rw [List.foldl_cons, fmax, if_pos (ninf_lt (hx y (by simp)))]
    exact foldl_fmax y ys (hx y (by simp)) fun x h => hx x (by simp [h])

/-! ## One step -/

theorem zero_fin : (0 : F64).isFinite = true := by decide +kernel
theorem zero_toRat : (0 : F64).toRat = 0 := by decide +kernel

/-- Coding the difference to the running total and adding the decoded difference to it. `d` bounds how far the
difference is outside the range. -/
theorem drift_step {G total v : F64} (hG : G.isFinite = true) (ht : total.isFinite = true) (hv : v.isFinite = true)
    (h0 : 0 ≤ G.toRat) {B : ℚ} (hB : B ≤ big / 8) (hB0 : 54 * tiny ≤ B) (b1 : G.toRat ≤ B) (b2 : |total.toRat| ≤ B)
    (b3 : |v.toRat| ≤ B) {d : ℚ} (hd0 : 0 ≤ d) (hd1 : v.toRat - total.toRat ≤ G.toRat + d)
    (hd2 : -d ≤ v.toRat - total.toRat) :
    (bstDec 0 G (bstEnc (v.sub total) 0 G 2)).isFinite = true ∧
      (total.add (bstDec 0 G (bstEnc (v.sub total) 0 G 2))).isFinite = true ∧
      |(total.add (bstDec 0 G (bstEnc (v.sub total) 0 G 2))).toRat - v.toRat| ≤
        d + G.toRat / 2 ^ 17 + 18 * G.toRat / 2 ^ 52 + 54 * tiny + 6 * B / 2 ^ 53 ∧
      |(total.add (bstDec 0 G (bstEnc (v.sub total) 0 G 2))).toRat -
          (total.toRat + (bstDec 0 G (bstEnc (v.sub total) 0 G 2)).toRat)| ≤ 4 * B / 2 ^ 53 := by
  have htp := tiny_pos
  have hy : |v.toRat - total.toRat| ≤ 2 * B := by
    have := abs_sub v.toRat total.toRat; linarith
  obtain ⟨s1, s2⟩ := sub_mod hv ht (by linarith)
  obtain ⟨e1, e2⟩ := bst_error zero_fin hG s1 h0 (by rw [zero_toRat, abs_zero]; linarith) 2 (by norm_num)
  rw [zero_toRat, abs_zero, zero_add] at e2
  generalize bstDec 0 G (bstEnc (v.sub total) 0 G 2) = δ at e1 e2 ⊢
  push_cast at e2
  have e3 : |δ.toRat - clamp 0 G.toRat (v.sub total).toRat| ≤
      G.toRat / 2 ^ 17 + 18 * G.toRat / 2 ^ 52 + 54 * tiny := by
    refine le_trans e2 (le_of_eq ?_); norm_num; ring
  have hcl : |clamp 0 G.toRat (v.sub total).toRat - (v.toRat - total.toRat)| ≤ d + 2 * B / 2 ^ 53 := by
    have a1 : |v.toRat - total.toRat| / 2 ^ 53 ≤ 2 * B / 2 ^ 53 := by gcongr
    have a2 := abs_le.1 (le_trans s2 a1)
    have hp : 0 ≤ 2 * B / 2 ^ 53 := by have : 0 ≤ B := by linarith
                                       positivity
    unfold clamp
    rw [abs_le]
    rcases le_total (v.sub total).toRat G.toRat with c | c
    · rw [min_eq_left c]
      rcases le_total 0 (v.sub total).toRat with k | k
      · rw [max_eq_right k]; constructor <;> linarith
      · rw [max_eq_left k]; constructor <;> linarith
    · rw [min_eq_right c, max_eq_right h0]; constructor <;> linarith
  have hδ : |δ.toRat| ≤ 3 * B := by
    have c1 : 0 ≤ clamp 0 G.toRat (v.sub total).toRat := le_max_left _ _
    have c2 : clamp 0 G.toRat (v.sub total).toRat ≤ G.toRat := max_le h0 (min_le_right _ _)
    have := abs_le.1 e3
    have : G.toRat / 2 ^ 17 + 18 * G.toRat / 2 ^ 52 ≤ B := by norm_num; linarith
    rw [abs_le]; constructor <;> linarith
  have hsum : |total.toRat + δ.toRat| ≤ 4 * B := by
    have := abs_add_le total.toRat δ.toRat; linarith
  obtain ⟨t1, t2⟩ := add_mod ht e1 (by linarith)
  have t3 : |(total.add δ).toRat - (total.toRat + δ.toRat)| ≤ 4 * B / 2 ^ 53 := le_trans t2 (by gcongr)
  refine ⟨e1, t1, ?_, t3⟩
  have u1 := abs_le.1 t3
  have u2 := abs_le.1 e3
  have u3 := abs_le.1 hcl
  rw [abs_le]
  constructor <;> linarith

/-- The same difference decoded with a slightly different range. -/
theorem drift_dec {G H total cur : F64} (hG : G.isFinite = true) (hH : H.isFinite = true) (ht : total.isFinite = true)
    (hc : cur.isFinite = true) (h0 : 0 ≤ G.toRat) (h0' : 0 ≤ H.toRat) {B : ℚ} (hB : B ≤ big / 8) (hB0 : 54 * tiny ≤ B)
    (b1 : G.toRat ≤ B) (b1' : H.toRat ≤ B) (b3 : |cur.toRat| ≤ B) (b : Bytes) (hb : b.length = 2)
    (hadd : |(total.add (bstDec 0 G b)).toRat - (total.toRat + (bstDec 0 G b).toRat)| ≤ 4 * B / 2 ^ 53) :
    (cur.add (bstDec 0 H b)).isFinite = true ∧
      |(cur.add (bstDec 0 H b)).toRat - (total.add (bstDec 0 G b)).toRat| ≤
        |cur.toRat - total.toRat| + (|H.toRat - G.toRat| + 18 * G.toRat / 2 ^ 52 + 18 * H.toRat / 2 ^ 52 + 72 * tiny +
          8 * B / 2 ^ 53) := by
  have htp := tiny_pos
  obtain ⟨e1, e2⟩ := bst_dec zero_fin hG h0 (by rw [zero_toRat, abs_zero]; linarith) b (by rw [hb]; norm_num)
  obtain ⟨e3, e4⟩ := bst_dec zero_fin hH h0' (by rw [zero_toRat, abs_zero]; linarith) b (by rw [hb]; norm_num)
  obtain ⟨p1, p2⟩ := frac_pos (unpackBits b)
  rw [zero_toRat, abs_zero, zero_add, zero_add, hb] at e2 e4
  generalize frac (unpackBits b) = w at *
  have q1 : |H.toRat * w - G.toRat * w| ≤ |H.toRat - G.toRat| := by
    rw [← sub_mul, abs_mul, abs_of_pos p1]
    have := mul_le_mul_of_nonneg_left p2.le (abs_nonneg (H.toRat - G.toRat))
    linarith
  have q2 : |(bstDec 0 H b).toRat| ≤ 3 * B := by
    have m1 : 0 ≤ H.toRat * w := by positivity
    have m2 := mul_le_mul_of_nonneg_left p2.le h0'
    have := abs_le.1 e4
    norm_num at this
    rw [abs_le]; constructor <;> linarith
  have hsum : |cur.toRat + (bstDec 0 H b).toRat| ≤ 4 * B := by
    have := abs_add_le cur.toRat (bstDec 0 H b).toRat; linarith
  obtain ⟨t1, t2⟩ := add_mod hc e3 (by linarith)
  have t3 : |(cur.add (bstDec 0 H b)).toRat - (cur.toRat + (bstDec 0 H b).toRat)| ≤ 4 * B / 2 ^ 53 :=
    le_trans t2 (by gcongr)
  refine ⟨t1, ?_⟩
  generalize bstDec 0 G b = δ at *
  generalize bstDec 0 H b = δ' at *
  have u1 := abs_le.1 t3
  have u2 := abs_le.1 hadd
  have u3 := abs_le.1 e2
  have u4 := abs_le.1 e4
  have u5 := abs_le.1 q1
  have u6 := abs_le.1 (le_refl |cur.toRat - total.toRat|)
  norm_num at u3 u4
  rw [abs_le]
  constructor <;> linarith

/-! ## Decoded differences are not negative -/

theorem bstDecBits_zero (bits : List Bool) {cur inc : F64} (hc : cur.isFinite = true) (hi : inc.isFinite = true)
    (h1 : cur.toRat = 0) (h2 : inc.toRat = 0) :
    (bstDecBits bits cur inc).isFinite = true ∧ (bstDecBits bits cur inc).toRat = 0 := by
  induction bits generalizing cur inc with
  | nil => exact ⟨hc, h1⟩
  | cons b bs ih =>
    have hb := big_pos
    obtain ⟨d1, d2, d3, d4⟩ := half_spec hi
    have hr : rn b64 0 = 0 := by
      have := F64.rn_toRat zero_fin; rwa [zero_toRat] at this
    rw [h2, zero_div, hr] at d2
    cases b
    · obtain ⟨s1, s2⟩ := sub_mod hc hi (by rw [h1, h2]; simpa using hb.le)
      rw [h1, h2] at s2
      have : (cur.sub inc).toRat = 0 := by simpa using s2
      exact ih s1 d1 this d2
    · obtain ⟨s1, s2⟩ := add_mod hc hi (by rw [h1, h2]; simpa using hb.le)
      rw [h1, h2] at s2
      have : (cur.add inc).toRat = 0 := by simpa using s2
      exact ih s1 d1 this d2

theorem unpackBits_length (b : Bytes) : (unpackBits b).length = 8 * b.length := by
  induction b with
  | nil => rfl
  | cons x b ih => simp [unpackBits, bitsOfByte_length, List.length_flatMap]; omega

theorem frac_ends (bits : List Bool) :
    1 / 2 ^ (bits.length + 1) ≤ frac bits ∧ frac bits ≤ 1 - 1 / 2 ^ (bits.length + 1) := by
  have h := abs_le.1 (offs_abs bits)
  have e : (1 : ℚ) / 2 ^ (bits.length + 1) = 2 / 2 ^ bits.length / 4 := by rw [pow_succ]; field_simp; norm_num
  unfold frac
  rw [e]
  constructor <;> linarith

theorem tiny_le' : tiny ≤ 1 / 2 ^ 200 := by
  unfold tiny
  exact one_div_le_one_div_of_le (by positivity) (pow_le_pow_right₀ (by norm_num) (by norm_num))

theorem bstDec_nonneg {H : F64} (hH : H.isFinite = true) (hM : H.toRat ≤ big / 4)
    (h : H.toRat = 0 ∨ 1 / 2 ^ 149 ≤ H.toRat) (b : Bytes) (hb : b.length = 2) : 0 ≤ (bstDec 0 H b).toRat := by
  rcases h with h | h
  · have hbp := big_pos
    obtain ⟨d1, d2, d3, d4⟩ := half_spec hH
    obtain ⟨q1, q2, q3, q4⟩ := quarter_spec hH
    have hr : rn b64 0 = 0 := by
      have := F64.rn_toRat zero_fin; rwa [zero_toRat] at this
    rw [h, zero_div, hr] at d2 q2
    obtain ⟨s1, s2⟩ := add_mod zero_fin d1 (by rw [zero_toRat, d2]; simpa using hbp.le)
    rw [zero_toRat, d2] at s2
    have : ((0 : F64).add (H.div f2)).toRat = 0 := by simpa using s2
    exact (bstDecBits_zero _ s1 q1 this q2).2.ge
  · have h0 : 0 ≤ H.toRat := le_trans (by positivity) h
    have ht := tiny_le'
    obtain ⟨e3, e4⟩ := bst_dec zero_fin hH h0 (by rw [zero_toRat, abs_zero]; linarith) b (by rw [hb]; norm_num)
    rw [zero_toRat, abs_zero, zero_add, zero_add, hb] at e4
    have e5 := (frac_ends (unpackBits b)).1
    rw [unpackBits_length, hb] at e5
    have e6 := mul_le_mul_of_nonneg_left e5 h0
    have e7 := (abs_le.1 e4).1
    norm_num at e6 e7 h ht
    linarith

theorem add_nonneg_le {x y : F64} (hx : x.isFinite = true) (hy : y.isFinite = true) (h0 : 0 ≤ y.toRat)
    (h : |x.toRat + y.toRat| ≤ big) : x.toRat ≤ (x.add y).toRat := by
  obtain ⟨h1, h2, h3⟩ := (F64.is_add hx hy).moderate h
  rw [h2, ← F64.rn_toRat hx]
  rw [F64.rn_toRat hx]
  calc x.toRat = rn b64 x.toRat := (F64.rn_toRat hx).symm
    _ ≤ _ := rn_mono b64_mb (by linarith)

/-! ## The walk -/

/-- What the walk needs to know about ranges and bounds. -/
structure Drift (G H : F64) (B s dE dF : ℚ) : Prop where
  gfin : G.isFinite = true
  hfin : H.isFinite = true
  g0 : 0 ≤ G.toRat
  h0 : H.toRat = 0 ∨ 1 / 2 ^ 149 ≤ H.toRat
  big : B ≤ big / 8
  small : 54 * tiny ≤ B
  gB : G.toRat ≤ B
  hB : H.toRat ≤ B
  s0 : 0 ≤ s
  e : s + G.toRat / 2 ^ 17 + 18 * G.toRat / 2 ^ 52 + 54 * tiny + 6 * B / 2 ^ 53 ≤ dE
  f : |H.toRat - G.toRat| + 18 * G.toRat / 2 ^ 52 + 18 * H.toRat / 2 ^ 52 + 72 * tiny + 8 * B / 2 ^ 53 ≤ dF

theorem Drift.nonneg {G H : F64} {B s dE dF : ℚ} (h : Drift G H B s dE dF) : 0 ≤ dE ∧ 0 ≤ dF ∧ 0 ≤ B ∧ 0 ≤ H.toRat := by
  have ht := tiny_pos
  have hB : 0 ≤ B := by linarith [h.small]
  have hH : 0 ≤ H.toRat := by
    rcases h.h0 with h | h
    · exact h.ge
    · exact le_trans (by positivity) h
  have a1 : 0 ≤ G.toRat / 2 ^ 17 := div_nonneg h.g0 (by positivity)
  have a2 : 0 ≤ 18 * G.toRat / 2 ^ 52 := div_nonneg (by linarith [h.g0]) (by positivity)
  have a3 : 0 ≤ 18 * H.toRat / 2 ^ 52 := div_nonneg (by linarith) (by positivity)
  have a4 : 0 ≤ 6 * B / 2 ^ 53 := by positivity
  have a5 : 0 ≤ 8 * B / 2 ^ 53 := by positivity
  have a6 := abs_nonneg (H.toRat - G.toRat)
  refine ⟨?_, ?_, hB, hH⟩
  · linarith [h.e, h.s0]
  · linarith [h.f]

/-- One step of encoder and decoder. `d` bounds how far the difference is outside the range. -/
theorem Drift.step {G H : F64} {B s dE dF : ℚ} (h : Drift G H B s dE dF) {t total cur : F64} {e f d : ℚ}
    (ht : t.isFinite = true) (hto : total.isFinite = true) (hc : cur.isFinite = true)
    (hf : |cur.toRat - total.toRat| ≤ f) (hd0 : 0 ≤ d)
    (hd1 : t.toRat - total.toRat ≤ G.toRat + s + d) (hd2 : -d ≤ t.toRat - total.toRat) (he : d ≤ e)
    (b1 : |total.toRat| ≤ B) (b2 : |t.toRat| ≤ B) (b3 : |cur.toRat| ≤ B) (b : Bytes)
    (hbe : b = bstEnc (t.sub total) 0 G 2) :
    (total.add (bstDec 0 G b)).isFinite = true ∧ (cur.add (bstDec 0 H b)).isFinite = true ∧
      |(total.add (bstDec 0 G b)).toRat - t.toRat| ≤ e + dE ∧
      |(cur.add (bstDec 0 H b)).toRat - (total.add (bstDec 0 G b)).toRat| ≤ f + dF ∧
      cur.toRat ≤ (cur.add (bstDec 0 H b)).toRat := by
  have htp := tiny_pos
  have hbp := big_pos
  have hb : b.length = 2 := by rw [hbe]; exact packBits_length _ _
  obtain ⟨n1, n2, n3, n4⟩ := h.nonneg
  have hs := h.s0
  obtain ⟨a1, a2, a3, a4⟩ := drift_step h.gfin hto ht h.g0 h.big h.small h.gB b1 b2 (d := d + s) (by linarith)
    (by linarith) (by linarith)
  rw [← hbe] at a1 a2 a3 a4
  obtain ⟨c1, c2⟩ := drift_dec h.gfin h.hfin hto hc h.g0 n4 h.big h.small h.gB h.hB b3 b hb a4
  refine ⟨a2, c1, le_trans a3 (by linarith [h.e]), le_trans c2 (by linarith [h.f]), ?_⟩
  have hHB := h.hB
  have hbig := h.big
  obtain ⟨e3, e4⟩ := bst_dec zero_fin h.hfin n4 (by rw [zero_toRat, abs_zero]; linarith) b (by rw [hb]; norm_num)
  refine add_nonneg_le hc e3 (bstDec_nonneg h.hfin (by linarith) h.h0 b hb) ?_
  rw [zero_toRat, abs_zero, zero_add, zero_add, hb] at e4
  obtain ⟨p1, p2⟩ := frac_pos (unpackBits b)
  have m1 : 0 ≤ H.toRat * frac (unpackBits b) := by positivity
  have m2 := mul_le_mul_of_nonneg_left p2.le n4
  have u := abs_le.1 e4
  have u3 := abs_le.1 b3
  have hsm := h.small
  norm_num at u
  rw [abs_le]
  constructor <;> linarith

/-- Errors grow by at most `dE + dF` per time, and the decoded times do not decrease. -/
theorem drift_walk {G H : F64} {B s dE dF T : ℚ} (h : Drift G H B s dE dF) (ts : List F64) {prev total cur : F64}
    {e f : ℚ} (hp : prev.isFinite = true) (hto : total.isFinite = true) (hc : cur.isFinite = true)
    (hts : ∀ t ∈ prev :: ts, t.isFinite = true ∧ |t.toRat| ≤ T)
    (hgap : (prev :: ts).IsChain fun a b => a.toRat ≤ b.toRat ∧ b.toRat - a.toRat ≤ G.toRat + s)
    (he : |total.toRat - prev.toRat| ≤ e) (hf : |cur.toRat - total.toRat| ≤ f)
    (hB : T + e + f + ts.length * (dE + dF) ≤ B) :
    (∀ t ∈ timeSums H cur (timeCodes G total ts), t.isFinite = true) ∧
      (cur :: timeSums H cur (timeCodes G total ts)).IsChain (fun a b => a.toRat ≤ b.toRat) ∧
      (timeSums H cur (timeCodes G total ts)).length = ts.length ∧
      ∀ (i : Nat) (a b : F64), ts[i]? = some a → (timeSums H cur (timeCodes G total ts))[i]? = some b →
        |b.toRat - a.toRat| ≤ e + f + (i + 1) * (dE + dF) := by
  induction ts generalizing prev total cur e f with
  | nil => simp [timeCodes, timeSums]
  | cons t ts ih =>
    obtain ⟨n1, n2, n3, n4⟩ := h.nonneg
    have hlen : ((t :: ts).length : ℚ) = ts.length + 1 := by simp
    rw [hlen] at hB
    have hl0 : (0 : ℚ) ≤ ts.length := by positivity
    have hmul : (0 : ℚ) ≤ ts.length * (dE + dF) := mul_nonneg hl0 (by linarith)
    have he0 := le_trans (abs_nonneg _) he
    have hf0 := le_trans (abs_nonneg _) hf
    obtain ⟨g1, g2⟩ := List.isChain_cons_cons.1 hgap
    have ht := hts t (by simp)
    have hpT := abs_le.1 (hts prev (by simp)).2
    have he' := abs_le.1 he
    have hf' := abs_le.1 hf
    obtain ⟨r1, r2, r3, r4, r5⟩ := h.step (e := e) (d := e) ht.1 hto hc hf he0 (by linarith) (by linarith) (le_refl _)
      (by rw [abs_le]; constructor <;> linarith) (by linarith [ht.2]) (by rw [abs_le]; constructor <;> linarith) _ rfl
    obtain ⟨i1, i2, i3, i4⟩ := ih ht.1 r1 r2 (fun x hx => hts x (by simp [hx])) g2 r3 r4 (by linarith)
    simp only [timeCodes, timeSums]
    refine ⟨?_, ?_, by rw [List.length_cons, List.length_cons, i3], ?_⟩
    · intro x hx
      rcases List.mem_cons.1 hx with rfl | hx
      · exact r2
      · exact i1 x hx
    · exact List.isChain_cons_cons.2 ⟨r5, i2⟩
    · intro i a b ha hb
      cases i with
      | zero =>
        simp only [List.getElem?_cons_zero, Option.some.injEq] at ha hb
        subst ha hb
        have u1 := abs_le.1 r3
        have u2 := abs_le.1 r4
        rw [Nat.cast_zero, zero_add, one_mul, abs_le]
        constructor <;> linarith
      | succ i =>
        simp only [List.getElem?_cons_succ] at ha hb
        have := i4 i a b ha hb
        rw [Nat.cast_succ]
        linarith

/-- If all differences stay clear of zero and no two in a row come close to the range, the error of the running total
does not accumulate. -/
theorem drift_walk_irregular {G H : F64} {B s dE dF T : ℚ} (h : Drift G H B s dE dF) (ts : List F64)
    {prev total cur : F64} {f : ℚ} (hp : prev.isFinite = true) (hto : total.isFinite = true) (hc : cur.isFinite = true)
    (hts : ∀ t ∈ prev :: ts, t.isFinite = true ∧ |t.toRat| ≤ T)
    (hgap : (prev :: ts).IsChain fun a b => 2 * dE ≤ b.toRat - a.toRat ∧ b.toRat - a.toRat ≤ G.toRat + s)
    (htwo : ∀ (i : Nat) (a b c : F64), (prev :: ts)[i]? = some a → (prev :: ts)[i + 1]? = some b →
      (prev :: ts)[i + 2]? = some c → b.toRat - a.toRat ≤ G.toRat - 2 * dE ∨ c.toRat - b.toRat ≤ G.toRat - 2 * dE)
    (he : |total.toRat - prev.toRat| ≤ dE ∨ (|total.toRat - prev.toRat| ≤ 2 * dE ∧
      ∀ t ∈ ts.head?, t.toRat - prev.toRat ≤ G.toRat - 2 * dE))
    (hf : |cur.toRat - total.toRat| ≤ f) (hB : T + 2 * dE + f + ts.length * dF ≤ B) :
    ∀ (i : Nat) (a b : F64), ts[i]? = some a → (timeSums H cur (timeCodes G total ts))[i]? = some b →
        |b.toRat - a.toRat| ≤ 2 * dE + f + (i + 1) * dF := by
  induction ts generalizing prev total cur f with
  | nil => simp
  | cons t ts ih =>
    obtain ⟨n1, n2, n3, n4⟩ := h.nonneg
    have hlen : ((t :: ts).length : ℚ) = ts.length + 1 := by simp
    rw [hlen] at hB
    have hl0 : (0 : ℚ) ≤ ts.length := by positivity
    have hmul : (0 : ℚ) ≤ ts.length * dF := mul_nonneg hl0 n2
    have hf0 := le_trans (abs_nonneg _) hf
    obtain ⟨g1, g2⟩ := List.isChain_cons_cons.1 hgap
    have ht := hts t (by simp)
    have hpT := abs_le.1 (hts prev (by simp)).2
    have he2 : |total.toRat - prev.toRat| ≤ 2 * dE := by
      rcases he with he | he
      · linarith
      · exact he.1
    have he' := abs_le.1 he2
    have hf' := abs_le.1 hf
    have hstep : ∃ b, b = bstEnc (t.sub total) 0 G 2 ∧ (total.add (bstDec 0 G b)).isFinite = true ∧
        (cur.add (bstDec 0 H b)).isFinite = true ∧
        (|(total.add (bstDec 0 G b)).toRat - t.toRat| ≤ dE ∨ (|(total.add (bstDec 0 G b)).toRat - t.toRat| ≤ 2 * dE ∧
          ∀ u ∈ ts.head?, u.toRat - t.toRat ≤ G.toRat - 2 * dE)) ∧
        |(cur.add (bstDec 0 H b)).toRat - (total.add (bstDec 0 G b)).toRat| ≤ f + dF := by
      refine ⟨_, rfl, ?_⟩
      by_cases hsm : t.toRat - prev.toRat ≤ G.toRat - 2 * dE
      · have hs0 := h.s0
        obtain ⟨r1, r2, r3, r4, r5⟩ := h.step (e := 0) (d := 0) ht.1 hto hc hf (le_refl _) (by linarith)
          (by linarith) (le_refl _) (by rw [abs_le]; constructor <;> linarith) (by linarith [ht.2])
          (by rw [abs_le]; constructor <;> linarith) _ rfl
        rw [zero_add] at r3
        exact ⟨r1, r2, .inl r3, r4⟩
      · have he1 : |total.toRat - prev.toRat| ≤ dE := by
          rcases he with he | he
          · exact he
          · exact absurd (he.2 t rfl) hsm
        have he1' := abs_le.1 he1
        obtain ⟨r1, r2, r3, r4, r5⟩ := h.step (e := dE) (d := dE) ht.1 hto hc hf n1 (by linarith)
          (by linarith) (le_refl _) (by rw [abs_le]; constructor <;> linarith) (by linarith [ht.2])
          (by rw [abs_le]; constructor <;> linarith) _ rfl
        refine ⟨r1, r2, .inr ⟨by linarith, ?_⟩, r4⟩
        intro u hu
        cases ts with
        | nil => simp at hu
        | cons v vs =>
          simp only [List.head?_cons, Option.mem_def, Option.some.injEq] at hu
          rcases htwo 0 prev t v rfl rfl rfl with k | k
          · exact absurd k hsm
          · rw [← hu]; exact k
    obtain ⟨b, hbe, r1, r2, r3, r4⟩ := hstep
    have i4 := ih ht.1 r1 r2 (fun x hx => hts x (by simp [hx])) g2
      (fun i a b c h1 h2 h3 => htwo (i + 1) a b c h1 h2 h3) r3 r4 (by linarith)
    have r3' : |(total.add (bstDec 0 G b)).toRat - t.toRat| ≤ 2 * dE := by
      rcases r3 with r3 | r3
      · linarith
      · exact r3.1
    simp only [timeCodes, timeSums]
    rw [← hbe]
    intro i a c ha hb
    cases i with
    | zero =>
      simp only [List.getElem?_cons_zero, Option.some.injEq] at ha hb
      subst ha hb
      have u1 := abs_le.1 r3'
      have u2 := abs_le.1 r4
      rw [Nat.cast_zero, zero_add, one_mul, abs_le]
      constructor <;> linarith
    | succ i =>
      simp only [List.getElem?_cons_succ] at ha hb
      have := i4 i a c ha hb
      rw [Nat.cast_succ]
      linarith

end Rap
