import Verif.Proof.Angle
import Verif.Proof.Bits
import Verif.Proof.Drift
import Verif.Spec.Stored

/-!
# Storing what was stored before
-/

namespace Rap

/-- A walk on a grid of floats is exact, and the value it ends at leads the encoder along the same path. -/
theorem walk_exact {j : Nat} (hj : (2 : ℚ) ^ 53 * (2 ^ j * tiny) ≤ big) {C : Nat} (hC : 0 < C) (bits : List Bool) {k : Nat}
    (hk : bits.length ≤ k) {cur inc : F64} (hc : cur.isFinite = true) (hi : inc.isFinite = true) {A : Int}
    (hA : cur.toRat = A * (2 ^ j * tiny)) (hI : inc.toRat = (C * 2 ^ k : Nat) * (2 ^ j * tiny))
    (hb : A.natAbs + 2 * (C * 2 ^ k) ≤ 2 ^ 53) :
    (bstDecBits bits cur inc).isFinite = true ∧ (bstDecBits bits cur inc).toRat = cur.toRat + inc.toRat * offs bits ∧
      ∀ v : F64, v.isFinite = true → v.toRat = cur.toRat + inc.toRat * offs bits →
        bstEncBits v bits.length cur inc = bits := by
  have ht := tiny_pos
  have hg : (0 : ℚ) < 2 ^ j * tiny := by positivity
  induction bits generalizing k cur inc A with
  | nil => exact ⟨hc, by simp [bstDecBits, offs], fun v _ _ => rfl⟩
  | cons b bs ih =>
    cases k with
    | zero => simp at hk
    | succ k =>
      rw [List.length_cons, Nat.add_le_add_iff_right] at hk
      have hpk : C * 2 ^ (k + 1) = 2 * (C * 2 ^ k) := by ring
      have hIpos : 0 < inc.toRat := by rw [hI]; positivity
      -- the halved increment
      have hinc : (inc.div f2).isFinite = true ∧ (inc.div f2).toRat = (C * 2 ^ k : Nat) * (2 ^ j * tiny) := by
        obtain ⟨h1, h2, -⟩ := half_spec hi
        refine ⟨h1, ?_⟩
        have e : inc.toRat / 2 = (C * 2 ^ k : Nat) * (2 ^ j * tiny) := by rw [hI]; push_cast; ring
        rw [h2, e]
        refine rn_dyadic (a := C * 2 ^ k) (j := j) (by omega) ?_ ?_
        · rw [abs_of_nonneg (by positivity)]; ring
        · rw [abs_of_nonneg (by positivity)]
          refine le_trans ?_ hj
          have : ((C * 2 ^ k : Nat) : ℚ) ≤ 2 ^ 53 := by
            have h : C * 2 ^ k ≤ 2 ^ 53 := by omega
            exact_mod_cast h
          nlinarith
      -- the next value
      have hmove : ∀ s : Int, (s = 1 ∨ s = -1) → rn b64 (cur.toRat + s * inc.toRat) = cur.toRat + s * inc.toRat ∧
          |cur.toRat + s * inc.toRat| ≤ big ∧
          cur.toRat + s * inc.toRat = ((A + s * (C * 2 ^ (k + 1) : Nat) : Int) : ℚ) * (2 ^ j * tiny) ∧
          (A + s * (C * 2 ^ (k + 1) : Nat)).natAbs + 2 * (C * 2 ^ k) ≤ 2 ^ 53 := by
        intro s hs
        have e : cur.toRat + s * inc.toRat = ((A + s * (C * 2 ^ (k + 1) : Nat) : Int) : ℚ) * (2 ^ j * tiny) := by
          rw [hA, hI]; push_cast; ring
        have hle : (A + s * (C * 2 ^ (k + 1) : Nat)).natAbs + 2 * (C * 2 ^ k) ≤ 2 ^ 53 := by
          rcases hs with rfl | rfl <;> omega
        have habs : |cur.toRat + s * inc.toRat| = (A + s * (C * 2 ^ (k + 1) : Nat)).natAbs * (2 ^ j * tiny) := by
          rw [e, abs_mul, abs_of_pos hg, Nat.cast_natAbs, Int.cast_abs]
        have hbig : |cur.toRat + s * inc.toRat| ≤ big := by
          rw [habs]
          refine le_trans ?_ hj
          have : (((A + s * (C * 2 ^ (k + 1) : Nat)).natAbs : Nat) : ℚ) ≤ 2 ^ 53 := by
            have h : (A + s * (C * 2 ^ (k + 1) : Nat)).natAbs ≤ 2 ^ 53 := by omega
            exact_mod_cast h
          exact mul_le_mul_of_nonneg_right this hg.le
        refine ⟨rn_dyadic (a := (A + s * (C * 2 ^ (k + 1) : Nat)).natAbs) (j := j) (by omega) ?_ hbig, hbig, e, hle⟩
        rw [habs]; ring
      have habs := abs_lt.1 (offs_abs_lt bs)
      cases b with
      | true =>
        obtain ⟨m1, m2, m3, m4⟩ := hmove 1 (.inl rfl)
        push_cast at m1 m2
        rw [one_mul] at m1 m2
        have hadd := (F64.is_add hc hi).moderate m2
        rw [m1] at hadd
        have hA' : (cur.add inc).toRat = ((A + 1 * (C * 2 ^ (k + 1) : Nat) : Int) : ℚ) * (2 ^ j * tiny) := by
          rw [hadd.2.1, ← m3]; push_cast; ring
        obtain ⟨r1, r2, r3⟩ := ih hk hadd.1 hinc.1 hA' hinc.2 m4
        have eoff : cur.toRat + inc.toRat * offs (true :: bs) = (cur.add inc).toRat + (inc.div f2).toRat * offs bs := by
          rw [hadd.2.1, hinc.2, hI, offs, if_pos rfl]; push_cast; ring
        refine ⟨r1, by rw [bstDecBits, r2, eoff], fun v hv he => ?_⟩
        rw [List.length_cons, bstEncBits, if_neg, r3 v hv (by rw [he, eoff])]
        rw [F64.lt_iff hv hc, he, offs]
        simp only [if_true]
        nlinarith
      | false =>
        obtain ⟨m1, m2, m3, m4⟩ := hmove (-1) (.inr rfl)
        push_cast at m1 m2
        rw [neg_one_mul, ← sub_eq_add_neg] at m1 m2
        have hadd := (F64.is_sub hc hi).moderate m2
        rw [m1] at hadd
        have hA' : (cur.sub inc).toRat = ((A + -1 * (C * 2 ^ (k + 1) : Nat) : Int) : ℚ) * (2 ^ j * tiny) := by
          rw [hadd.2.1, ← m3]; push_cast; ring
        obtain ⟨r1, r2, r3⟩ := ih hk hadd.1 hinc.1 hA' hinc.2 m4
        have eoff : cur.toRat + inc.toRat * offs (false :: bs) = (cur.sub inc).toRat + (inc.div f2).toRat * offs bs := by
          rw [hadd.2.1, hinc.2, hI, offs, if_neg (by simp)]; push_cast; ring
        refine ⟨r1, by rw [bstDecBits, r2, eoff], fun v hv he => ?_⟩
        rw [List.length_cons, bstEncBits, if_pos, r3 v hv (by rw [he, eoff])]
        rw [F64.lt_iff hv hc, he, offs]
        simp only [Bool.false_eq_true, if_false]
        nlinarith

/-- Half and quarter of a turn. -/
theorem turn_parts : ((0 : F64).add (f360.div f2)).isFinite = true ∧ ((0 : F64).add (f360.div f2)).toRat = 180 ∧
    (f360.div f4).isFinite = true ∧ (f360.div f4).toRat = 90 := by decide +kernel

theorem grid15 : (2 : ℚ) ^ 1059 * tiny = 1 / 2 ^ 15 := by
  have h := one_tiny
  have : (2 : ℚ) ^ 1074 = 2 ^ 1059 * 2 ^ 15 := by rw [← pow_add]
  rw [this] at h
  rw [eq_div_iff (by positivity)]
  rw [mul_right_comm]; exact h.symm

/-- A decoded angle is exact, and encoded as the bytes it came from. -/
theorem angle_exact (b : Bytes) (hb : b.length = 2) :
    (bstDec 0 f360 b).isFinite = true ∧ (bstDec 0 f360 b).toRat = 180 + 90 * offs (unpackBits b) ∧
      ∀ v : F64, v.isFinite = true → v.toRat = (bstDec 0 f360 b).toRat → bstEnc v 0 f360 2 = b := by
  obtain ⟨h1, h2, h3, h4⟩ := turn_parts
  have hl : (unpackBits b).length = 16 := by rw [unpackBits_length, hb]
  have hbig := big_ge
  obtain ⟨r1, r2, r3⟩ := walk_exact (j := 1059) (by rw [grid15]; refine le_trans ?_ hbig; norm_num) (C := 45) (by norm_num)
    (unpackBits b) (k := 16) hl.le h1 h3 (A := 45 * 2 ^ 17) (by rw [h2, grid15]; norm_num)
    (by rw [h4, grid15]; norm_num) (by decide)
  rw [h2, h4] at r2 r3
  refine ⟨r1, r2, fun v hv he => ?_⟩
  have := r3 v hv (by rw [he]; exact r2)
  rw [hl] at this
  rw [bstEnc, this]
  have := pack_unpack b
  rwa [hb] at this

/-- A decoded angle is not changed by wrapping. -/
theorem wrap_decoded (b : Bytes) (hb : b.length = 2) :
    (wrapEuler (bstDec 0 f360 b)).isFinite = true ∧ (wrapEuler (bstDec 0 f360 b)).toRat = (bstDec 0 f360 b).toRat := by
  obtain ⟨h1, h2, -⟩ := angle_exact b hb
  have hl : (unpackBits b).length = 16 := by rw [unpackBits_length, hb]
  have ho := abs_le.1 (offs_abs (unpackBits b))
  rw [hl] at ho
  generalize bstDec 0 f360 b = x at *
  have hx0 : 0 < x.toRat ∧ x.toRat ≤ 360 - 90 / 2 ^ 15 := by
    rw [h2]; norm_num at ho ⊢; constructor <;> linarith [ho.1, ho.2]
  have hbig := big_ge
  have hd := F64.is_div h1 f360_val.1 (by rw [f360_val.2]; norm_num)
  rw [f360_val.2] at hd
  have hq0 : 0 < x.toRat / 360 := by apply div_pos hx0.1; norm_num
  have hq1 : x.toRat / 360 ≤ 1 - 1 / 2 ^ 17 := by
    rw [div_le_iff₀ (by norm_num)]; norm_num at hx0 ⊢; linarith [hx0.2]
  obtain ⟨d1, d2, d3⟩ := hd.moderate (by rw [abs_of_pos hq0]; norm_num at hq1 hbig ⊢; linarith)
  have hy0 : 0 ≤ (x.div f360).toRat := by rw [d2]; exact rn_nonneg hq0.le
  have hy1 : (x.div f360).toRat ≤ 1 - 1 / 2 ^ 17 := by
    rw [d2]
    have e : rn b64 (1 - 1 / 2 ^ 17) = 1 - 1 / 2 ^ 17 := by
      refine rn_dyadic (a := 2 ^ 17 - 1) (j := 1057) (by norm_num) ?_ ?_
      · have h := one_tiny
        have : (2 : ℚ) ^ 1074 = 2 ^ 1057 * 2 ^ 17 := by rw [← pow_add]
        rw [this] at h
        have e2 : (2 : ℚ) ^ 1057 * tiny = 1 / 2 ^ 17 := by rw [eq_div_iff (by positivity)]; rw [mul_right_comm]; exact h.symm
        rw [mul_assoc, e2]; norm_num [abs_of_pos]
      · norm_num [abs_of_pos]; norm_num at hbig; linarith
    rw [← e]
    exact rn_mono b64_mb hq1
  obtain ⟨f1, f2⟩ := floor_spec d1 (by rw [abs_of_nonneg hy0]; norm_num at hy1 ⊢; linarith)
  have hfl : ⌊(x.div f360).toRat⌋ = 0 := by
    rw [Int.floor_eq_iff]
    constructor
    · simpa using hy0
    · norm_num at hy1 ⊢; linarith
  rw [hfl] at f2
  have hm := F64.is_mul f360_val.1 f1
  rw [f2, Int.cast_zero, mul_zero] at hm
  obtain ⟨m1, m2, -⟩ := hm.moderate (by rw [abs_zero]; exact big_pos.le)
  have hrn0 : rn b64 0 = 0 := by simpa using rn_int (i := 0) (by norm_num)
  rw [hrn0] at m2
  have hs := sub_mod h1 m1 (by rw [m2, sub_zero, abs_of_pos hx0.1]; norm_num at hbig hx0 ⊢; linarith [hx0.2])
  have hsub := (F64.is_sub h1 m1).moderate (by
    rw [m2, sub_zero, abs_of_pos hx0.1]; norm_num at hbig hx0 ⊢; linarith [hx0.2])
  refine ⟨hsub.1, ?_⟩
  rw [wrapEuler, hsub.2.1, m2, sub_zero]
  have := rn_val b64_mb (f := b64) (x := x.fp) ((F64.finite_iff x).1 h1).le
  rwa [F64.val_eq h1] at this

/-- Storing an angle twice with 16 bits is storing it once. -/
theorem angle16_angle16 (a : F64) : angle16 (angle16 a) = angle16 a := by
  have hb : (bstEnc (wrapEuler a) 0 f360 2).length = 2 := packBits_length 2 _
  unfold angle16
  generalize bstEnc (wrapEuler a) 0 f360 2 = b at *
  obtain ⟨h1, h2⟩ := wrap_decoded b hb
  rw [(angle_exact b hb).2.2 _ h1 h2]

end Rap
