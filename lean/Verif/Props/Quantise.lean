import Verif.Proof.Angle
import Verif.Props.Encoders

/-!
# C11, C38: quantised values
-/

namespace Rap

/-! ## C11 -/

theorem fin_of {x : F64} {q : ℚ} (h : number64 x = .fin q) : x.isFinite = true ∧ x.toRat = q := by
  have hf : x.isFinite = true := (F64.finite_number x).2 ⟨q, h⟩
  have := F64.number_fin hf
  rw [h] at this
  exact ⟨hf, (Number.fin.inj this).symm⟩

private theorem frac_ends (bits : List Bool) :
    1 / 2 ^ (bits.length + 1) ≤ frac bits ∧ frac bits ≤ 1 - 1 / 2 ^ (bits.length + 1) := by
  have h := abs_le.1 (offs_abs bits)
  have e : (1 : ℚ) / 2 ^ (bits.length + 1) = 2 / 2 ^ bits.length / 4 := by rw [pow_succ]; field_simp; norm_num
  unfold frac
  rw [e]
  constructor <;> linarith

private theorem unpackBits_length (b : Bytes) : (unpackBits b).length = 8 * b.length := by
  induction b with
  | nil => rfl
  | cons x b ih => simp [unpackBits, bitsOfByte_length, List.length_flatMap]; omega

private theorem bstEnc_len (v s d : F64) (n : Nat) : (bstEnc v s d n).length = n := packBits_length _ _

private theorem big_quarter : big / 4 = 2 ^ 1021 := by
  unfold big
  rw [div_eq_iff (by norm_num), show (4 : ℚ) = 2 ^ 2 by norm_num, ← pow_add]

private theorem tiny_def : tiny = 1 / 2 ^ 1074 := by unfold tiny; rfl

/-- C11: a number `V` stored with `n` bytes in the range from `S` to `S + D` is read back within half a cell,
`D / 2 ^ (8 n + 1)`, of the number of the range nearest to it, apart from rounding: the allowance is
`(8 n + 2) * ((|S| + D) / 2 ^ 52 + 3 / 2 ^ 1074)`. -/
theorem C11_quantiser_error (start duration value : F64) (S D V : ℚ) (hs : number64 start = .fin S)
    (hd : number64 duration = .fin D) (hv : number64 value = .fin V) (h0 : 0 ≤ D) (hM : |S| + D ≤ 2 ^ 1021)
    (n : Nat) (hn : 8 * n ≤ 2 ^ 49) :
    ∃ R, number64 (bstDec start duration (bstEnc value start duration n)) = .fin R ∧
      (S ≤ V → V ≤ S + D →
        |R - V| ≤ D / 2 ^ (8 * n + 1) + (8 * n + 2) * ((|S| + D) / 2 ^ 52 + 3 * (1 / 2 ^ 1074))) ∧
      (V < S → |R - S| ≤ D / 2 ^ (8 * n + 1) + (8 * n + 2) * ((|S| + D) / 2 ^ 52 + 3 * (1 / 2 ^ 1074))) ∧
      (S + D < V → |R - (S + D)| ≤ D / 2 ^ (8 * n + 1) + (8 * n + 2) * ((|S| + D) / 2 ^ 52 + 3 * (1 / 2 ^ 1074))) := by
  obtain ⟨fs, rfl⟩ := fin_of hs
  obtain ⟨fd, rfl⟩ := fin_of hd
  obtain ⟨fv, rfl⟩ := fin_of hv
  obtain ⟨h1, h2⟩ := bst_error fs fd fv h0 (by rw [big_quarter]; exact hM) n hn
  rw [tiny_def] at h2
  refine ⟨_, F64.number_fin h1, fun a b => ?_, fun a => ?_, fun a => ?_⟩
  · have : clamp start.toRat (start.toRat + duration.toRat) value.toRat = value.toRat := by
      rw [clamp, min_eq_left b, max_eq_right a]
    rwa [this] at h2
  · have : clamp start.toRat (start.toRat + duration.toRat) value.toRat = start.toRat := by
      rw [clamp, max_eq_left (le_trans (min_le_left _ _) a.le)]
    rwa [this] at h2
  · have : clamp start.toRat (start.toRat + duration.toRat) value.toRat = start.toRat + duration.toRat := by
      rw [clamp, min_eq_right a.le, max_eq_right (by linarith)]
    rwa [this] at h2

/-- C11: every byte string decodes to the middle of one of the `2 ^ (8 n)` cells of the range, apart from rounding.
In particular nothing decodes to a number outside the first and last middle, the representable ends. -/
theorem C11_decoded_in_range (start duration : F64) (S D : ℚ) (hs : number64 start = .fin S)
    (hd : number64 duration = .fin D) (h0 : 0 ≤ D) (hM : |S| + D ≤ 2 ^ 1021) (b : Bytes)
    (hn : 8 * b.length ≤ 2 ^ 49) :
    ∃ R, number64 (bstDec start duration b) = .fin R ∧
      S + D / 2 ^ (8 * b.length + 1) - (8 * b.length + 2) * ((|S| + D) / 2 ^ 52 + 3 * (1 / 2 ^ 1074)) ≤ R ∧
      R ≤ S + D - D / 2 ^ (8 * b.length + 1) + (8 * b.length + 2) * ((|S| + D) / 2 ^ 52 + 3 * (1 / 2 ^ 1074)) := by
  obtain ⟨fs, rfl⟩ := fin_of hs
  obtain ⟨fd, rfl⟩ := fin_of hd
  have ht := tiny_pos
  obtain ⟨h1, h2⟩ := bst_dec fs fd h0 (by rw [big_quarter]; exact hM) b hn
  obtain ⟨e1, e2⟩ := frac_ends (unpackBits b)
  rw [unpackBits_length] at e1 e2
  have g1 := mul_le_mul_of_nonneg_left e1 h0
  have g2 := mul_le_mul_of_nonneg_left e2 h0
  rw [mul_sub, mul_one, mul_one_div] at g2
  rw [mul_one_div] at g1
  clear hM
  have g3 : (8 * (b.length : ℚ) + 2) * ((|start.toRat| + duration.toRat) / 2 ^ 52 + 2 * tiny) ≤
      (8 * b.length + 2) * ((|start.toRat| + duration.toRat) / 2 ^ 52 + 3 * tiny) :=
    mul_le_mul_of_nonneg_left (by linarith) (by positivity)
  have h3 := abs_le.1 (le_trans h2 g3)
  rw [tiny_def] at h3
  refine ⟨_, F64.number_fin h1, ?_, ?_⟩
  · have := h3.1
    generalize (8 * (b.length : ℚ) + 2) * ((|start.toRat| + duration.toRat) / 2 ^ 52 + 3 * (1 / 2 ^ 1074)) = w at this ⊢
    linarith
  · have := h3.2
    generalize (8 * (b.length : ℚ) + 2) * ((|start.toRat| + duration.toRat) / 2 ^ 52 + 3 * (1 / 2 ^ 1074)) = w at this ⊢
    linarith

/-- Storing 1/3 in the range from 0 to 1 with two bytes. -/
example : number64 0 = .fin 0 ∧ number64 0x3FF0000000000000 = .fin 1 ∧
    number64 0x3FD5555555555555 = .fin (6004799503160661 / 2 ^ 54) ∧
    number64 (bstDec 0 0x3FF0000000000000 (bstEnc 0x3FD5555555555555 0 0x3FF0000000000000 2)) = .fin (43691 / 2 ^ 17) ∧
    |(0 : ℚ)| + 1 ≤ 2 ^ 1021 ∧ 8 * 2 ≤ 2 ^ 49 := by
  refine ⟨by decide +kernel, by decide +kernel, by decide +kernel, by decide +kernel, ?_, by decide⟩
  simp only [abs_zero, zero_add]
  exact one_le_pow₀ (by norm_num)

/-! ## C38 -/

private theorem zero_val : (0 : F64).isFinite = true ∧ (0 : F64).toRat = 0 := by decide +kernel

private theorem angle_range {x : F64} (b : Bytes) (hb : b.length = 2) (hx : x = bstDec 0 f360 b) :
    x.isFinite = true ∧ 0 < x.toRat ∧ x.toRat < 360 := by
  have ht := tiny_le
  have hbig := big_ge
  obtain ⟨h1, h2⟩ := bst_dec zero_val.1 f360_val.1 (by rw [f360_val.2]; norm_num)
    (by rw [zero_val.2, f360_val.2, abs_zero]; linarith) b (by rw [hb]; norm_num)
  obtain ⟨e1, e2⟩ := frac_ends (unpackBits b)
  rw [unpackBits_length, hb] at e1 e2
  rw [hb, zero_val.2, f360_val.2, abs_zero, zero_add, zero_add] at h2
  have h3 := abs_le.1 h2
  rw [hx]
  norm_num at e1 e2 h3 ht
  exact ⟨h1, by linarith [h3.1], by linarith [h3.2]⟩

private theorem angle_error {x : F64} (hx : x.isFinite = true) (h : |x.toRat| ≤ 2 ^ 30) :
    ∃ k : Int, (k = ⌊x.toRat / 360⌋ ∨ (k = 0 ∧ -1 / 2 ^ 1066 ≤ x.toRat ∧ x.toRat < 0)) ∧
      |(angle16 x).toRat - (x.toRat - 360 * k)| ≤ 360 / 2 ^ 17 + 1 / 2 ^ 39 := by
  have ht := tiny_le
  have hbig := big_ge
  obtain ⟨k, hk, w1, w2⟩ := wrap_spec hx h
  refine ⟨k, hk, ?_⟩
  obtain ⟨h1, h2⟩ := bst_error zero_val.1 f360_val.1 w1 (by rw [f360_val.2]; norm_num)
    (by rw [zero_val.2, f360_val.2, abs_zero]; linarith) 2 (by norm_num)
  rw [zero_val.2, f360_val.2, abs_zero, zero_add] at h2
  have hsmall : (1 : ℚ) / 2 ^ 1066 ≤ 1 / 2 ^ 200 :=
    one_div_le_one_div_of_le (by positivity) (pow_le_pow_right₀ (by norm_num) (by norm_num))
  have hrange : -(1 / 2 ^ 200) ≤ x.toRat - 360 * k ∧ x.toRat - 360 * k ≤ 360 := by
    rcases hk with rfl | ⟨rfl, h3, h4⟩
    · have a1 : (⌊x.toRat / 360⌋ : ℚ) ≤ x.toRat / 360 := Int.floor_le _
      have a2 : x.toRat / 360 < ⌊x.toRat / 360⌋ + 1 := Int.lt_floor_add_one _
      have : (0 : ℚ) ≤ 1 / 2 ^ 200 := by positivity
      constructor <;> linarith
    · rw [neg_div] at h3
      generalize (1 : ℚ) / 2 ^ 1066 = w at *
      constructor
      · push_cast; linarith
      · push_cast; linarith
  have hcl : |clamp 0 360 (wrapEuler x).toRat - (x.toRat - 360 * k)| ≤ 360 / 2 ^ 53 + 1 / 2 ^ 200 := by
    have w3 := abs_le.1 w2
    have hp : (0 : ℚ) ≤ 1 / 2 ^ 200 := by positivity
    unfold clamp
    rw [abs_le]
    rcases le_total (wrapEuler x).toRat 360 with c | c
    · rw [min_eq_left c]
      rcases le_total 0 (wrapEuler x).toRat with d | d
      · rw [max_eq_right d]; constructor <;> linarith
      · rw [max_eq_left d]; constructor <;> linarith
    · rw [min_eq_right c, max_eq_right (by norm_num)]; constructor <;> linarith
  have h4 := abs_add_le ((angle16 x).toRat - clamp 0 360 (wrapEuler x).toRat)
    (clamp 0 360 (wrapEuler x).toRat - (x.toRat - 360 * k))
  rw [sub_add_sub_cancel] at h4
  unfold angle16 at h4 ⊢
  norm_num at h2 h4 hcl ht ⊢
  linarith

/-- What is required of a decoded angle `r` of an angle `a`: strictly between 0 and 360, and within half a cell of
`a` reduced by whole turns; the number of turns is the right one except for negative angles of at most `2 ^ -1066`,
which differ from a whole turn by less than any rounding. -/
def Angle16 (a r : F64) : Prop :=
  ∀ A, number64 a = .fin A → |A| ≤ 2 ^ 30 → ∃ R, number64 r = .fin R ∧ 0 < R ∧ R < 360 ∧
    ∃ k : Int, |R - (A - 360 * k)| ≤ 360 / 2 ^ 17 + 1 / 2 ^ 39 ∧
      (k = ⌊A / 360⌋ ∨ (k = 0 ∧ -1 / 2 ^ 1066 ≤ A ∧ A < 0))

theorem angle16_ok (a : F64) : Angle16 a (angle16 a) := by
  intro A hA hle
  obtain ⟨hf, rfl⟩ := fin_of hA
  obtain ⟨h1, h2, h3⟩ := angle_range _ (bstEnc_len ..) (rfl : angle16 a = _)
  obtain ⟨k, h4, h5⟩ := angle_error hf hle
  exact ⟨_, F64.number_fin h1, h2, h3, k, h5, h4⟩

private theorem stored16_many (vs : List V3) (h : 2 ≤ vs.length) :
    stored16 vs = vs.map fun v => ⟨angle16 v.x, angle16 v.y, angle16 v.z⟩ := by
  match vs, h with
  | a :: b :: l, _ => simp only [stored16]

/-- C38: rotations with 16-bit storage, two or more captures: same times, and each angle within 360/2^17 degrees
(and a rounding allowance of 2^-39) of the original reduced by whole turns, strictly between 0 and 360. Partial: for
negative angles of at most `2 ^ -1066` the result is near 0 instead of near 360, see `C38_tiny_negative_angle`. -/
theorem C38_angles_partial (t' : Nat) (name : Bytes) (caps : List (F64 × V3)) (hl : 2 ≤ caps.length) :
    ∃ b caps', eulerEncode 2 [.euler name caps] = .ok (.ok ([], [b])) ∧
      (eulerEncoder t').decode name [] b (caps.map (·.1)) = .ok (some (.euler name caps'), none) ∧
      List.Forall₂ (fun c c' => c'.1 = c.1 ∧ Angle16 c.2.x c'.2.x ∧ Angle16 c.2.y c'.2.y ∧ Angle16 c.2.z c'.2.z)
        caps caps' := by
  refine ⟨_, caps.map fun c => (c.1, ⟨angle16 c.2.x, angle16 c.2.y, angle16 c.2.z⟩), rfl, ?_, ?_⟩
  · have hc := clean_eulerCaptures 2 (caps.map (·.1)) (caps.map (·.2)) (by simp)
    have h0 : storedRotations (2 : Fin 3).val (caps.map (·.2)) =
        (caps.map (·.2)).map fun v => ⟨angle16 v.x, angle16 v.y, angle16 v.z⟩ := by
      rw [storedRotations, if_neg (by decide), if_neg (by decide)]
      exact stored16_many _ (by simpa using hl)
    rw [h0] at hc
    have hz : ∀ l : List (F64 × V3), (l.map (·.1)).zip ((l.map (·.2)).map fun v =>
        (⟨angle16 v.x, angle16 v.y, angle16 v.z⟩ : V3)) =
        l.map fun c => (c.1, ⟨angle16 c.2.x, angle16 c.2.y, angle16 c.2.z⟩) := by
      intro l
      induction l with
      | nil => rfl
      | cons c l ih => simp only [List.map_cons, List.zip_cons_cons, ih]
    rw [hz] at hc
    show (do match ← (eulerCaptures (List.map (fun c : F64 × V3 => c.1) caps)).onBytes _ with
      | .error e => Except.ok (none, some e)
      | .ok caps => .ok (some (Coll.euler name caps), none)) = _
    erw [onBytes_of_clean hc]
    rfl
  · clear hl
    induction caps with
    | nil => exact .nil
    | cons c caps ih => exact .cons ⟨rfl, angle16_ok _, angle16_ok _, angle16_ok _⟩ ih

/-- -90 degrees: read back as 270 and a quarter of a cell. -/
example : number64 0xC056800000000000 = .fin (-90) ∧ |(-90 : ℚ)| ≤ 2 ^ 30 ∧
    number64 (angle16 0xC056800000000000) = .fin (270 + 360 / 2 ^ 17) := by
  refine ⟨by decide +kernel, by norm_num [abs_of_neg], by decide +kernel⟩

/-- C38 read literally is false: the smallest negative angle, reduced to [0, 360), is just below 360, but is read back
as 360/2^17. -/
theorem C38_tiny_negative_angle : number64 0x8000000000000001 = .fin (-1 / 2 ^ 1074) ∧
    number64 (angle16 0x8000000000000001) = .fin (360 / 2 ^ 17) ∧
    (-1 / 2 ^ 1074 : ℚ) - 360 * ⌊(-1 / 2 ^ 1074 : ℚ) / 360⌋ = 360 - 1 / 2 ^ 1074 := by
  refine ⟨by decide +kernel, by decide +kernel, ?_⟩
  have hp : (0 : ℚ) < 2 ^ 1074 := by positivity
  have h1 : (1 : ℚ) / 2 ^ 1074 ≤ 1 := by
    rw [div_le_one hp]; exact one_le_pow₀ (by norm_num)
  have h2 : (0 : ℚ) < 1 / 2 ^ 1074 := by positivity
  rw [neg_div]
  generalize (1 : ℚ) / 2 ^ 1074 = w at h1 h2
  have : ⌊-w / 360⌋ = -1 := by
    rw [Int.floor_eq_iff]; push_cast; constructor <;> linarith
  rw [this]; push_cast; ring

end Rap
