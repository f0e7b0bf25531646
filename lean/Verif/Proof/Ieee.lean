import Verif.Proof.Round
import Verif.Proof.Json
import Verif.Spec.Ieee

/-!
# The arithmetic of the model is that of IEEE 754
-/

namespace Rap

/-- What the standard says, for a split float. -/
def FP.Meets (f : Fmt) (o : Outcome) (p : FP) : Prop :=
  match o with
  | .nan => p = FP.nan f
  | .inf s => p = ⟨s, f.infMag⟩
  | .num q s => p.m ≤ f.infMag ∧ p.val f = rn f q ∧ p.s = s

theorem FP.cases (f : Fmt) (x : FP) :
    (f.infMag < x.m ∧ x.number f = .nan ∧ x.isNaN f = true) ∨
    (x.m = f.infMag ∧ x.number f = (if x.s then .ninf else .pinf) ∧ x.isNaN f = false ∧ x.isInf f = true) ∨
    (x.m < f.infMag ∧ x.number f = .fin (x.val f) ∧ x.isNaN f = false ∧ x.isInf f = false) := by
  rcases Nat.lt_trichotomy x.m f.infMag with h | h | h
  · exact .inr (.inr ⟨h, FP.number_fin h, FP.notNaN_of_finite h⟩)
  · refine .inr (.inl ⟨h, ?_, ?_, ?_⟩)
    · rw [FP.number, if_neg (by omega), if_pos h]
    · simp [FP.isNaN, h]
    · simp [FP.isInf, h]
  · refine .inl ⟨h, ?_, ?_⟩
    · rw [FP.number, if_pos h]
    · simp [FP.isNaN, h]

theorem FP.add_s {f : Fmt} {x y : FP} (hx : x.m < f.infMag) (hy : y.m < f.infMag) :
    (FP.add f x y).s = if x.val f + y.val f = 0 then x.s && y.s else decide (x.val f + y.val f < 0) := by
  obtain ⟨a1, a2⟩ := FP.notNaN_of_finite hx
  obtain ⟨b1, b2⟩ := FP.notNaN_of_finite hy
  have hs := scale_pos f
  have e : x.val f + y.val f = ((x.int f + y.int f : Int) : ℚ) / 2 ^ f.scale := by
    simp only [FP.val]; push_cast; ring
  have h0 : x.val f + y.val f = 0 ↔ x.int f + y.int f = 0 := by
    rw [e, div_eq_zero_iff, or_iff_left hs.ne', Int.cast_eq_zero]
  have h1 : x.val f + y.val f < 0 ↔ x.int f + y.int f < 0 := by
    rw [e, div_lt_iff₀ hs, zero_mul, Int.cast_lt_zero]
  simp only [FP.add, a1, a2, b1, b2, Bool.or_self, Bool.false_eq_true, if_false]
  by_cases h : x.int f + y.int f = 0
  · rw [if_pos h, if_pos (h0.2 h)]
  · rw [if_neg h, if_neg (mt h0.1 h)]
    simp only [FP.round, decide_eq_decide]
    exact h1.symm

theorem FP.meets_add {f : Fmt} (hf : 0 < f.mb) (x y : FP) :
    FP.Meets f (ieeeSum (x.number f) (y.number f) x.s y.s) (FP.add f x y) := by
  obtain ⟨xs, xm⟩ := x
  obtain ⟨ys, ym⟩ := y
  rcases FP.cases f ⟨xs, xm⟩ with ⟨hx, nx, x1⟩ | ⟨hx, nx, x1, x2⟩ | ⟨hx, nx, x1, x2⟩
  · rw [nx]
    simp [ieeeSum, FP.Meets, FP.add, x1]
  · rcases FP.cases f ⟨ys, ym⟩ with ⟨hy, ny, y1⟩ | ⟨hy, ny, y1, y2⟩ | ⟨hy, ny, y1, y2⟩
    · rw [nx, ny]
      cases xs <;> simp [ieeeSum, FP.Meets, FP.add, x1, y1]
    · rw [nx, ny]
      simp only at hx hy
      subst hx hy
      cases xs <;> cases ys <;> simp [ieeeSum, FP.Meets, FP.add, x1, x2, y1, y2]
    · rw [nx, ny]
      simp only at hx
      subst hx
      cases xs <;> simp [ieeeSum, FP.Meets, FP.add, x1, x2, y1, y2]
  · rcases FP.cases f ⟨ys, ym⟩ with ⟨hy, ny, y1⟩ | ⟨hy, ny, y1, y2⟩ | ⟨hy, ny, y1, y2⟩
    · rw [nx, ny]
      simp [ieeeSum, FP.Meets, FP.add, x1, y1]
    · rw [nx, ny]
      simp only at hy
      subst hy
      cases ys <;> simp [ieeeSum, FP.Meets, FP.add, x1, x2, y1, y2]
    · rw [nx, ny]
      exact ⟨FP.add_m_le hx hy, FP.val_add hf hx hy, FP.add_s hx hy⟩

theorem ieeeSum_neg (f : Fmt) (x y : FP) :
    ieeeDifference (x.number f) (y.number f) x.s y.s = ieeeSum (x.number f) (y.neg.number f) x.s y.neg.s := by
  have hn : y.neg.number f = match y.number f with
      | .nan => .nan | .pinf => .ninf | .ninf => .pinf | .fin q => .fin (-q) := by
    obtain ⟨ys, ym⟩ := y
    rcases FP.cases f ⟨ys, ym⟩ with ⟨hy, ny, y1⟩ | ⟨hy, ny, y1, y2⟩ | ⟨hy, ny, y1, y2⟩
    · rw [ny]; simp only at hy; simp [FP.number, FP.neg, hy]
    · rw [ny]; simp only at hy; cases ys <;> simp [FP.number, FP.neg, hy]
    · rw [ny, FP.number_fin (show FP.m (FP.neg ⟨ys, ym⟩) < _ from hy), FP.val_neg]
  rw [hn]
  cases x.number f <;> cases y.number f <;> simp [ieeeSum, ieeeDifference, FP.neg, sub_eq_add_neg]

theorem FP.meets_sub {f : Fmt} (hf : 0 < f.mb) (x y : FP) :
    FP.Meets f (ieeeDifference (x.number f) (y.number f) x.s y.s) (FP.sub f x y) := by
  rw [ieeeSum_neg]
  exact FP.meets_add hf x y.neg

theorem FP.meets_mul {f : Fmt} (hf : 0 < f.mb) (hi : 0 < f.infMag) (x y : FP) :
    FP.Meets f (ieeeProduct (x.number f) (y.number f) x.s y.s) (FP.mul f x y) := by
  obtain ⟨xs, xm⟩ := x
  obtain ⟨ys, ym⟩ := y
  rcases FP.cases f ⟨xs, xm⟩ with ⟨hx, nx, x1⟩ | ⟨hx, nx, x1, x2⟩ | ⟨hx, nx, x1, x2⟩
  · rw [nx]
    simp [ieeeProduct, FP.Meets, FP.mul, x1]
  · rcases FP.cases f ⟨ys, ym⟩ with ⟨hy, ny, y1⟩ | ⟨hy, ny, y1, y2⟩ | ⟨hy, ny, y1, y2⟩
    · rw [nx, ny]
      cases xs <;> simp [ieeeProduct, FP.Meets, FP.mul, y1]
    · rw [nx, ny]
      simp only at hx hy
      subst hx hy
      cases xs <;> cases ys <;> simp [ieeeProduct, FP.Meets, FP.mul, x1, x2, y1, y2, hi.ne']
    · rw [nx, ny]
      simp only at hx
      subst hx
      have h0 := FP.val_eq_zero f ⟨ys, ym⟩
      simp only at h0
      cases xs <;> by_cases hz : ym = 0 <;> simp [ieeeProduct, FP.Meets, FP.mul, x1, x2, y1, y2, h0, hz, hi.ne']
      all_goals subst hz; simp [FP.val_of_m_zero]
  · rcases FP.cases f ⟨ys, ym⟩ with ⟨hy, ny, y1⟩ | ⟨hy, ny, y1, y2⟩ | ⟨hy, ny, y1, y2⟩
    · rw [nx, ny]
      simp [ieeeProduct, FP.Meets, FP.mul, y1]
    · rw [nx, ny]
      simp only at hy
      subst hy
      have h0 := FP.val_eq_zero f ⟨xs, xm⟩
      simp only at h0
      cases ys <;> by_cases hz : xm = 0 <;> simp [ieeeProduct, FP.Meets, FP.mul, x1, x2, y1, y2, h0, hz, hi.ne']
      all_goals subst hz; simp [FP.val_of_m_zero]
    · rw [nx, ny]
      refine ⟨FP.mul_m_le hx hy, FP.val_mul hf hx hy, ?_⟩
      simp only [FP.mul, x1, x2, y1, y2, Bool.or_self, Bool.false_eq_true, if_false, FP.round]

theorem FP.meets_div {f : Fmt} (hf : 0 < f.mb) (x y : FP) :
    FP.Meets f (ieeeQuotient (x.number f) (y.number f) x.s y.s) (FP.div f x y) := by
  obtain ⟨xs, xm⟩ := x
  obtain ⟨ys, ym⟩ := y
  rcases FP.cases f ⟨xs, xm⟩ with ⟨hx, nx, x1⟩ | ⟨hx, nx, x1, x2⟩ | ⟨hx, nx, x1, x2⟩
  · rw [nx]
    simp [ieeeQuotient, FP.Meets, FP.div, x1]
  · rcases FP.cases f ⟨ys, ym⟩ with ⟨hy, ny, y1⟩ | ⟨hy, ny, y1, y2⟩ | ⟨hy, ny, y1, y2⟩
    · rw [nx, ny]
      cases xs <;> simp [ieeeQuotient, FP.Meets, FP.div, y1]
    · rw [nx, ny]
      cases xs <;> cases ys <;> simp [ieeeQuotient, FP.Meets, FP.div, x1, x2, y1, y2]
    · rw [nx, ny]
      cases xs <;> simp [ieeeQuotient, FP.Meets, FP.div, x1, x2, y1, y2]
  · rcases FP.cases f ⟨ys, ym⟩ with ⟨hy, ny, y1⟩ | ⟨hy, ny, y1, y2⟩ | ⟨hy, ny, y1, y2⟩
    · rw [nx, ny]
      simp [ieeeQuotient, FP.Meets, FP.div, y1]
    · rw [nx, ny]
      have r0 : rn f 0 = 0 := by
        have := rn_val (f := f) hf (x := ⟨false, 0⟩) (by simp)
        rwa [FP.val_of_m_zero] at this
      cases ys <;> simp [ieeeQuotient, FP.Meets, FP.div, x1, x2, y1, y2, FP.val_of_m_zero, r0]
    · rw [nx, ny]
      have h0 := FP.val_eq_zero f ⟨ys, ym⟩
      have h1 := FP.val_eq_zero f ⟨xs, xm⟩
      simp only at h0 h1
      by_cases hz : ym = 0
      · by_cases hw : xm = 0
        · simp only [ieeeQuotient, h0.2 hz, h1.2 hw, if_true]
          subst hz hw
          simp [FP.Meets, FP.div, x1, x2, y1, y2]
        · simp only [ieeeQuotient, h0.2 hz, if_neg (mt h1.1 hw), if_true]
          subst hz
          simp [FP.Meets, FP.div, x1, x2, y1, y2, hw]
      · simp only [ieeeQuotient, if_neg (mt h0.1 hz)]
        refine ⟨FP.div_m_le hx hy hz, FP.val_div hf hx hy hz, ?_⟩
        have : ((FP.mk ys ym).m == 0) = false := by simpa using hz
        simp only [FP.div, x1, x2, y1, y2, this, Bool.or_self, Bool.false_eq_true, if_false, FP.round]

/-! ## As bit patterns -/

theorem FP.nan_number (f : Fmt) : (FP.nan f).number f = .nan := by
  rw [FP.number, if_pos]
  simp [FP.nan]

theorem FP.inf_number (f : Fmt) (s : Bool) : FP.number f ⟨s, f.infMag⟩ = if s then .ninf else .pinf := by
  rw [FP.number, if_neg (by simp), if_pos rfl]

theorem is64_of_meets {o : Outcome} {p : FP} (h : FP.Meets b64 o p) : o.Is64 (F64.ofFP p) := by
  cases o with
  | nan =>
    cases h
    show number64 _ = _
    rw [F64.number_fp, F64.fp_ofFP (by decide), FP.nan_number]
  | inf s =>
    cases h
    show number64 _ = _
    rw [F64.number_fp, F64.fp_ofFP (show b64.infMag < _ by decide), FP.inf_number]
  | num q s =>
    obtain ⟨h1, h2, h3⟩ := h
    refine ⟨nearest64_of_val h1 h2, ?_⟩
    rw [F64.msb_fp, F64.fp_ofFP (by rw [b64_inf] at h1; omega), h3]

theorem is32_of_meets {o : Outcome} {p : FP} (h : FP.Meets b32 o p) : o.Is32 (F32.ofFP p) := by
  cases o with
  | nan =>
    cases h
    show number32 _ = _
    rw [F32.number_fp, F32.fp_ofFP (by decide), FP.nan_number]
  | inf s =>
    cases h
    show number32 _ = _
    rw [F32.number_fp, F32.fp_ofFP (show b32.infMag < _ by decide), FP.inf_number]
  | num q s =>
    obtain ⟨h1, h2, h3⟩ := h
    refine ⟨nearest32_of_val h1 h2, ?_⟩
    rw [F32.msb_fp, F32.fp_ofFP (by rw [b32_inf] at h1; omega), h3]

/-! ## Integers -/

theorem FP.meets_ofInt {f : Fmt} (hf : 0 < f.mb) (i : Int) : FP.Meets f (.num i (decide (i < 0))) (FP.ofInt f i) :=
  ⟨FP.round_m_le .., FP.val_ofInt hf i, rfl⟩

/-- The floor of a float is a float. -/
theorem rn_floor {x : F64} (hx : x.isFinite = true) : rn b64 ⌊x.toRat⌋ = ⌊x.toRat⌋ := by
  rcases le_total ((2 : ℚ) ^ 52) |x.toRat| with h | h
  · obtain ⟨i, hi⟩ := int_of_large hx h
    have := F64.rn_toRat hx
    rw [hi] at this
    rw [hi, Int.floor_intCast, this]
  · apply rn_int
    have h1 := abs_le.1 h
    have h2 : (⌊x.toRat⌋ : ℚ) ≤ x.toRat := Int.floor_le _
    have h3 : x.toRat < ⌊x.toRat⌋ + 1 := Int.lt_floor_add_one _
    have h4 : (⌊x.toRat⌋ : ℚ) ≤ ((2 ^ 52 : Int) : ℚ) := by push_cast; linarith
    have h5 : ((-(2 ^ 52) - 1 : Int) : ℚ) ≤ (⌊x.toRat⌋ : ℚ) := by push_cast; linarith
    have h4 : ⌊x.toRat⌋ ≤ 2 ^ 52 := by exact_mod_cast h4
    have h5 : -(2 ^ 52) - 1 ≤ ⌊x.toRat⌋ := by exact_mod_cast h5
    omega

theorem floor_s {f : Fmt} (x : FP) : (FP.floor f x).s = x.s := by
  unfold FP.floor
  split
  · rfl
  · rename_i h
    simp only [Bool.or_eq_true, beq_iff_eq, not_or] at h
    have hm : 0 < magInt f.mb x.m := by
      have := mt (magInt_eq_zero f.mb x.m).1 h.2
      omega
    have hP : (0 : Int) < ((2 ^ f.scale : Nat) : Int) := by positivity
    show decide (_ < _) = _
    unfold FP.int
    cases x.s
    · simp only [Bool.false_eq_true, if_false]
      rw [decide_eq_false]
      have := Int.ediv_nonneg (a := (magInt f.mb x.m : Int)) (by omega) hP.le
      omega
    · simp only [if_true]
      rw [decide_eq_true]
      exact Int.ediv_neg_of_neg_of_pos (by omega) hP

theorem floor_number (x : F64) : number64 x.floor = (number64 x).floor ∧ x.floor.msb = x.msb := by
  have hfin : x.isFinite = true → (FP.floor b64 x.fp).m ≤ b64.infMag := by
    intro hx
    have h1 := (F64.finite_iff x).1 hx
    unfold FP.floor
    split
    · exact h1.le
    · exact FP.round_m_le ..
  by_cases hx : x.isFinite = true
  · have hm := hfin hx
    have his := F64.is_of_val hm (FP.val_floor b64_mb ((F64.finite_iff x).1 hx))
    rw [F64.val_eq hx, rn_floor hx] at his
    constructor
    · rw [F64.number_fin hx]
      have hlt : |(⌊x.toRat⌋ : ℚ)| < b64.top := by
        rcases le_total ((2 : ℚ) ^ 52) |x.toRat| with h | h
        · obtain ⟨i, hi⟩ := int_of_large hx h
          have := F64.toRat_lt_top hx
          rw [hi] at this
          rwa [hi, Int.floor_intCast]
        · have := floor_spec hx h
          have h2 := F64.toRat_lt_top this.1
          rwa [this.2] at h2
      have hf := his.fin.2 hlt
      show number64 (F64.ofFP _) = _
      rw [F64.number_fin hf, his.val hf]
      rfl
    · rw [F64.msb_fp, F64.msb_fp, F64.floor, F64.fp_ofFP (by rw [b64_inf] at hm; omega), floor_s]
  · have : x.floor = x := by
      have h : (x.fp.isNaN b64 || x.fp.isInf b64 || x.fp.m == 0) = true := by
        rw [F64.finite_iff] at hx
        rcases FP.cases b64 x.fp with ⟨_, _, h⟩ | ⟨_, _, _, h⟩ | ⟨h, _⟩
        · simp [h]
        · simp [h]
        · exact absurd h hx
      rw [F64.floor, FP.floor, if_pos h, F64.ofFP_fp]
    rw [this]
    refine ⟨?_, rfl⟩
    have : ∀ n : Number, (∀ q, n ≠ .fin q) → n.floor = n := by
      intro n hn
      cases n <;> first | rfl | exact absurd rfl (hn _)
    rw [this]
    intro q hq
    exact hx ((F64.finite_number x).2 ⟨q, hq⟩)

theorem tdiv_trunc {a P i : Int} (hP : 0 < P) (h1 : |i| * P ≤ |a|) (h2 : |a| < (|i| + 1) * P)
    (h3 : 0 ≤ a → 0 ≤ i) (h4 : a ≤ 0 → i ≤ 0) : a.tdiv P = i := by
  rcases le_total 0 a with ha | ha
  · have hi := h3 ha
    rw [abs_of_nonneg hi, abs_of_nonneg ha] at *
    rw [Int.tdiv_eq_ediv_of_nonneg ha]
    exact le_antisymm (Int.lt_add_one_iff.1 (Int.ediv_lt_of_lt_mul hP h2)) (Int.le_ediv_of_mul_le hP h1)
  · have hi := h4 ha
    rw [abs_of_nonpos hi, abs_of_nonpos ha] at *
    have : (-a).tdiv P = -i := by
      rw [Int.tdiv_eq_ediv_of_nonneg (by omega)]
      exact le_antisymm (Int.lt_add_one_iff.1 (Int.ediv_lt_of_lt_mul hP h2)) (Int.le_ediv_of_mul_le hP h1)
    rw [Int.neg_tdiv] at this
    omega

theorem toInt64_trunc {d : F64} {q : ℚ} {i : Int} (h : number64 d = .fin q) (h1 : |(i : ℚ)| ≤ |q|) (h2 : |q| < |(i : ℚ)| + 1)
    (h3 : 0 ≤ q → 0 ≤ i) (h4 : q ≤ 0 → i ≤ 0) (h5 : -2 ^ 63 ≤ i) (h6 : i < 2 ^ 63) : toInt64 d = i := by
  have hf : d.isFinite = true := (F64.finite_number d).2 ⟨_, h⟩
  have hr : d.toRat = q := by rw [F64.number_fin hf, Number.fin.injEq] at h; exact h
  have hs := d.toRat_scale hf
  have hb : b64.scale = 1074 := rfl
  rw [hr] at hs
  have key : (d.fp.int b64).tdiv ((2 ^ b64.scale : Nat) : Int) = i := by
    rw [hb] at hs ⊢
    obtain ⟨P, hP⟩ : ∃ P : ℕ, P = 2 ^ 1074 := ⟨_, rfl⟩
    have hP' : (2 : ℚ) ^ 1074 = P := by rw [hP]; push_cast; rfl
    have hpos : (0 : ℚ) < P := by rw [← hP']; positivity
    rw [hP'] at hs
    rw [← hP]
    generalize d.fp.int b64 = a at hs
    have habs : |q| * P = |(a : ℚ)| := by rw [← hs, abs_mul, abs_of_pos hpos]
    refine tdiv_trunc (by exact_mod_cast hpos) ?_ ?_ ?_ ?_
    · have := mul_le_mul_of_nonneg_right h1 hpos.le
      rw [habs] at this
      exact_mod_cast this
    · have := mul_lt_mul_of_pos_right h2 hpos
      rw [habs] at this
      exact_mod_cast this
    · intro ha
      apply h3
      have : (0 : ℚ) ≤ a := by exact_mod_cast ha
      rw [← hs] at this
      exact nonneg_of_mul_nonneg_left this hpos
    · intro ha
      apply h4
      have : (a : ℚ) ≤ 0 := by exact_mod_cast ha
      rw [← hs] at this
      exact nonpos_of_mul_nonpos_left this hpos
  rw [toInt64]
  simp only [key, hf, Bool.true_and]
  rw [if_pos (by simp only [Bool.and_eq_true, decide_eq_true_eq]; exact ⟨h5, h6⟩)]

end Rap
