import Verif.Proof.ParseFloatSound
import Verif.Proof.Ieee

/-!
# Texts of floats: the number that was read, rounded
-/

namespace Rap
open FloatText

/-! ## Sizes -/

theorem mant_size {hex : Bool} (s : Bytes) : ∀ m : Mantissa,
    (readMantissa hex s m).1.value < (m.value + 1) * 16 ^ s.length ∧ (readMantissa hex s m).1.behind ≤ m.behind + s.length := by
  induction s with
  | nil => intro m; simp [readMantissa]
  | cons c s ih =>
    intro m
    have hp : 1 ≤ 16 ^ s.length := Nat.one_le_pow _ _ (by decide)
    have hstop : m.value < (m.value + 1) * 16 ^ (c :: s).length ∧ m.behind ≤ m.behind + (c :: s).length := by
      refine ⟨?_, by omega⟩
      rw [List.length_cons, pow_succ]
      nlinarith
    by_cases h1 : c = 95
    · subst h1
      rw [read_under]
      obtain ⟨i1, i2⟩ := ih ⟨m.value, m.behind, m.dot, m.digit, true⟩
      refine ⟨i1.trans_le ?_, i2.trans (by simp)⟩
      rw [List.length_cons, pow_succ]
      simp only
      nlinarith
    by_cases h2 : Digit hex c
    · rw [read_digit h2]
      obtain ⟨i1, i2⟩ := ih ⟨base hex * m.value + digit c, if m.dot then m.behind + 1 else m.behind, m.dot, true, m.under⟩
      have hb : base hex * m.value + digit c + 1 ≤ (m.value + 1) * 16 := by
        have hd : digit c + 1 ≤ base hex := by
          revert h2
          refine u8_forall (P := fun c => Digit hex c → digit c + 1 ≤ base hex) ?_ c
          cases hex <;> decide +kernel
        have hb : base hex ≤ 16 := by cases hex <;> decide
        nlinarith
      refine ⟨i1.trans_le ?_, i2.trans ?_⟩
      · rw [List.length_cons, pow_succ]
        calc _ ≤ ((m.value + 1) * 16) * 16 ^ s.length := Nat.mul_le_mul_right _ hb
          _ = _ := by ring
      · simp only [List.length_cons]; split_ifs <;> omega
    by_cases h3 : c = 46
    · subst h3
      cases hd : m.dot
      · rw [read_dot _ _ _ hd]
        obtain ⟨i1, i2⟩ := ih ⟨m.value, m.behind, true, m.digit, m.under⟩
        refine ⟨i1.trans_le ?_, i2.trans (by simp)⟩
        rw [List.length_cons, pow_succ]
        simp only
        nlinarith
      · rw [read_stop (by intro c r h; cases h; exact ⟨h1, h2, fun _ => hd⟩)]
        exact hstop
    · rw [read_stop (by intro c r h; cases h; exact ⟨h1, h2, fun h => absurd h h3⟩)]
      exact hstop

theorem readUnsigned_size {neg : Bool} {s : Bytes} {n : ReadNumber} (h : readUnsigned neg s = some n) :
    n.value < 16 ^ s.length ∧ n.behind ≤ s.length := by
  have hlen : (splitPrefix s).2.length ≤ s.length := by
    unfold splitPrefix
    split
    · split_ifs <;> simp
    · exact le_rfl
  unfold readUnsigned at h
  obtain ⟨h1, h2⟩ := mant_size (hex := (splitPrefix s).1) (splitPrefix s).2 ⟨0, 0, false, false, false⟩
  simp only at h
  split_ifs at h
  split at h
  · cases h
  · split_ifs at h
    cases h
    refine ⟨h1.trans_le ?_, by simp only at h2 ⊢; omega⟩
    simp only [Nat.zero_add, Nat.one_mul]
    exact Nat.pow_le_pow_right (by decide) hlen

/-! ## Numbers far away -/

theorem far_above {L : Nat} {v b k : ℚ} {j : Nat} {e : Int} (hv : 1 ≤ v) (hb0 : 0 < b) (hb : b ≤ 16) (hk : 2 ≤ k) (hj : j ≤ L)
    (he : ((5 * L : Nat) : Int) ≤ e) : (2 : ℚ) ^ L ≤ v / b ^ j * k ^ e := by
  have h1 : b ^ j ≤ (2 : ℚ) ^ (4 * L) := by
    calc b ^ j ≤ 16 ^ j := pow_le_pow_left₀ hb0.le hb j
      _ ≤ 16 ^ L := pow_le_pow_right₀ (by norm_num) hj
      _ = 2 ^ (4 * L) := by rw [show (16 : ℚ) = 2 ^ 4 by norm_num, ← pow_mul]
  have h2 : (2 : ℚ) ^ (5 * L) ≤ k ^ e := by
    calc (2 : ℚ) ^ (5 * L) ≤ k ^ (5 * L) := pow_le_pow_left₀ (by norm_num) hk _
      _ = k ^ ((5 * L : Nat) : Int) := (zpow_natCast k (5 * L)).symm
      _ ≤ k ^ e := zpow_le_zpow_right₀ (by linarith) he
  have h3 : (1 : ℚ) / 2 ^ (4 * L) ≤ v / b ^ j := by
    rw [div_le_div_iff₀ (by positivity) (by positivity), one_mul]
    calc b ^ j ≤ 2 ^ (4 * L) := h1
      _ = 1 * 2 ^ (4 * L) := (one_mul _).symm
      _ ≤ _ := mul_le_mul_of_nonneg_right hv (by positivity)
  calc (2 : ℚ) ^ L = 1 / 2 ^ (4 * L) * 2 ^ (5 * L) := by
        rw [show 5 * L = 4 * L + L by ring, pow_add, ← mul_assoc, one_div_mul_cancel (by positivity), one_mul]
    _ ≤ _ := mul_le_mul h3 h2 (by positivity) (le_trans (by positivity) h3)

theorem far_below {L : Nat} {v b k : ℚ} {j : Nat} {e : Int} (hv0 : 0 ≤ v) (hv : v ≤ 16 ^ L) (hb : 1 ≤ b) (hk : 2 ≤ k)
    (he : e ≤ -((5 * L : Nat) : Int)) : v / b ^ j * k ^ e ≤ 1 / (2 : ℚ) ^ L := by
  have hk0 : 0 < k := by linarith
  have h1 : v / b ^ j ≤ (2 : ℚ) ^ (4 * L) := by
    rw [show (2 : ℚ) ^ (4 * L) = 16 ^ L by rw [show (16 : ℚ) = 2 ^ 4 by norm_num, ← pow_mul]]
    exact (div_le_self hv0 (one_le_pow₀ hb)).trans hv
  have h2 : k ^ e ≤ 1 / (2 : ℚ) ^ (5 * L) := by
    calc k ^ e ≤ k ^ (-((5 * L : Nat) : Int)) := zpow_le_zpow_right₀ (by linarith) he
      _ = 1 / k ^ (5 * L) := by rw [zpow_neg, one_div, zpow_natCast]
      _ ≤ _ := one_div_le_one_div_of_le (by positivity) (pow_le_pow_left₀ (by norm_num) hk _)
  calc v / b ^ j * k ^ e ≤ 2 ^ (4 * L) * (1 / 2 ^ (5 * L)) := mul_le_mul h1 h2 (zpow_nonneg hk0.le e) (by positivity)
    _ = _ := by
      rw [show 5 * L = 4 * L + L by ring, pow_add, mul_one_div, div_mul_eq_div_div, div_self (by positivity)]

/-! ## Rounding -/

theorem rnMag_tiny {f : Fmt} (hf : 0 < f.mb) {q : ℚ} (h : |q| < 1 / 2) : rnMag f q = 0 := by
  have hn := rnMag_near hf q
  have h1 := (hn 0).1
  rw [magInt_zero, Nat.cast_zero, zero_sub, abs_neg, abs_abs] at h1
  generalize hm : roundMag f.mb q.num.natAbs q.den = m at h1
  have h2 := le_abs_self ((magInt f.mb m : ℚ) - |q|)
  have h3 : (magInt f.mb m : ℚ) < 1 := by linarith
  have h4 : magInt f.mb m = magInt f.mb 0 := by
    have : magInt f.mb m < 1 := by exact_mod_cast h3
    rw [magInt_zero]; omega
  rw [rnMag, hm, magInt_inj.mp h4]
  simp

theorem ReadNumber.frac_val (n : ReadNumber) : 0 < n.frac.2 ∧
    (n.frac.1 : ℚ) / n.frac.2 = (n.value : ℚ) / base n.hex ^ n.behind * (if n.hex then (2 : ℚ) else 10) ^ n.exp := by
  rcases n with ⟨neg, hex, v, j, e⟩
  have key : ∀ b k : Nat, 0 < b → 0 < k → (0 < (if e < 0 then (v, b ^ j * k ^ e.natAbs) else (v * k ^ e.natAbs, b ^ j)).2) ∧
      (((if e < 0 then (v, b ^ j * k ^ e.natAbs) else (v * k ^ e.natAbs, b ^ j)).1 : Nat) : ℚ) /
        ((if e < 0 then (v, b ^ j * k ^ e.natAbs) else (v * k ^ e.natAbs, b ^ j)).2 : Nat) = (v : ℚ) / (b : ℚ) ^ j * (k : ℚ) ^ e := by
    intro b k hb hk
    have hb' : (b : ℚ) ≠ 0 := by exact_mod_cast hb.ne'
    have hk' : (k : ℚ) ≠ 0 := by exact_mod_cast hk.ne'
    split_ifs with h
    · refine ⟨by positivity, ?_⟩
      have : e = -(e.natAbs : Int) := by omega
      conv_rhs => rw [this, zpow_neg, zpow_natCast]
      push_cast
      field_simp
    · refine ⟨by positivity, ?_⟩
      have : e = (e.natAbs : Int) := by omega
      conv_rhs => rw [this, zpow_natCast]
      push_cast
      field_simp
  cases hex
  · have := key 10 10 (by decide) (by decide)
    simpa [ReadNumber.frac, base] using this
  · have := key 16 2 (by decide) (by decide)
    simpa [ReadNumber.frac, base] using this

/-- What is returned for a number. -/
theorem round_read {f : Fmt} (hf : 0 < f.mb) (hi : 0 < f.infMag) (ho : f.infMag % 2 = 0) {L : Nat} (hL : 5 * L ≤ 10000) (hl : f.limit ≤ 2 ^ L)
    (hs : f.scale + 1 < L) {neg : Bool} {s : Bytes} {n : ReadNumber} {q : ℚ} {e : Int} (hn : n.value < 16 ^ s.length ∧ n.behind ≤ s.length)
    (h : n.Is neg q e) (hlen : |e| < 100000 ∨ s.length ≤ L) : 0 ≤ q ∧
    ((f.limit ≤ q → (FP.round f n.neg (n.frac.1 * 2 ^ f.scale) n.frac.2).m = f.infMag) ∧
    (q < f.limit → (FP.round f n.neg (n.frac.1 * 2 ^ f.scale) n.frac.2).m ≠ f.infMag ∧
      FP.Meets f (.num (signed neg q) neg) (FP.round f n.neg (n.frac.1 * 2 ^ f.scale) n.frac.2))) := by
  obtain ⟨hneg, k, hk, hkk, hq⟩ := h
  obtain ⟨hd, hfrac⟩ := n.frac_val
  rw [← hkk] at hfrac
  have hk2 : 2 ≤ k := by rw [hkk]; split_ifs <;> norm_num
  have hb1 : (1 : ℚ) ≤ base n.hex := by cases n.hex <;> norm_num [base]
  have hb16 : (base n.hex : ℚ) ≤ 16 := by cases n.hex <;> norm_num [base]
  have hb0 : (0 : ℚ) < base n.hex := by linarith
  have hk0 : (0 : ℚ) < k := by linarith
  have hnn : ∀ E : Int, 0 ≤ (n.value : ℚ) / base n.hex ^ n.behind * k ^ E := fun E => mul_nonneg (by positivity) (zpow_nonneg hk0.le E)
  have hq0 : 0 ≤ q := by rw [hq]; exact hnn e
  have hsp := scale_pos f
  have hQ0 : (0 : ℚ) ≤ (n.frac.1 : ℚ) / n.frac.2 := by positivity
  have hmag : (FP.round f n.neg (n.frac.1 * 2 ^ f.scale) n.frac.2).m = rnMag f ((n.frac.1 : ℚ) / n.frac.2 * 2 ^ f.scale) := by
    show min _ _ = _
    rw [rnMag, roundMag_of_rat (q := (n.frac.1 : ℚ) / n.frac.2 * 2 ^ f.scale) hf hd]
    rw [abs_of_nonneg (by positivity)]
    push_cast
    ring
  have hsame : rnMag f ((n.frac.1 : ℚ) / n.frac.2 * 2 ^ f.scale) = rnMag f (q * 2 ^ f.scale) := by
    rw [hfrac, hq]
    by_cases hv : n.value = 0
    · rw [hv]; simp
    have hv1 : (1 : ℚ) ≤ n.value := by exact_mod_cast Nat.one_le_iff_ne_zero.mpr hv
    have big : ∀ E : Int, 10000 ≤ E → s.length ≤ L → rnMag f ((n.value : ℚ) / base n.hex ^ n.behind * k ^ E * 2 ^ f.scale) = f.infMag := by
      intro E hE hl'
      refine rnMag_above hf hi ho ?_
      have := far_above hv1 hb0 hb16 hk2 (hn.2.trans hl') (e := E) (by omega)
      rw [abs_of_nonneg (hnn E)]
      exact hl.trans this
    have small : ∀ E : Int, E ≤ -10000 → s.length ≤ L → rnMag f ((n.value : ℚ) / base n.hex ^ n.behind * k ^ E * 2 ^ f.scale) = 0 := by
      intro E hE hl'
      refine rnMag_tiny hf ?_
      have hv2 : (n.value : ℚ) ≤ 16 ^ L := by
        have : n.value ≤ 16 ^ L := hn.1.le.trans (Nat.pow_le_pow_right (by decide) hl')
        exact_mod_cast this
      have := far_below (j := n.behind) (by positivity) hv2 hb1 hk2 (e := E) (by omega)
      rw [abs_of_nonneg (mul_nonneg (hnn E) hsp.le)]
      calc _ ≤ 1 / (2 : ℚ) ^ L * 2 ^ f.scale := mul_le_mul_of_nonneg_right this hsp.le
        _ < 1 / 2 := by
          rw [one_div_mul_eq_div, div_lt_div_iff₀ (by positivity) (by norm_num), one_mul, ← pow_succ]
          exact pow_lt_pow_right₀ (by norm_num) hs
    rcases hk with ⟨hk, -⟩ | ⟨h1, -, h2⟩ | ⟨h1, -, h2⟩
    · rw [hk]
    · have hl' := hlen.resolve_left (by rw [abs_of_nonneg (by omega)]; omega)
      rw [big _ h1 hl', big _ (by omega) hl']
    · have hl' := hlen.resolve_left (by rw [abs_of_nonpos (by omega)]; omega)
      rw [small _ h1 hl', small _ (by omega) hl']
  rw [hsame] at hmag
  refine ⟨hq0, fun h => ?_, fun h => ?_⟩
  · rw [hmag, rnMag_above hf hi ho (by rwa [abs_of_nonneg hq0])]
  · obtain ⟨h1, -⟩ := rnMag_below hf hi (q := q) (by rwa [abs_of_nonneg hq0])
    refine ⟨by rw [hmag]; omega, by rw [hmag]; omega, ?_, hneg⟩
    have hval : (FP.round f n.neg (n.frac.1 * 2 ^ f.scale) n.frac.2).val f = if neg then -rn f q else rn f q := by
      rw [FP.val, FP.int, hmag]
      have : (FP.round f n.neg (n.frac.1 * 2 ^ f.scale) n.frac.2).s = neg := hneg
      rw [this, rn, if_neg (not_lt.mpr hq0)]
      cases neg <;> simp [neg_div]
    rw [hval, signed]
    cases neg
    · simp
    · simp [rn_neg hf]

/-! ## Words -/

theorem lower_letter (b : UInt8) : ∀ a ∈ ([105, 110, 102, 116, 121, 97] : List UInt8), (lowerByte b = a ↔ b = a ∨ b.toNat + 32 = a.toNat) := by
  refine u8_forall (P := fun b => ∀ a ∈ ([105, 110, 102, 116, 121, 97] : List UInt8), (lowerByte b = a ↔ b = a ∨ b.toNat + 32 = a.toNat)) ?_ b
  decide +kernel

theorem sameWord_iff {w : Bytes} (hw : ∀ a ∈ w, a ∈ ([105, 110, 102, 116, 121, 97] : List UInt8)) : ∀ s : Bytes,
    s.map lowerByte = w ↔ SameWord w s := by
  induction w with
  | nil => intro s; cases s <;> simp [SameWord]
  | cons a w ih =>
    intro s
    cases s with
    | nil => simp [SameWord]
    | cons b s =>
      have := ih (fun a h => hw a (by simp [h])) s
      unfold SameWord at this ⊢
      rw [List.forall₂_cons, List.map_cons, List.cons.injEq, this, lower_letter b a (hw a (by simp))]

/-- `word` of `specialFloat`. -/
theorem word_iff (s : Bytes) :
    (s.map lowerByte == [105, 110, 102] || s.map lowerByte == [105, 110, 102, 105, 110, 105, 116, 121]) = true ↔
    SameWord [105, 110, 102] s ∨ SameWord [105, 110, 102, 105, 110, 105, 116, 121] s := by
  rw [Bool.or_eq_true, beq_iff_eq, beq_iff_eq, sameWord_iff (by decide), sameWord_iff (by decide)]

theorem nan_iff (s : Bytes) : (s.map lowerByte == [110, 97, 110]) = true ↔ Nan s := by
  rw [beq_iff_eq, sameWord_iff (by decide), Nan]

/-- The first character of a word. -/
theorem word_head {a : UInt8} {w s : Bytes} (h : SameWord (a :: w) s) : ∃ c r, s = c :: r ∧ (c = a ∨ c.toNat + 32 = a.toNat) := by
  unfold SameWord at h
  cases h with
  | cons h _ => exact ⟨_, _, rfl, h⟩

theorem word_unsigned {a : UInt8} {w s : Bytes} (h : SameWord (a :: w) s) (ha : 97 ≤ a.toNat) : (∀ r, s ≠ 43 :: r) ∧ ∀ r, s ≠ 45 :: r := by
  obtain ⟨c, r, rfl, hc⟩ := word_head h
  refine ⟨?_, ?_⟩ <;> rintro r' he <;> cases he <;> rcases hc with rfl | hc <;> revert ha <;> simp_all
  all_goals omega

theorem special_sound {f : Fmt} {s : Bytes} {x : FP} (h : specialFloat f s = some x) :
    (∃ neg, Infinity s neg ∧ x = ⟨neg, f.infMag⟩) ∨ (Nan s ∧ x = ⟨false, (FP.nan f).m + if f.mb = 52 then 1 else 0⟩) := by
  unfold specialFloat at h
  dsimp only at h
  split at h
  · rename_i r
    split_ifs at h with hw
    cases h
    exact .inl ⟨false, ⟨r, (word_iff r).mp hw, .inr (.inl ⟨rfl, rfl⟩)⟩, rfl⟩
  · rename_i r
    split_ifs at h with hw
    cases h
    exact .inl ⟨true, ⟨r, (word_iff r).mp hw, .inr (.inr ⟨rfl, rfl⟩)⟩, rfl⟩
  · split at h
    · rename_i hw
      cases h
      exact .inl ⟨false, ⟨s, (word_iff s).mp hw, .inl ⟨rfl, rfl⟩⟩, rfl⟩
    · split at h
      · rename_i hn
        exact .inr ⟨(nan_iff s).mp hn, (Option.some.inj h).symm⟩
      · cases h

theorem special_inf (f : Fmt) {s : Bytes} {neg : Bool} (h : Infinity s neg) : specialFloat f s = some ⟨neg, f.infMag⟩ := by
  obtain ⟨w, hw, h⟩ := h
  have hb := (word_iff w).mpr hw
  rcases h with ⟨rfl, rfl⟩ | ⟨rfl, rfl⟩ | ⟨rfl, rfl⟩
  · have hu : (∀ r, s ≠ 43 :: r) ∧ ∀ r, s ≠ 45 :: r := hw.elim (word_unsigned · (by decide)) (word_unsigned · (by decide))
    unfold specialFloat
    split
    · exact absurd rfl (hu.1 _)
    · exact absurd rfl (hu.2 _)
    · rw [if_pos hb]
  · unfold specialFloat
    simp only [if_pos hb]
  · unfold specialFloat
    simp only [if_pos hb]

theorem special_nan (f : Fmt) {s : Bytes} (h : Nan s) : specialFloat f s = some ⟨false, (FP.nan f).m + if f.mb = 52 then 1 else 0⟩ := by
  have hu := word_unsigned h (by decide)
  have hb := (nan_iff s).mpr h
  have hn : ¬ (s.map lowerByte == [105, 110, 102] || s.map lowerByte == [105, 110, 102, 105, 110, 105, 116, 121]) = true := by
    rw [beq_iff_eq] at hb
    rw [hb]; decide
  unfold specialFloat
  split
  · exact absurd rfl (hu.1 _)
  · exact absurd rfl (hu.2 _)
  · rw [if_neg hn, if_pos hb]

/-! ## Both halves -/

theorem literal_head {t : Bytes} {q : ℚ} {e : Int} (h : Literal t q e) : ∃ c r, t = c :: r ∧ (Digit false c ∨ c = 46) := by
  cases h with
  | decimal h => exact (mant_chars h).2
  | exponent h _ =>
    obtain ⟨c, r, rfl, hc⟩ := (mant_chars h).2
    exact ⟨c, _, rfl, hc⟩
  | hex _ _ _ => exact ⟨_, _, rfl, .inl (by decide)⟩
  | hexUnder _ _ _ _ => exact ⟨_, _, rfl, .inl (by decide)⟩

theorem literal_word {t : Bytes} {q : ℚ} {e : Int} (h : Literal t q e) {a : UInt8} {w : Bytes} (ha : 97 ≤ a.toNat) : ¬ SameWord (a :: w) t := by
  intro hw
  obtain ⟨c, r, rfl, hc⟩ := literal_head h
  obtain ⟨c', r', he, hc'⟩ := word_head hw
  cases he
  have : c.toNat ≤ 57 := by
    rcases hc with (hc | hc) | rfl
    · exact hc.2
    · cases hc.1
    · decide
  rcases hc' with rfl | hc' <;> omega

theorem number_complete (f : Fmt) {s : Bytes} {neg : Bool} {q : ℚ} {e : Int} (h : Signed s neg q e) :
    specialFloat f s = none ∧ ∃ n t, readNumber s = some n ∧ t.length ≤ s.length ∧ readUnsigned neg t = some n ∧ n.Is neg q e := by
  have hsp : ∀ x, specialFloat f s = some x → False := by
    intro x hx
    have words : ∀ {t : Bytes}, Literal t q e → ¬ (SameWord [105, 110, 102] t ∨ SameWord [105, 110, 102, 105, 110, 105, 116, 121] t) := by
      intro t hl hw
      rcases hw with hw | hw
      · exact literal_word hl (by decide) hw
      · exact literal_word hl (by decide) hw
    have start : ∀ {t r : Bytes} {c : UInt8}, Literal t q e → t = c :: r → c ≠ 43 ∧ c ≠ 45 := by
      intro t r c hl ht
      obtain ⟨c', r', he, hc⟩ := literal_head hl
      rw [ht] at he; cases he
      exact ⟨(start_char hc).1, (start_char hc).2.1⟩
    rcases special_sound hx with ⟨b, ⟨w, hw, hs⟩, -⟩ | ⟨hn, -⟩
    · cases h with
      | plain hl =>
        rcases hs with ⟨rfl, -⟩ | ⟨hs, -⟩ | ⟨hs, -⟩
        · exact words hl hw
        · exact (start hl hs).1 rfl
        · exact (start hl hs).2 rfl
      | plus hl =>
        rcases hs with ⟨rfl, -⟩ | ⟨hs, -⟩ | ⟨hs, -⟩
        · rcases hw with hw | hw
          · exact (word_unsigned hw (by decide)).1 _ rfl
          · exact (word_unsigned hw (by decide)).1 _ rfl
        · cases hs; exact words hl hw
        · cases hs
      | minus hl =>
        rcases hs with ⟨rfl, -⟩ | ⟨hs, -⟩ | ⟨hs, -⟩
        · rcases hw with hw | hw
          · exact (word_unsigned hw (by decide)).2 _ rfl
          · exact (word_unsigned hw (by decide)).2 _ rfl
        · cases hs
        · cases hs; exact words hl hw
    · cases h with
      | plain hl => exact literal_word hl (by decide) hn
      | plus hl => exact (word_unsigned hn (by decide)).1 _ rfl
      | minus hl => exact (word_unsigned hn (by decide)).2 _ rfl
  refine ⟨Option.eq_none_iff_forall_ne_some.mpr fun x hx => hsp x hx, ?_⟩
  cases h with
  | plain hl =>
    obtain ⟨n, h1, h2⟩ := readUnsigned_complete false hl
    obtain ⟨c, r, rfl, hc⟩ := literal_head hl
    refine ⟨n, _, ?_, le_rfl, h1, h2⟩
    unfold readNumber
    split
    · rename_i he; cases he; exact absurd rfl (start_char hc).1
    · rename_i he; cases he; exact absurd rfl (start_char hc).2.1
    · exact h1
  | plus hl =>
    obtain ⟨n, h1, h2⟩ := readUnsigned_complete false hl
    exact ⟨n, _, h1, by simp, h1, h2⟩
  | minus hl =>
    obtain ⟨n, h1, h2⟩ := readUnsigned_complete true hl
    exact ⟨n, _, h1, by simp, h1, h2⟩

theorem number_sound {s : Bytes} {n : ReadNumber} (h : readNumber s = some n) : ∃ neg q e, Signed s neg q e := by
  unfold readNumber at h
  split at h
  · obtain ⟨q, e, h1, -⟩ := readUnsigned_sound h
    exact ⟨_, q, e, .plus h1⟩
  · obtain ⟨q, e, h1, -⟩ := readUnsigned_sound h
    exact ⟨_, q, e, .minus h1⟩
  · obtain ⟨q, e, h1, -⟩ := readUnsigned_sound h
    exact ⟨_, q, e, .plain h1⟩

/-- Numbers, in both formats. -/
theorem parse_number {f : Fmt} (hf : 0 < f.mb) (hi : 0 < f.infMag) (ho : f.infMag % 2 = 0) {L : Nat} (hL : 5 * L ≤ 10000) (hl : f.limit ≤ 2 ^ L)
    (hs : f.scale + 1 < L) {s : Bytes} {neg : Bool} {q : ℚ} {e : Int} (h : Signed s neg q e) (hlen : |e| < 100000 ∨ s.length ≤ L) :
    (f.limit ≤ q → goParseFloat f s = none) ∧
    (q < f.limit → ∃ x, goParseFloat f s = some x ∧ FP.Meets f (.num (signed neg q) neg) x) := by
  obtain ⟨h1, n, t, h2, ht, h3, h4⟩ := number_complete f h
  have hz := readUnsigned_size h3
  have hz' : n.value < 16 ^ s.length ∧ n.behind ≤ s.length :=
    ⟨hz.1.trans_le (Nat.pow_le_pow_right (by decide) ht), hz.2.trans ht⟩
  obtain ⟨-, r1, r2⟩ := round_read hf hi ho hL hl hs hz' h4 hlen
  unfold goParseFloat
  rw [h1, h2]
  refine ⟨fun h => ?_, fun h => ?_⟩
  · simp only [r1 h, if_true]
  · simp only [if_neg (r2 h).1]
    exact ⟨_, rfl, (r2 h).2⟩

theorem b64_limit_le : b64.limit ≤ 2 ^ 2000 := by
  rw [limit64]
  calc (2 : ℚ) ^ 1024 - 2 ^ 970 ≤ 2 ^ 1024 := sub_le_self _ (by positivity)
    _ ≤ _ := pow_le_pow_right₀ (by norm_num) (by norm_num)

theorem b32_limit_le : b32.limit ≤ 2 ^ 2000 := by
  rw [limit32]
  calc (2 : ℚ) ^ 128 - 2 ^ 103 ≤ 2 ^ 128 := sub_le_self _ (by positivity)
    _ ≤ _ := pow_le_pow_right₀ (by norm_num) (by norm_num)

end Rap
