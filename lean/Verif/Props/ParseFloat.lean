import Verif.Proof.ParseFloatRound
import Verif.Proof.TrimSpace
import Verif.Props.Csv
import Verif.Props.V1

/-!
# C74: texts as numbers
-/

namespace Rap
open FloatText

/-! ## Both formats at once -/

theorem parse_cases {f : Fmt} {s : Bytes} {x : FP} (h : goParseFloat f s = some x) :
    (∃ neg, Infinity s neg ∧ x = ⟨neg, f.infMag⟩) ∨ (Nan s ∧ x = ⟨false, (FP.nan f).m + if f.mb = 52 then 1 else 0⟩) ∨
    ∃ neg q e, Signed s neg q e := by
  unfold goParseFloat at h
  cases hs : specialFloat f s with
  | some y =>
    rw [hs] at h
    cases h
    exact (special_sound hs).elim .inl fun h => .inr (.inl h)
  | none =>
    rw [hs] at h
    simp only at h
    cases hn : readNumber s with
    | none => rw [hn] at h; cases h
    | some n => exact .inr (.inr (number_sound hn))

theorem parse_special {f : Fmt} {s : Bytes} {x : FP} (h : specialFloat f s = some x) : goParseFloat f s = some x := by
  rw [goParseFloat, h]

theorem number_inf32 (neg : Bool) : number32 (F32.ofFP ⟨neg, b32.infMag⟩) = if neg then .ninf else .pinf := by
  cases neg <;> decide +kernel

theorem number_inf64 (neg : Bool) : number64 (F64.ofFP ⟨neg, b64.infMag⟩) = if neg then .ninf else .pinf := by
  cases neg <;> decide +kernel

theorem number_nan32 : number32 (F32.ofFP ⟨false, (FP.nan b32).m + if b32.mb = 52 then 1 else 0⟩) = .nan := by decide +kernel

theorem number_nan64 : number64 (F64.ofFP ⟨false, (FP.nan b64).m + if b64.mb = 52 then 1 else 0⟩) = .nan := by decide +kernel

theorem parse32 {s : Bytes} {neg : Bool} {q : ℚ} {e : Int} (h : Signed s neg q e) (hlen : |e| < 100000 ∨ s.length ≤ 2000) :
    (2 ^ 128 - 2 ^ 103 ≤ q → goParseFloat b32 s = none) ∧
    (q < 2 ^ 128 - 2 ^ 103 → ∃ x, goParseFloat b32 s = some x ∧ FP.Meets b32 (.num (signed neg q) neg) x) := by
  rw [← limit32]
  exact parse_number b32_mb (by decide) (by decide) (L := 2000) (by decide) b32_limit_le (by decide) h hlen

theorem parse64 {s : Bytes} {neg : Bool} {q : ℚ} {e : Int} (h : Signed s neg q e) (hlen : |e| < 100000 ∨ s.length ≤ 2000) :
    (2 ^ 1024 - 2 ^ 970 ≤ q → goParseFloat b64 s = none) ∧
    (q < 2 ^ 1024 - 2 ^ 970 → ∃ x, goParseFloat b64 s = some x ∧ FP.Meets b64 (.num (signed neg q) neg) x) := by
  rw [← limit64]
  exact parse_number b64_mb (by decide) (by decide) (L := 2000) (by decide) b64_limit_le (by decide) h hlen

/-! ## The property -/

/-- C74: a text is accepted as a float32 if and only if it is one, and the result is then the float32 it writes. -/
theorem C74_single (s : Bytes) (h : Modest s) :
    (∀ y, goParseFloat32 s = some y → Reads32 s y) ∧ (goParseFloat32 s = none → ¬ ∃ y, Reads32 s y) := by
  unfold goParseFloat32
  constructor
  · intro y hy
    obtain ⟨x, hx, rfl⟩ := Option.map_eq_some_iff.mp hy
    rcases parse_cases hx with ⟨neg, hi, rfl⟩ | ⟨hn, rfl⟩ | ⟨neg, q, e, hs⟩
    · exact .inl ⟨neg, hi, number_inf32 neg⟩
    · exact .inr (.inl ⟨hn, number_nan32⟩)
    · obtain ⟨h1, h2⟩ := parse32 hs (h neg q e hs)
      rcases lt_or_ge q (2 ^ 128 - 2 ^ 103) with hq | hq
      · obtain ⟨x', hx', hm⟩ := h2 hq
        cases hx.symm.trans hx'
        exact .inr (.inr ⟨neg, q, e, hs, hq, is32_of_meets hm⟩)
      · rw [h1 hq] at hx; cases hx
  · rintro hy ⟨y, ⟨neg, hi, -⟩ | ⟨hn, -⟩ | ⟨neg, q, e, hs, hq, -⟩⟩
    · rw [parse_special (special_inf b32 hi)] at hy; cases hy
    · rw [parse_special (special_nan b32 hn)] at hy; cases hy
    · obtain ⟨x, hx, -⟩ := (parse32 hs (h neg q e hs)).2 hq
      rw [hx] at hy; cases hy

/-- C74: the same for doubles. -/
theorem C74_double (s : Bytes) (h : Modest s) :
    (∀ y, goParseFloat64 s = some y → Reads64 s y) ∧ (goParseFloat64 s = none → ¬ ∃ y, Reads64 s y) := by
  unfold goParseFloat64
  constructor
  · intro y hy
    obtain ⟨x, hx, rfl⟩ := Option.map_eq_some_iff.mp hy
    rcases parse_cases hx with ⟨neg, hi, rfl⟩ | ⟨hn, rfl⟩ | ⟨neg, q, e, hs⟩
    · exact .inl ⟨neg, hi, number_inf64 neg⟩
    · exact .inr (.inl ⟨hn, number_nan64⟩)
    · obtain ⟨h1, h2⟩ := parse64 hs (h neg q e hs)
      rcases lt_or_ge q (2 ^ 1024 - 2 ^ 970) with hq | hq
      · obtain ⟨x', hx', hm⟩ := h2 hq
        cases hx.symm.trans hx'
        exact .inr (.inr ⟨neg, q, e, hs, hq, is64_of_meets hm⟩)
      · rw [h1 hq] at hx; cases hx
  · rintro hy ⟨y, ⟨neg, hi, -⟩ | ⟨hn, -⟩ | ⟨neg, q, e, hs, hq, -⟩⟩
    · rw [parse_special (special_inf b64 hi)] at hy; cases hy
    · rw [parse_special (special_nan b64 hn)] at hy; cases hy
    · obtain ⟨x, hx, -⟩ := (parse64 hs (h neg q e hs)).2 hq
      rw [hx] at hy; cases hy

/-- C74: every number that is in range is accepted, every other one is refused. -/
theorem C74_range (s : Bytes) (neg : Bool) (q : ℚ) (e : Int) (h : Signed s neg q e) (hm : Modest s) :
    ((goParseFloat32 s).isSome ↔ q < 2 ^ 128 - 2 ^ 103) ∧ ((goParseFloat64 s).isSome ↔ q < 2 ^ 1024 - 2 ^ 970) := by
  constructor
  · obtain ⟨h1, h2⟩ := parse32 h (hm neg q e h)
    rw [goParseFloat32, Option.isSome_map]
    refine ⟨fun hs => ?_, fun hq => ?_⟩
    · by_contra hq
      rw [h1 (not_lt.mp hq)] at hs
      cases hs
    · obtain ⟨x, hx, -⟩ := h2 hq
      rw [hx]; rfl
  · obtain ⟨h1, h2⟩ := parse64 h (hm neg q e h)
    rw [goParseFloat64, Option.isSome_map]
    refine ⟨fun hs => ?_, fun hq => ?_⟩
    · by_contra hq
      rw [h1 (not_lt.mp hq)] at hs
      cases hs
    · obtain ⟨x, hx, -⟩ := h2 hq
      rw [hx]; rfl

theorem run_zeros (n : Nat) : Run false (List.replicate n 48 ++ [49]) (List.replicate n 48 ++ [49]) := by
  induction n with
  | zero => exact .one (by decide)
  | succ n ih => exact .more (by decide) ih

theorem value_zeros (n : Nat) : value false (List.replicate n 48 ++ [49]) = 1 := by
  induction n with
  | zero => decide
  | succ n ih => exact ih

/-- One, written as 0.000…01e200000. -/
def longOne : Bytes := ([48] : Bytes) ++ 46 :: (List.replicate 199999 48 ++ [49]) ++ [101, 50, 48, 48, 48, 48, 48]

theorem longOne_read : Signed longOne false 1 200000 ∧ goParseFloat64 longOne = some 0 := by
  have h6 : Exp [101, 69] [101, 50, 48, 48, 48, 48, 48] 200000 := by
    have : Run false [50, 48, 48, 48, 48, 48] [50, 48, 48, 48, 48, 48] :=
      .more (by decide) (.more (by decide) (.more (by decide) (.more (by decide) (.more (by decide) (.one (by decide))))))
    exact .plain (by decide) this
  have hm := Mant.both (hex := false) (.one (show Digit false 48 by decide)) (run_zeros 199999)
  have hs := Signed.plain (Literal.exponent hm h6)
  have hq : ((value false [48] : Nat) + (value false (List.replicate 199999 48 ++ [49]) : ℚ) /
      base false ^ (List.replicate 199999 (48 : UInt8) ++ [49]).length) * 10 ^ (200000 : Int) = 1 := by
    have hl : (List.replicate 199999 (48 : UInt8) ++ [49]).length = 200000 := by
      rw [List.length_append, List.length_replicate]; rfl
    rw [value_zeros, hl]
    have h0 : value false [48] = 0 := by decide
    have hb : (base false : ℚ) = 10 := rfl
    have hz : (10 : ℚ) ^ (200000 : Int) = 10 ^ 200000 := zpow_natCast 10 200000
    rw [h0, hb, hz, Nat.cast_zero, zero_add, Nat.cast_one, one_div, inv_mul_cancel₀ (pow_ne_zero _ (by norm_num))]
  rw [hq] at hs
  refine ⟨hs, ?_⟩
  rw [longOne]
  generalize ([48] : Bytes) ++ 46 :: (List.replicate 199999 48 ++ [49]) ++ [101, 50, 48, 48, 48, 48, 48] = s at hs
  obtain ⟨h1, n, t, h2, -, -, hneg, k, hk, hkk, hval⟩ := number_complete b64 hs
  have hk2 : (2 : ℚ) ≤ k := by rw [hkk]; split_ifs <;> norm_num
  have hk0 : (0 : ℚ) < k := by linarith
  have he : n.exp ≤ 100000 := by
    rcases hk with ⟨-, hk⟩ | ⟨-, hk, -⟩ | ⟨hk, -⟩
    · rw [abs_of_nonneg (by norm_num)] at hk; omega
    · omega
    · omega
  obtain ⟨hd, hf⟩ := n.frac_val
  rw [← hkk] at hf
  have hQ : (n.frac.1 : ℚ) / n.frac.2 = k ^ (n.exp - 200000) := by
    rw [hf, zpow_sub₀ hk0.ne', eq_div_iff (zpow_ne_zero _ hk0.ne')]
    calc (n.value : ℚ) / base n.hex ^ n.behind * k ^ n.exp * k ^ (200000 : Int)
        = (n.value : ℚ) / base n.hex ^ n.behind * k ^ (200000 : Int) * k ^ n.exp := by ring
      _ = _ := by rw [← hval, one_mul]
  have hsmall : k ^ (n.exp - 200000) ≤ (2 : ℚ) ^ (-(2000 : Int)) :=
    (zpow_le_zpow_right₀ (by linarith) (show n.exp - 200000 ≤ -2000 by omega)).trans (by
      rw [zpow_neg, zpow_neg]
      refine inv_anti₀ (zpow_pos (by norm_num) _) ?_
      have a1 : (2 : ℚ) ^ (2000 : Int) = 2 ^ 2000 := zpow_natCast 2 2000
      have a2 : k ^ (2000 : Int) = k ^ 2000 := zpow_natCast k 2000
      rw [a1, a2]
      exact pow_le_pow_left₀ (by norm_num) hk2 _)
  have hmag : (FP.round b64 n.neg (n.frac.1 * 2 ^ b64.scale) n.frac.2).m = 0 := by
    show min _ _ = _
    have : rnMag b64 (k ^ (n.exp - 200000) * 2 ^ b64.scale) = 0 := by
      refine rnMag_tiny b64_mb ?_
      rw [abs_of_nonneg (mul_nonneg (zpow_nonneg hk0.le _) (scale_pos b64).le), b64_scale]
      calc k ^ (n.exp - 200000) * 2 ^ 1074 ≤ (2 : ℚ) ^ (-(2000 : Int)) * 2 ^ (1074 : Nat) :=
            mul_le_mul_of_nonneg_right hsmall (by positivity)
        _ = (2 : ℚ) ^ (-(926 : Int)) := by
            rw [← zpow_natCast (2 : ℚ) 1074, ← zpow_add₀ (by norm_num)]; rfl
        _ < (2 : ℚ) ^ (-(1 : Int)) := zpow_lt_zpow_right₀ (by norm_num) (by norm_num)
        _ = 1 / 2 := by norm_num
    rw [← this, rnMag, roundMag_of_rat (q := k ^ (n.exp - 200000) * 2 ^ b64.scale) b64_mb hd]
    rw [abs_of_nonneg (mul_nonneg (zpow_nonneg hk0.le _) (scale_pos b64).le), ← hQ]
    push_cast
    ring
  rw [goParseFloat64, goParseFloat, h1, h2]
  have hround : FP.round b64 n.neg (n.frac.1 * 2 ^ b64.scale) n.frac.2 = ⟨false, 0⟩ := by
    have h1 : (FP.round b64 n.neg (n.frac.1 * 2 ^ b64.scale) n.frac.2).s = false := hneg
    calc _ = FP.mk (FP.round b64 n.neg (n.frac.1 * 2 ^ b64.scale) n.frac.2).s (FP.round b64 n.neg (n.frac.1 * 2 ^ b64.scale) n.frac.2).m := rfl
      _ = _ := by rw [h1, hmag]
  simp only [hround]
  rfl

/-- C74: without a bound the claim is false: there is a text of the number one that is read as zero, because the exponent is cut off. -/
theorem C74_long_refuted : ∃ s, Signed s false 1 200000 ∧ goParseFloat64 s = some 0 :=
  ⟨_, longOne_read⟩

/-- C74: white space around a text is dropped, and only that. -/
theorem C74_trim (s : Bytes) : Trimmed s (goTrimSpace s) := trim_sound s

/-! ## Characters of numbers -/

theorem digit_solid {hex : Bool} {c : UInt8} (h : Digit hex c) : Solid c := by
  unfold Digit at h; unfold Solid; omega

theorem mant_solid {hex : Bool} {t : Bytes} {q : ℚ} (h : Mant hex t q) : ∀ c ∈ t, Solid c := by
  intro c hc
  rcases (mant_chars h).1 c hc with h | rfl | rfl
  · exact digit_solid h
  · unfold Solid; decide
  · unfold Solid; decide

theorem exp_solid {hex : Bool} {u : Bytes} {e : Int} (h : Exp (letters hex) u e) : ∀ c ∈ u, Solid c := by
  have run : ∀ {t ds : Bytes}, Run false t ds → ∀ c ∈ t, Solid c := by
    intro t ds h c hc
    rcases run_chars h c hc with h | rfl
    · exact digit_solid h
    · unfold Solid; decide
  have letter : ∀ {c : UInt8}, c ∈ letters hex → Solid c := by
    intro c hc
    revert hc
    unfold Solid
    refine u8_forall (P := fun c => c ∈ letters hex → 33 ≤ c.toNat ∧ c.toNat < 128) ?_ c
    cases hex <;> decide +kernel
  have sign : Solid 43 ∧ Solid 45 := by unfold Solid; decide
  intro d hd
  cases h with
  | plain hc hr =>
    rcases List.mem_cons.mp hd with rfl | hd
    · exact letter hc
    · exact run hr d hd
  | plus hc hr =>
    rcases List.mem_cons.mp hd with rfl | hd
    · exact letter hc
    · rcases List.mem_cons.mp hd with rfl | hd
      · exact sign.1
      · exact run hr d hd
  | minus hc hr =>
    rcases List.mem_cons.mp hd with rfl | hd
    · exact letter hc
    · rcases List.mem_cons.mp hd with rfl | hd
      · exact sign.2
      · exact run hr d hd

theorem literal_solid {t : Bytes} {q : ℚ} {e : Int} (h : Literal t q e) : ∀ c ∈ t, Solid c := by
  have hx : ∀ {x : UInt8}, x = 120 ∨ x = 88 → Solid x := by
    rintro x (rfl | rfl) <;> unfold Solid <;> decide
  have h48 : Solid 48 ∧ Solid 95 := by unfold Solid; decide
  intro c hc
  cases h with
  | decimal hm => exact mant_solid hm c hc
  | exponent hm he =>
    rcases List.mem_append.mp hc with hc | hc
    · exact mant_solid hm c hc
    · exact exp_solid (hex := false) he c hc
  | hex h hm he =>
    rcases List.mem_cons.mp hc with rfl | hc
    · exact h48.1
    rcases List.mem_cons.mp hc with rfl | hc
    · exact hx h
    rcases List.mem_append.mp hc with hc | hc
    · exact mant_solid hm c hc
    · exact exp_solid (hex := true) he c hc
  | hexUnder h _ hm he =>
    rcases List.mem_cons.mp hc with rfl | hc
    · exact h48.1
    rcases List.mem_cons.mp hc with rfl | hc
    · exact hx h
    rcases List.mem_cons.mp hc with rfl | hc
    · exact h48.2
    rcases List.mem_append.mp hc with hc | hc
    · exact mant_solid hm c hc
    · exact exp_solid (hex := true) he c hc

theorem word_solid {w s : Bytes} (hw : ∀ a ∈ w, 97 ≤ a.toNat ∧ a.toNat < 128) (h : SameWord w s) : ∀ c ∈ s, Solid c := by
  unfold SameWord at h
  induction h with
  | nil => intro c hc; cases hc
  | @cons a b w s h _ ih =>
    intro c hc
    rcases List.mem_cons.mp hc with rfl | hc
    · have := hw a (by simp)
      unfold Solid
      rcases h with rfl | h <;> omega
    · exact ih (fun a h => hw a (by simp [h])) c hc

theorem reads_solid {s : Bytes} {y : F64} (h : Reads64 s y) : s ≠ [] ∧ ∀ c ∈ s, Solid c := by
  have sign : Solid 43 ∧ Solid 45 := by unfold Solid; decide
  rcases h with ⟨neg, ⟨w, hw, h⟩, -⟩ | ⟨hn, -⟩ | ⟨neg, q, e, hs, -⟩
  · have hw' : w ≠ [] ∧ ∀ c ∈ w, Solid c := by
      rcases hw with hw | hw
      · obtain ⟨_, _, rfl, -⟩ := word_head hw
        exact ⟨by simp, word_solid (by decide) hw⟩
      · obtain ⟨_, _, rfl, -⟩ := word_head hw
        exact ⟨by simp, word_solid (by decide) hw⟩
    rcases h with ⟨rfl, -⟩ | ⟨rfl, -⟩ | ⟨rfl, -⟩
    · exact hw'
    · exact ⟨by simp, fun c hc => (List.mem_cons.mp hc).elim (fun h => h ▸ sign.1) (hw'.2 c)⟩
    · exact ⟨by simp, fun c hc => (List.mem_cons.mp hc).elim (fun h => h ▸ sign.2) (hw'.2 c)⟩
  · obtain ⟨_, _, rfl, -⟩ := word_head hn
    exact ⟨by simp, word_solid (by decide) hn⟩
  · cases hs with
    | plain hl =>
      obtain ⟨_, _, rfl, -⟩ := literal_head hl
      exact ⟨by simp, literal_solid hl⟩
    | plus hl => exact ⟨by simp, fun c hc => (List.mem_cons.mp hc).elim (fun h => h ▸ sign.1) (literal_solid hl c)⟩
    | minus hl => exact ⟨by simp, fun c hc => (List.mem_cons.mp hc).elim (fun h => h ▸ sign.2) (literal_solid hl c)⟩

/-- C74: a number with any white space around it is read as that number. -/
theorem C74_cell (a b : List Bytes) (t : Bytes) (y : F64) (ha : ∀ w ∈ a, White w) (hb : ∀ w ∈ b, White w) (hm : Modest t)
    (ht : Reads64 t y) : ∃ y', goParseFloat64 (goTrimSpace (a.flatten ++ (t ++ b.flatten))) = some y' ∧ Reads64 t y' := by
  obtain ⟨h1, h2⟩ := reads_solid ht
  rw [trim_solid h1 h2 ha hb]
  obtain ⟨d1, d2⟩ := C74_double t hm
  cases h : goParseFloat64 t with
  | none => exact absurd ⟨y, ht⟩ (d2 h)
  | some y' => exact ⟨y', rfl, d1 y' h⟩

theorem modest_of_short {s : Bytes} (h : s.length ≤ 2000) : Modest s := fun _ _ _ _ => .inr h

theorem trim_length (s : Bytes) : (goTrimSpace s).length ≤ s.length := by
  obtain ⟨⟨a, b, -, -, h⟩, -⟩ := trim_sound s
  conv_rhs => rw [h]
  simp only [List.length_append]
  omega

/-- C74: the numbers of an imported table are those its cells write, rounded to doubles (cells of up to 2000 bytes). -/
theorem C74_table (T : CsvExt) (ht : T.trim = goTrimSpace) (hp : T.parseFloat = goParseFloat64) (hT : T.Lawful) {input : CsvInput} {r : Rec}
    (hlen : ∀ row ∈ input.rows, ∀ s ∈ row, s.length ≤ 2000) (h : recordingFromCSV T input = pure r) :
    ∃ header data recs, input.header = .ok header ∧ List.Forall₂ (fun row d => RowIs T header row d ∧ RowReads T header row d) input.rows data ∧
      Grouped data recs ∧ r = .mk [] [] [] recs [] [] [] := by
  obtain ⟨header, data, recs, h1, -, h2, h3, h4⟩ := C44_imported hT h
  refine ⟨header, data, recs, h1, ?_, h3, h4⟩
  clear h h1 h3 h4
  generalize input.rows = rows at hlen h2
  induction h2 with
  | nil => exact .nil
  | @cons row d rows data h _ ih =>
    refine .cons ⟨h, ?_⟩ (ih fun row hr => hlen row (by simp [hr]))
    have num : ∀ {name : Bytes} {x : F64}, HasNumber T header row name x → ∃ s t, HasCell T header row name s ∧ Trimmed s t ∧ Reads64 t x := by
      rintro name x ⟨s, hs, hx⟩
      rw [ht, hp] at hx
      have hs' : s ∈ row := by
        obtain ⟨i, -, hi⟩ := hs
        exact List.mem_of_getElem? hi
      have := (trim_length s).trans (hlen row (by simp) s hs')
      exact ⟨s, _, hs, trim_sound s, (C74_double _ (modest_of_short this)).1 x hx⟩
    obtain ⟨-, -, n1, n2, n3, n4⟩ := h
    intro name x hx
    simp only [List.mem_cons, Prod.mk.injEq, List.not_mem_nil, or_false] at hx
    rcases hx with ⟨rfl, rfl⟩ | ⟨rfl, rfl⟩ | ⟨rfl, rfl⟩ | ⟨rfl, rfl⟩
    · exact num n1
    · exact num n2
    · exact num n3
    · exact num n4

/-- C74: metadata of version 1 recordings (C45 and C73 say that every block is related to its map by `ParsedMap`). -/
theorem C74_metadata (X : Ext) (hX : X.parseFloat32 = goParseFloat32) (m : List (Bytes × Bytes)) (b : Block) (h : V1.ParsedMap X m b)
    (hm : ∀ kv ∈ m, Modest kv.2) : ReadMap m b := by
  obtain ⟨values, h1, h2⟩ := h
  refine ⟨values, h1, ?_⟩
  clear h1
  induction h2 with
  | nil => exact .nil
  | @cons kv p m values h _ ih =>
    refine .cons ?_ (ih fun kv hk => hm kv (by simp [hk]))
    obtain ⟨d1, d2⟩ := C74_single kv.2 (hm kv (by simp))
    rw [hX] at h
    cases hv : goParseFloat32 kv.2 with
    | none => exact .inr ⟨h.2 hv, d2 hv⟩
    | some y => exact .inl ⟨y, h.1 y hv, d1 y hv⟩

/-! ## Samples -/

/-- Texts that are numbers: 1, -0.5, 1_000.25e-3, 0x_1.8p1 (which is 3), +InFinity and nAn; and texts that are not: an empty one, a
point, 1e, 1__0, 0x1, 1e400, and words. -/
example : goParseFloat64 b!"1" = some 0x3FF0000000000000 ∧ goParseFloat64 b!"-0.5" = some 0xBFE0000000000000 ∧
    goParseFloat64 b!"1_000.25e-3" = some 0x3FF0010624DD2F1B ∧ goParseFloat32 b!"0x_1.8p1" = some 0x40400000 ∧
    goParseFloat32 b!"+InFinity" = some 0x7F800000 ∧ goParseFloat32 b!"nAn" = some 0x7FC00000 ∧ goParseFloat32 b!"-0" = some 0x80000000 ∧
    (∀ s ∈ [b!"", b!".", b!"1e", b!"1__0", b!"_1", b!"1_", b!"0x1", b!"1e400", b!"0x_.8p0", b!"infinit", b!" 1", b!"1.2.3"],
      goParseFloat64 s = none) := by decide +kernel

example : Modest b!"1_000.25e-3" := modest_of_short (by decide)

/-- "2.5e1" is 25. -/
example : Signed b!"2.5e1" false 25 1 := by
  have h := Signed.plain (.exponent (.both (.one (show Digit false 50 by decide)) (.one (show Digit false 53 by decide)))
    (.plain (letters := [101, 69]) (show (101 : UInt8) ∈ _ by decide) (.one (show Digit false 49 by decide))))
  have h0 : value false [50] = 2 ∧ value false [53] = 5 ∧ value false [49] = 1 := by decide
  obtain ⟨h1, h2, h3⟩ := h0
  rw [h1, h2, h3] at h
  norm_num [base] at h
  exact h

/-- A tab, a no-break space and an ideographic space around a text. -/
example : goTrimSpace ([9, 0xC2, 0xA0] ++ b!"1 2" ++ [0xE3, 0x80, 0x80, 32]) = b!"1 2" ∧ goTrimSpace [32, 0xE2, 0x80, 0x8B] = [0xE2, 0x80, 0x8B] ∧
    White [0xC2, 0xA0] ∧ White [32] := by
  refine ⟨by decide +kernel, by decide +kernel, (white_iff _).mpr (by decide), (white_iff _).mpr (by decide)⟩

/-- A table with white space around its numbers. -/
def textCsv : CsvExt := ⟨goTrimSpace, goParseFloat64, fun m => m⟩

/-- A table of one row. -/
def textTable : CsvInput :=
  ⟨.ok [b!" id", b!"name", b!"time", b!"x", b!"y", b!"z"], [[b!"1", b!"a", b!" 0", b!"1e0 ", b!"-2", b!"0x1p1"]], none⟩

theorem textTable_ok : ∃ r, recordingFromCSV textCsv textTable = pure r := by
  have h : (match (recordingFromCSV textCsv textTable).run with | .ok (.ok _) => true | _ => false) = true := by decide +kernel
  revert h
  cases h : (recordingFromCSV textCsv textTable).run with
  | error e => intro h; cases h
  | ok x =>
    cases x with
    | error e => intro h; cases h
    | ok r => intro _; exact ⟨r, h⟩

example : textCsv.Lawful ∧ (∀ row ∈ textTable.rows, ∀ s ∈ row, s.length ≤ 2000) ∧ ∃ r, recordingFromCSV textCsv textTable = pure r :=
  ⟨fun _ m => .refl _, by decide, textTable_ok⟩

/-- Metadata of a version 1 recording: "Nan" (a name, perhaps) becomes a number. -/
example : V1.convertMetadata ⟨fun b => .ok b, goParseFloat32⟩ [(b!"who", b!"Nan"), (b!"n", b!"1_0"), (b!"t", b!"x")] =
    [(b!"who", Property.f32 0x7FC00000), (b!"n", .f32 0x41200000), (b!"t", .str b!"x")] := by
  have h1 : goParseFloat32 b!"Nan" = some 0x7FC00000 := by decide +kernel
  have h2 : goParseFloat32 b!"1_0" = some 0x41200000 := by decide +kernel
  have h3 : goParseFloat32 b!"x" = none := by decide +kernel
  simp [V1.convertMetadata, h1, h2, h3, mapSet]

end Rap
