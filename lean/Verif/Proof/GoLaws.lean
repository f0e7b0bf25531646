import Verif.Proof.GoAtoi
import Verif.Proof.GoQuote

/-!
# What encoding/json and strconv do with floats
-/

namespace Rap

theorem int_natAbs (f : Fmt) (x : FP) : (x.int f).natAbs = magInt f.mb x.m := by
  rw [FP.int]; split <;> simp

/-- When a float is an integer. -/
theorem integral_iff {f : Fmt} {x : FP} {q : ℚ} (h : x.number f = .fin q) : (∃ i : Int, q = i) ↔ 2 ^ f.scale ∣ magInt f.mb x.m := by
  have hm : x.m < f.infMag := by
    by_contra hc
    rw [FP.number] at h
    split at h
    · cases h
    · split at h
      · split at h <;> cases h
      · omega
  rw [FP.number_fin hm, Number.fin.injEq, FP.val] at h
  generalize f.scale = k at h
  have hk : (0 : ℚ) < 2 ^ k := by positivity
  rw [← int_natAbs]
  constructor
  · rintro ⟨i, rfl⟩
    rw [div_eq_iff hk.ne'] at h
    have h2 : x.int f = i * 2 ^ k := by
      have h3 : (x.int f : ℚ) = ((i * 2 ^ k : Int) : ℚ) := by rw [h]; push_cast; rfl
      exact_mod_cast h3
    rw [h2, Int.natAbs_mul, Int.natAbs_pow]
    exact Nat.dvd_mul_left _ _
  · intro hd
    have hd' : ((2 ^ k : Nat) : Int) ∣ x.int f := Int.natCast_dvd.2 hd
    obtain ⟨i, hi⟩ := hd'
    refine ⟨i, ?_⟩
    rw [← h, hi, div_eq_iff hk.ne']
    push_cast
    ring

/-- The value of a float from its magnitude. -/
theorem number_of_mag {f : Fmt} {x : FP} {i : Int} (hm : x.m < f.infMag) (h : magInt f.mb x.m = i.natAbs * 2 ^ f.scale)
    (h1 : x.s = true → i ≤ 0) (h2 : x.s = false → 0 ≤ i) : x.number f = .fin i := by
  have hk : (0 : ℚ) < 2 ^ f.scale := by positivity
  rw [FP.number_fin hm, FP.val, Number.fin.injEq, div_eq_iff hk.ne']
  have e : x.int f = i * 2 ^ f.scale := by
    rw [FP.int, h]
    generalize f.scale = k
    cases hs : x.s
    · have := h2 hs
      simp only [Bool.false_eq_true, if_false]
      rw [Nat.cast_mul, Int.natAbs_of_nonneg this]
      push_cast; rfl
    · have := h1 hs
      simp only [if_true]
      rw [Nat.cast_mul, Int.ofNat_natAbs_of_nonpos this]
      push_cast; ring
  rw [e]
  generalize f.scale = k
  push_cast
  rfl

/-- A float that is an integer. -/
theorem mag_of_number {f : Fmt} {x : FP} {i : Int} (h : x.number f = .fin i) : x.m < f.infMag ∧
    magInt f.mb x.m = i.natAbs * 2 ^ f.scale ∧ (x.m ≠ 0 → (x.s = true → i ≤ 0) ∧ (x.s = false → 0 ≤ i)) := by
  have hm : x.m < f.infMag := by
    by_contra hc
    rw [FP.number] at h
    split at h
    · cases h
    · split at h
      · split at h <;> cases h
      · omega
  have hk : (0 : ℚ) < 2 ^ f.scale := by positivity
  rw [FP.number_fin hm, FP.val, Number.fin.injEq, div_eq_iff hk.ne'] at h
  have e : x.int f = i * 2 ^ f.scale := by
    generalize f.scale = k at h
    have h3 : (x.int f : ℚ) = ((i * 2 ^ k : Int) : ℚ) := by rw [h]; push_cast; rfl
    exact_mod_cast h3
  refine ⟨hm, ?_, fun _ => ?_⟩
  · rw [← int_natAbs, e, Int.natAbs_mul, Int.natAbs_pow]; rfl
  · rw [FP.int] at e
    have hp : (0 : Int) < 2 ^ f.scale := by positivity
    generalize (2 : Int) ^ f.scale = S at e hp
    constructor
    · intro hs
      rw [if_pos hs] at e
      by_contra hc
      have := mul_pos (not_le.1 hc) hp
      omega
    · intro hs
      rw [if_neg (by simp [hs])] at e
      by_contra hc
      have := mul_neg_of_neg_of_pos (not_le.1 hc) hp
      omega

theorem jsonFloat_none {f : Fmt} {x : FP} (h : ∀ q, x.number f ≠ .fin q) : jsonFloat f x = none := by
  rw [jsonFloat, if_pos]
  by_contra hc
  exact h _ (FP.number_fin (by omega))

theorem single_law {x : F32} {q : ℚ} (h : number32 x = .fin q) : ∃ (t : Bytes) (d : F64) (r : ℚ), jsonFloat b32 x.fp = some t ∧
    JsonNumber t d ∧ number64 d = .fin r ∧ readSingle d = some x ∧ ((∃ i : Int, r = i) ↔ ∃ i : Int, q = i) := by
  obtain ⟨t, d, h1, h2, h3, -, h5, -⟩ := single_double (F32.finite_of_number h)
  obtain ⟨v, -, h7, -⟩ := jsonNumber_iff.1 h2
  have hd : number64 d = .fin (d.fp.val b64) := by rw [F64.number_fp, FP.number_fin h7]
  refine ⟨t, d, _, h1, h2, hd, h3, ?_⟩
  rw [F64.number_fp] at hd
  rw [F32.number_fp] at h
  rw [integral_iff hd, integral_iff h]
  exact h5

theorem single_exact {x : F32} {i : Int} (h : number32 x = .fin i) (hi : i.natAbs ≤ 2 ^ 24) :
    ∃ (t : Bytes) (d : F64), jsonFloat b32 x.fp = some t ∧ JsonNumber t d ∧ number64 d = .fin i := by
  obtain ⟨t, d, h1, h2, -, h4, -, h6⟩ := single_double (F32.finite_of_number h)
  obtain ⟨v, -, h7, -⟩ := jsonNumber_iff.1 h2
  refine ⟨t, d, h1, h2, ?_⟩
  rw [F32.number_fp] at h
  obtain ⟨-, hm, hs⟩ := mag_of_number h
  have hd := h6 _ hi hm
  rw [F64.number_fp]
  by_cases h0 : x.fp.m = 0
  · have : i = 0 := by
      rw [h0, magInt_zero] at hm
      rcases Nat.mul_eq_zero.1 hm.symm with h | h
      · exact Int.natAbs_eq_zero.1 h
      · exact absurd h (by positivity)
    exact number_of_mag h7 hd (fun _ => this.le) (fun _ => this.ge)
  · have := hs h0
    rw [← h4] at this
    exact number_of_mag h7 hd this.1 this.2

/-- `goMarshal` keeps the laws if the times do. -/
theorem goMarshal_lawful {time : BitVec 64 → Bytes} {parseTime : Bytes → Option (BitVec 64)}
    (h : ∀ n, PlainText (time n) ∧ Utf8 (time n) ∧ ¬ b!"0x" <+: time n ∧ parseTime (time n) = some (BitVec.ofInt 64 (n.toInt / 1000))) :
    (goMarshal time).Lawful (goReader parseTime) JsonNumber where
  number_text t d h := by
    obtain ⟨v, h1, -⟩ := jsonNumber_iff.1 h
    exact numberText_chars h1
  number_unique t d d' h h' := jsonNumber_unique h h'
  number_finite t d h := by
    obtain ⟨v, -, h2, -⟩ := jsonNumber_iff.1 h
    exact ⟨_, by rw [F64.number_fp, FP.number_fin h2]⟩
  quote s hs := by
    obtain ⟨cs, rfl⟩ := hs
    exact quoteGo_utf8 cs _ (Nat.le_refl _)
  quote_any s := quoteGo_any _ s (Nat.le_refl _)
  integer t i h hi := jsonNumber_integer h hi
  float64 x q h := jsonFloat64 ((F64.finite_number x).2 ⟨_, h⟩)
  float64_none x h := jsonFloat_none fun q => by rw [← F64.number_fp]; exact h q
  float32 f q h := single_law h
  float32_exact f i h hi := single_exact h hi
  float32_none f h := jsonFloat_none fun q => by rw [← F32.number_fp]; exact h q
  time := h
  fixed x q h := by
    obtain ⟨d, r, h1, h2, h3, -⟩ := jsonNumber_six h
    exact ⟨d, r, h1, h2, h3⟩
  fixed_none x h := fixed_special h 6

/-- `goReader` keeps the laws if the times do. -/
theorem goReader_lawful {parseTime : Bytes → Option (BitVec 64)}
    (h : ∀ s t, parseTime s = some t → ∀ c ∈ s, 32 ≤ c ∧ c ≠ 34 ∧ c ≠ 92) : (goReader parseTime).Lawful where
  time_plain := h
  atoi_exact _ _ h hi := atoi_exact h hi
  atoi_only _ _ h hi := atoi_only h hi
  atoi_range _ _ h := atoi_range h

end Rap
