import Verif.Spec.JsonNumber
import Verif.Spec.Fixed
import Verif.Proof.Round
import Verif.Proof.Marshal
import Verif.Proof.Fixed
import Verif.Props.Fixed

/-!
# The numbers of JSON
-/

namespace Rap

/-! ## Nearest doubles as nearest magnitudes -/

theorem signed_diff {s : Bool} {a b : ℚ} : |(if s then -b else b) - (if s then -a else a)| = |b - a| := by
  cases s
  · simp
  · simp only [if_true]; rw [← abs_neg]; congr 1; ring

theorem nearest64_mag {a : ℚ} (ha : 0 ≤ a) {s : Bool} {d : F64} (h : Nearest64 (if s then -a else a) d) (hs : d.msb = s)
    {q : ℚ} (hq : number64 d = .fin q) : d.fp.s = s ∧ d.fp.m < b64.infMag ∧ NearMag 52 (a * 2 ^ 1074) d.fp.m := by
  have hfin : d.isFinite = true := (F64.finite_number d).2 ⟨_, hq⟩
  have hm := (F64.finite_iff d).1 hfin
  rw [F64.msb_fp] at hs
  refine ⟨hs, hm, ?_⟩
  have habs : |(if s then -a else a)| = a := by cases s <;> simp [abs_of_nonneg ha]
  unfold Nearest64 Nearest at h
  rw [habs] at h
  split at h
  · rw [hq] at h
    generalize (if s then -a else a) = z at h
    split at h <;> cases h
  next hl =>
  obtain ⟨r, hr, hn⟩ := h
  have hl' : |a| < b64.limit := by rw [limit64, abs_of_nonneg ha]; exact lt_of_not_ge hl
  obtain ⟨m0lt, m0near⟩ := rnMag_below b64_mb (by decide) hl'
  rw [abs_of_nonneg ha] at m0near
  generalize rnMag b64 (a * 2 ^ b64.scale) = m0 at m0lt m0near
  have hpos := scale_pos b64
  have val : ∀ m, FP.val b64 ⟨s, m⟩ = if s then -((magInt 52 m : ℚ) / 2 ^ 1074) else (magInt 52 m : ℚ) / 2 ^ 1074 := by
    intro m
    simp only [FP.val, FP.int, b64_scale]
    cases s <;> simp [b64, neg_div]
  have dist : ∀ m, |FP.val b64 ⟨s, m⟩ - (if s then -a else a)| * 2 ^ 1074 = |(magInt 52 m : ℚ) - a * 2 ^ 1074| := by
    intro m
    rw [val, signed_diff, show (2 : ℚ) ^ 1074 = |(2 : ℚ) ^ 1074| by rw [abs_of_pos (by positivity)], ← abs_mul,
      abs_of_pos (by positivity : (0 : ℚ) < 2 ^ 1074), sub_mul, div_mul_cancel₀ _ (by positivity)]
  have hrv : r = FP.val b64 ⟨s, d.fp.m⟩ := by
    rw [F64.number_fin hfin, F64.toRat_fin hfin] at hr
    simp only [Number.fin.injEq] at hr
    rw [← hr, ← hs]
  have hbelow : ∀ m', m' < b64.infMag → |(magInt 52 d.fp.m : ℚ) - a * 2 ^ 1074| ≤ |(magInt 52 m' : ℚ) - a * 2 ^ 1074| ∧
      (m' ≠ d.fp.m → |(magInt 52 m' : ℚ) - a * 2 ^ 1074| = |(magInt 52 d.fp.m : ℚ) - a * 2 ^ 1074| → d.fp.m % 2 = 0) := by
    intro m' hm'
    have hlt : m' < 2 ^ 63 := lt_trans hm' (by decide)
    have hfp : (F64.ofFP ⟨s, m'⟩).fp = ⟨s, m'⟩ := F64.fp_ofFP hlt
    have hz : number64 (F64.ofFP ⟨s, m'⟩) = .fin (FP.val b64 ⟨s, m'⟩) := by
      rw [F64.number_fp, hfp, FP.number_fin hm']
    obtain ⟨h1, h2⟩ := hn _ _ hz
    rw [hrv] at h1 h2
    have hp : (0 : ℚ) < 2 ^ 1074 := by positivity
    constructor
    · rw [← dist, ← dist]; exact mul_le_mul_of_nonneg_right h1 hp.le
    · intro hne he
      rw [← dist, ← dist] at he
      have he := mul_right_cancel₀ hp.ne' he
      have hpar : d.toNat % 2 = 0 := by
        refine h2 (fun hv => hne ?_) he
        have h0 : FP.key ⟨s, m'⟩ = FP.key ⟨s, d.fp.m⟩ := (FP.key_eq_iff b64 _ _).2 hv
        simp only [FP.key] at h0
        cases s <;> simp at h0 <;> omega
      have : d.toNat % 2 = d.fp.m % 2 := by simp only [F64.fp]; omega
      omega
  intro m'
  by_cases hm' : m' < b64.infMag
  · exact hbelow m' hm'
  · obtain ⟨b1, b2⟩ := hbelow m0 m0lt
    obtain ⟨c1, c2⟩ := m0near m'
    have e52 : b64.mb = 52 := rfl
    rw [e52, b64_scale] at c1 c2
    refine ⟨le_trans b1 c1, fun _ he => ?_⟩
    have e1 : |(magInt 52 m0 : ℚ) - a * 2 ^ 1074| = |(magInt 52 d.fp.m : ℚ) - a * 2 ^ 1074| := le_antisymm (he ▸ c1) b1
    by_cases hmm : m0 = d.fp.m
    · rw [← hmm]
      exact c2 (by omega) (he.trans e1.symm)
    · exact b2 hmm e1

theorem nearest64_of_mag {a : ℚ} (ha : 0 ≤ a) {s : Bool} {d : F64} (hs : d.fp.s = s) (hm : d.fp.m < b64.infMag)
    (h : NearMag 52 (a * 2 ^ 1074) d.fp.m) : Nearest64 (if s then -a else a) d ∧ d.msb = s ∧
      number64 d = .fin (if s then -((magInt 52 d.fp.m : ℚ) / 2 ^ 1074) else (magInt 52 d.fp.m : ℚ) / 2 ^ 1074) := by
  have hval : d.fp.val b64 = if s then -((magInt 52 d.fp.m : ℚ) / 2 ^ 1074) else (magInt 52 d.fp.m : ℚ) / 2 ^ 1074 := by
    simp only [FP.val, FP.int, b64_scale, hs]
    cases s <;> simp [b64, neg_div]
  refine ⟨?_, by rw [F64.msb_fp, hs], ?_⟩
  · have hmag : roundMag 52 (a * 2 ^ 1074).num.natAbs (a * 2 ^ 1074).den = d.fp.m := by
      have h1 := roundMag_nearest 52 (a * 2 ^ 1074).num.natAbs (a * 2 ^ 1074).den (by decide) (Rat.den_pos _)
      rw [natAbs_num_div_den, abs_of_nonneg (by positivity)] at h1
      exact h1.unique h
    have hr : rnMag b64 (a * 2 ^ 1074) = d.fp.m := by
      simp only [rnMag, show b64.mb = 52 from rfl, hmag]
      omega
    have hrn : rn b64 a = (magInt 52 d.fp.m : ℚ) / 2 ^ 1074 := by
      simp only [rn, b64_scale, show b64.mb = 52 from rfl, hr, if_neg (not_lt.2 ha)]
    have := nearest64_of_val (p := d.fp) (q := if s then -a else a) hm.le (by
      rw [hval]
      cases s
      · exact hrn.symm
      · simp only [if_true]; rw [rn_neg b64_mb, hrn])
    rwa [F64.ofFP_fp] at this
  · rw [F64.number_fp, FP.number_fin hm, hval]

/-! ## The grammar -/

/-- What follows the digits of a number: nothing, or something that is not a digit. -/
def NoDigit (b : Bytes) : Prop := ∀ c r, b = c :: r → ¬ (48 ≤ c.toNat ∧ c.toNat ≤ 57)

theorem digits_split {a b a' b' : Bytes} (h : a ++ b = a' ++ b') (ha : Digits a) (ha' : Digits a') (hb : NoDigit b)
    (hb' : NoDigit b') : a = a' ∧ b = b' := by
  induction a generalizing a' with
  | nil =>
    cases a' with
    | nil => exact ⟨rfl, h⟩
    | cons c r => exact absurd (ha' c (by simp)) (hb c (r ++ b') h)
  | cons c r ih =>
    cases a' with
    | nil => exact absurd (ha c (by simp)) (hb' c (r ++ b) h.symm)
    | cons c' r' =>
      simp only [List.cons_append, List.cons.injEq] at h
      obtain ⟨rfl, h⟩ := h
      obtain ⟨rfl, h2⟩ := ih h (fun x hx => ha x (by simp [hx])) (fun x hx => ha' x (by simp [hx]))
      exact ⟨rfl, h2⟩

theorem noDigit_exponent {x : Bytes} {e : Int} (h : ExponentText x e) : NoDigit x := by
  intro c r hx
  rcases h with ⟨rfl, -⟩ | ⟨c', s, d, hc, -, -, rfl, -⟩
  · cases hx
  · simp only [List.cons.injEq] at hx
    rw [← hx.1]
    rcases hc with rfl | rfl <;> decide

theorem noDigit_fraction {f fr x : Bytes} {e : Int} (h : FractionText f fr) (hx : ExponentText x e) : NoDigit (f ++ x) := by
  rcases h with ⟨rfl, -⟩ | ⟨-, -, rfl⟩
  · exact noDigit_exponent hx
  · intro c r h
    simp only [List.cons_append, List.cons.injEq] at h
    rw [← h.1]; decide

theorem exponent_unique {x : Bytes} {e e' : Int} (h : ExponentText x e) (h' : ExponentText x e') : e = e' := by
  rcases h with ⟨rfl, rfl⟩ | ⟨c, s, d, hc, hd0, hd, rfl, hv⟩ <;> rcases h' with ⟨h1, rfl⟩ | ⟨c', s', d', hc', hd0', hd', h1, hv'⟩
  · rfl
  · cases h1
  · cases h1
  · simp only [List.cons.injEq] at h1
    obtain ⟨rfl, h1⟩ := h1
    have first : ∀ {d : Bytes}, Digits d → d ≠ [] → ∃ c r, d = c :: r ∧ 48 ≤ c.toNat ∧ c.toNat ≤ 57 := by
      intro d hd h0
      obtain ⟨c, r, rfl⟩ := List.exists_cons_of_ne_nil h0
      exact ⟨c, r, rfl, hd c (by simp)⟩
    obtain ⟨a, r, rfl, ha⟩ := first hd hd0
    obtain ⟨a', r', rfl, ha'⟩ := first hd' hd0'
    have n43 : ∀ {c : UInt8}, 48 ≤ c.toNat ∧ c.toNat ≤ 57 → c ≠ 43 ∧ c ≠ 45 := by
      rintro c ⟨h1, h2⟩
      constructor <;> (rintro rfl; revert h1; decide)
    have m1 := n43 ha
    have m2 := n43 ha'
    rcases hv with ⟨rfl | rfl, rfl⟩ | ⟨rfl, rfl⟩ <;> rcases hv' with ⟨rfl | rfl, rfl⟩ | ⟨rfl, rfl⟩ <;>
      simp only [List.nil_append, List.cons_append, List.cons.injEq] at h1
    · rw [h1.1, h1.2]
    · exact absurd h1.1 m1.1
    · exact absurd h1.1 m1.2
    · exact absurd h1.1.symm m2.1
    · rw [h1.2.1, h1.2.2]
    · exact absurd h1.1 (by decide)
    · exact absurd h1.1.symm m2.2
    · exact absurd h1.1 (by decide)
    · rw [h1.2.1, h1.2.2]

theorem fraction_unique {f fr x f' fr' x' : Bytes} {e e' : Int} (h : f ++ x = f' ++ x') (hf : FractionText f fr)
    (hx : ExponentText x e) (hf' : FractionText f' fr') (hx' : ExponentText x' e') : fr = fr' ∧ x = x' := by
  have point : ∀ {x : Bytes} {e : Int}, ExponentText x e → ∀ r, x ≠ 46 :: r := by
    intro x e h r hx
    rcases h with ⟨rfl, -⟩ | ⟨c', s, d, hc, -, -, rfl, -⟩
    · cases hx
    · simp only [List.cons.injEq] at hx
      rcases hc with rfl | rfl
      · exact absurd hx.1 (by decide)
      · exact absurd hx.1 (by decide)
  rcases hf with ⟨rfl, rfl⟩ | ⟨h0, hd, rfl⟩ <;> rcases hf' with ⟨rfl, rfl⟩ | ⟨h0', hd', rfl⟩
  · exact ⟨rfl, h⟩
  · exact absurd h (point hx _)
  · exact absurd h.symm (point hx' _)
  · simp only [List.cons_append, List.cons.injEq, true_and] at h
    exact digits_split h hd hd' (noDigit_exponent hx) (noDigit_exponent hx')

theorem numberText_unique {t : Bytes} {s s' : Bool} {v v' : ℚ} (h : NumberText t s v) (h' : NumberText t s' v') :
    s = s' ∧ v = v' := by
  obtain ⟨i, f, x, fr, n, e, rfl, hi, hf, hx, rfl⟩ := h
  obtain ⟨i', f', x', fr', n', e', ht, hi', hf', hx', rfl⟩ := h'
  have first : ∀ {d : Bytes} {n : Nat} (r : Bytes), IsDecimal d n → ∀ q, d ++ r ≠ 45 :: q := by
    intro d n r hd q h
    obtain ⟨c, r', rfl⟩ := List.exists_cons_of_ne_nil hd.1
    simp only [List.cons_append, List.cons.injEq] at h
    have := hd.2.1 c (by simp)
    rw [h.1] at this
    revert this; decide
  have key : s = s' ∧ i ++ (f ++ x) = i' ++ (f' ++ x') := by
    cases s <;> cases s' <;> simp only [Bool.false_eq_true, if_false, if_true, List.nil_append] at ht
    · exact ⟨rfl, ht⟩
    · exact absurd ht (first _ hi _)
    · exact absurd ht.symm (first _ hi' _)
    · exact ⟨rfl, by simpa using ht⟩
  obtain ⟨hs, hb⟩ := key
  obtain ⟨rfl, hb2⟩ := digits_split hb hi.2.1 hi'.2.1 (noDigit_fraction hf hx) (noDigit_fraction hf' hx')
  obtain ⟨rfl, rfl⟩ := fraction_unique hb2 hf hx hf' hx'
  rw [exponent_unique hx hx']
  exact ⟨hs, rfl⟩

theorem numberText_nonneg {t : Bytes} {s : Bool} {v : ℚ} (h : NumberText t s v) : 0 ≤ v := by
  obtain ⟨i, f, x, fr, n, e, -, -, -, -, rfl⟩ := h
  exact mul_nonneg (Nat.cast_nonneg _) (zpow_nonneg (by norm_num) _)

/-- Reading a number: the finite double whose magnitude is nearest. -/
theorem jsonNumber_iff {t : Bytes} {d : F64} : JsonNumber t d ↔
    ∃ v, NumberText t d.fp.s v ∧ d.fp.m < b64.infMag ∧ NearMag 52 (v * 2 ^ 1074) d.fp.m := by
  constructor
  · rintro ⟨s, v, q, ht, hn, hs, hq⟩
    obtain ⟨h1, h2, h3⟩ := nearest64_mag (numberText_nonneg ht) hn hs hq
    exact ⟨v, h1 ▸ ht, h2, h3⟩
  · rintro ⟨v, ht, hm, hn⟩
    obtain ⟨h1, h2, h3⟩ := nearest64_of_mag (numberText_nonneg ht) rfl hm hn
    exact ⟨_, v, _, ht, h1, h2, h3⟩

theorem jsonNumber_unique {t : Bytes} {d d' : F64} (h : JsonNumber t d) (h' : JsonNumber t d') : d = d' := by
  obtain ⟨v, h1, h2, h3⟩ := jsonNumber_iff.1 h
  obtain ⟨v', h1', h2', h3'⟩ := jsonNumber_iff.1 h'
  obtain ⟨hs, rfl⟩ := numberText_unique h1 h1'
  have hm := h3.unique h3'
  have : d.fp = d'.fp := by
    cases hd : d.fp; cases hd' : d'.fp
    rw [hd, hd'] at hs hm
    simp_all
  rw [← F64.ofFP_fp d, this, F64.ofFP_fp]

theorem numberText_chars {t : Bytes} {s : Bool} {v : ℚ} (h : NumberText t s v) :
    t ≠ [] ∧ ∀ c ∈ t, c ∈ b!"0123456789+-.eE" := by
  obtain ⟨i, f, x, fr, n, e, rfl, hi, hf, hx, -⟩ := h
  have dig : ∀ {b : Bytes}, Digits b → ∀ c ∈ b, c ∈ b!"0123456789+-.eE" := by
    intro b hb c hc
    obtain ⟨h1, h2⟩ := hb c hc
    have every : ∀ k : Fin 10, UInt8.ofNat (48 + k.val) ∈ b!"0123456789+-.eE" := by decide
    have := every ⟨c.toNat - 48, by omega⟩
    dsimp only at this
    rwa [show 48 + (c.toNat - 48) = c.toNat by omega, UInt8.ofNat_toNat] at this
  refine ⟨by simp [hi.1], fun c hc => ?_⟩
  simp only [List.mem_append] at hc
  rcases hc with hc | hc | hc | hc
  · cases s
    · simp at hc
    · simp only [if_true, List.mem_singleton] at hc; subst hc; decide
  · exact dig hi.2.1 c hc
  · rcases hf with ⟨rfl, -⟩ | ⟨-, hd, rfl⟩
    · simp at hc
    · rcases List.mem_cons.1 hc with rfl | hc
      · decide
      · exact dig hd c hc
  · rcases hx with ⟨rfl, -⟩ | ⟨c', sg, d, hc', -, hd, rfl, hv⟩
    · simp at hc
    · rcases List.mem_cons.1 hc with rfl | hc
      · rcases hc' with rfl | rfl <;> decide
      · rcases List.mem_append.1 hc with hc | hc
        · rcases hv with ⟨rfl | rfl, -⟩ | ⟨rfl, -⟩
          · simp at hc
          · simp only [List.mem_singleton] at hc; subst hc; decide
          · simp only [List.mem_singleton] at hc; subst hc; decide
        · exact dig hd c hc

/-- A decimal without fraction and exponent. -/
theorem numberText_decimal {b : Bytes} {n : Nat} (h : IsDecimal b n) (s : Bool) :
    NumberText ((if s then [45] else []) ++ b) s n := by
  refine ⟨b, [], [], [], n, 0, by simp, h, .inl ⟨rfl, rfl⟩, .inl ⟨rfl, rfl⟩, ?_⟩
  simp only [List.append_nil, digitsValue, h.2.2.1, List.length_nil]
  simp

theorem digitsValue_append (a b : Bytes) (hb : Digits b) : digitsValue (a ++ b) = digitsValue a * 10 ^ b.length + digitsValue b := by
  induction b using List.reverseRecOn with
  | nil => simp [digitsValue]
  | append_singleton b c ih =>
    have ih := ih fun x hx => hb x (by simp [hx])
    simp only [digitsValue, ← List.append_assoc, List.foldl_append, List.foldl_cons, List.foldl_nil, List.length_append,
      List.length_singleton] at ih ⊢
    rw [ih]; ring

/-- A decimal with a fraction. -/
theorem numberText_fraction {p : Nat} (hp : 0 < p) {b : Bytes} {n : Nat} (h : HasDecimals p b n) (s : Bool) :
    NumberText ((if s then [45] else []) ++ b) s ((n : ℚ) / 10 ^ p) := by
  obtain ⟨i, fr, rfl, hi, hl, hd, hv⟩ := h
  refine ⟨i, 46 :: fr, [], fr, _, 0, by simp, hi, .inr ⟨?_, hd, rfl⟩, .inl ⟨rfl, rfl⟩, ?_⟩
  · rintro rfl; simp at hl; omega
  · have : digitsValue (i ++ fr) = n := by
      rw [digitsValue_append _ _ hd, hl]
      simp only [digitsValue]
      rw [hi.2.2.1, hv]
      exact Nat.div_add_mod' n (10 ^ p)
    rw [this, hl, zero_sub, zpow_neg, zpow_natCast, div_eq_mul_inv]

/-! ## Integers and six decimals -/

theorem NearMag.fmag {n : Nat} (hn : n ≤ 2 ^ 53) : ∃ m, m < b64.infMag ∧ NearMag 52 ((n : ℚ) * 2 ^ 1074) m ∧
    magInt 52 m = n * 2 ^ 1074 := by
  obtain ⟨m, hm⟩ := exists_mag 52 n 1074 hn
  refine ⟨m, ?_, ?_, hm⟩
  · rw [← magInt_lt (mb := 52), hm]
    calc n * 2 ^ 1074 ≤ 2 ^ 53 * 2 ^ 1074 := Nat.mul_le_mul_right _ hn
      _ < magInt 52 b64.infMag := by decide +kernel
  · have := NearMag.self 52 m
    rw [hm] at this
    exact_mod_cast this

theorem jsonNumber_integer {t : Bytes} {i : Int} (h : IsInteger t i) (hi : i.natAbs ≤ 2 ^ 53) :
    ∃ d, JsonNumber t d ∧ number64 d = .fin i := by
  obtain ⟨m, hm, hn, hv⟩ := NearMag.fmag hi
  have hlt : m < 2 ^ 63 := lt_trans hm (by decide)
  have go : ∀ s : Bool, NumberText t s (i.natAbs : ℚ) → (if s then -(i.natAbs : ℚ) else i.natAbs) = i →
      ∃ d, JsonNumber t d ∧ number64 d = .fin i := by
    intro s ht he
    have hfp : (F64.ofFP ⟨s, m⟩).fp = ⟨s, m⟩ := F64.fp_ofFP hlt
    refine ⟨F64.ofFP ⟨s, m⟩, jsonNumber_iff.2 ⟨_, by rw [hfp]; exact ht, by rw [hfp]; exact hm, by rw [hfp]; exact hn⟩, ?_⟩
    obtain ⟨-, -, h3⟩ := nearest64_of_mag (d := F64.ofFP ⟨s, m⟩) (s := s) (a := (i.natAbs : ℚ)) (Nat.cast_nonneg _) (by rw [hfp])
      (by rw [hfp]; exact hm) (by rw [hfp]; exact hn)
    rw [h3, hfp]
    simp only [hv]
    rw [← he, Nat.cast_mul, Nat.cast_pow, Nat.cast_ofNat, mul_div_cancel_right₀ _ (by positivity)]
  rcases h with ⟨h0, h⟩ | ⟨h0, d, rfl, h⟩
  · refine go false ?_ ?_
    · have := numberText_decimal h false
      rwa [show i.toNat = i.natAbs by omega] at this
    · have : ((i.natAbs : Int) : ℚ) = i := by rw [Int.natCast_natAbs, abs_of_nonneg h0]
      simpa using this
  · refine go true ?_ ?_
    · have := numberText_decimal h true
      rwa [show (-i).toNat = i.natAbs by omega] at this
    · have : ((i.natAbs : Int) : ℚ) = -i := by rw [Int.natCast_natAbs, abs_of_neg h0]; push_cast; ring
      simp only [if_true]
      have h2 : (i.natAbs : ℚ) = ((i.natAbs : Int) : ℚ) := by simp
      rw [h2, this]; ring

/-- The double nearest to a decimal with six places that is near a double. -/
theorem jsonNumber_six {x : F64} {q : ℚ} (h : number64 x = .fin q) : ∃ d r, JsonNumber (fixedText b64 6 x.fp) d ∧
    number64 d = .fin r ∧ |r - q| ≤ 1 / 1000000 ∧ d.msb = x.msb := by
  have hfin : x.isFinite = true := (F64.finite_number x).2 ⟨_, h⟩
  have hx := (F64.finite_iff x).1 hfin
  have hq : x.fp.val b64 = q := by
    rw [F64.number_fin hfin, F64.toRat_fin hfin] at h
    simpa using h
  have ht := C69_double 6 x
  rw [h] at ht
  obtain ⟨n, t, ht, ⟨hn, -⟩, hb⟩ := ht
  have hT := numberText_fraction (by decide) ht x.msb
  have eqT : fixedText b64 6 x.fp = (if x.msb = true then [45] else []) ++ t := by
    rw [hb]; cases x.msb <;> rfl
  rw [← eqT] at hT
  set v : ℚ := (n : ℚ) / 10 ^ 6 with hv
  have hv0 : 0 ≤ v := by positivity
  have hS : (0 : ℚ) < 2 ^ 1074 := by positivity
  have hnear := roundMag_nearest 52 (v * 2 ^ 1074).num.natAbs (v * 2 ^ 1074).den (by decide) (Rat.den_pos _)
  rw [natAbs_num_div_den, abs_of_nonneg (mul_nonneg hv0 hS.le)] at hnear
  generalize roundMag 52 (v * 2 ^ 1074).num.natAbs (v * 2 ^ 1074).den = m at hnear
  have hqm : |q| * 2 ^ 1074 = magInt 52 x.fp.m := by
    rw [← hq, FP.abs_val, b64_scale, show b64.mb = 52 from rfl, div_mul_cancel₀ _ hS.ne']
  have h1 := (hnear x.fp.m).1
  rw [← hqm] at h1
  have h2 : |(|q| * 2 ^ 1074) - v * 2 ^ 1074| ≤ 1 / 2000000 * 2 ^ 1074 := by
    rw [← sub_mul, abs_mul, abs_of_pos hS, abs_sub_comm]
    exact mul_le_mul_of_nonneg_right (le_trans hn (by norm_num)) hS.le
  have h3 : |(magInt 52 m : ℚ) - |q| * 2 ^ 1074| ≤ 1 / 1000000 * 2 ^ 1074 := by
    have := abs_sub_le (magInt 52 m : ℚ) (v * 2 ^ 1074) (|q| * 2 ^ 1074)
    rw [abs_sub_comm (v * 2 ^ 1074)] at this
    have : (1 : ℚ) / 1000000 * 2 ^ 1074 = 1 / 2000000 * 2 ^ 1074 + 1 / 2000000 * 2 ^ 1074 := by
      generalize (2 : ℚ) ^ 1074 = S; ring
    linarith
  have hm : m < b64.infMag := by
    by_contra hc
    have g1 : magInt 52 b64.infMag ≤ magInt 52 m := magInt_le.2 (by omega)
    have g2 : magInt 52 x.fp.m ≤ magInt 52 (b64.infMag - 1) := magInt_le.2 (by omega)
    have g3 : magInt 52 (b64.infMag - 1) + 2 ^ 1074 ≤ magInt 52 b64.infMag := by decide +kernel
    have g4 : (magInt 52 x.fp.m : ℚ) + 2 ^ 1074 ≤ magInt 52 m := by
      have : magInt 52 x.fp.m + 2 ^ 1074 ≤ magInt 52 m := by
        generalize 2 ^ 1074 = S at g3 ⊢
        omega
      exact_mod_cast this
    rw [hqm] at h3
    have := le_trans (le_abs_self _) h3
    generalize (2 : ℚ) ^ 1074 = S at *
    linarith
  have hlt : m < 2 ^ 63 := lt_trans hm (by decide)
  have hfp : (F64.ofFP ⟨x.msb, m⟩).fp = ⟨x.msb, m⟩ := F64.fp_ofFP hlt
  obtain ⟨-, g2, g3⟩ := nearest64_of_mag (d := F64.ofFP ⟨x.msb, m⟩) (s := x.msb) (a := v) hv0 (by rw [hfp])
    (by rw [hfp]; exact hm) (by rw [hfp]; exact hnear)
  refine ⟨F64.ofFP ⟨x.msb, m⟩, _, jsonNumber_iff.2 ⟨v, by rw [hfp]; exact hT, by rw [hfp]; exact hm, by rw [hfp]; exact hnear⟩,
    g3, ?_, g2⟩
  have hqs : q = if x.msb then -|q| else |q| := by
    obtain ⟨a, b⟩ := sign_value h
    cases hs : x.msb
    · simp [abs_of_nonneg (b hs)]
    · simp [abs_of_nonpos (a hs)]
  rw [hfp]
  have : |(if x.msb = true then -((magInt 52 m : ℚ) / 2 ^ 1074) else (magInt 52 m : ℚ) / 2 ^ 1074) -
      (if x.msb = true then -|q| else |q|)| ≤ 1 / 1000000 := by
    rw [signed_diff]
    have : abs ((magInt 52 m : ℚ) / 2 ^ 1074 - |q|) * 2 ^ 1074 ≤ 1 / 1000000 * 2 ^ 1074 := by
      rw [show abs ((magInt 52 m : ℚ) / 2 ^ 1074 - |q|) * 2 ^ 1074 = |(magInt 52 m : ℚ) - |q| * 2 ^ 1074| by
        rw [← abs_of_pos hS, ← abs_mul, abs_of_pos hS, sub_mul, div_mul_cancel₀ _ hS.ne']]
      exact h3
    exact le_of_mul_le_mul_right this hS
  rw [← hqs] at this
  exact this

theorem fixed_special {x : F64} (h : ∀ q, number64 x ≠ .fin q) (p : Nat) :
    fixedText b64 p x.fp ∈ [b!"+Inf", b!"-Inf", b!"NaN"] := by
  have ht := C69_double p x
  cases hn : number64 x with
  | fin q => exact absurd hn (h q)
  | nan => rw [hn] at ht; rw [show fixedText b64 p x.fp = _ from ht]; decide
  | pinf => rw [hn] at ht; rw [show fixedText b64 p x.fp = _ from ht]; decide
  | ninf => rw [hn] at ht; rw [show fixedText b64 p x.fp = _ from ht]; decide

end Rap
