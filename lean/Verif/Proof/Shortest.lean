import Verif.Model.GoJson
import Verif.Proof.JsonNumber

/-!
# The fewest digits that identify a float
-/

namespace Rap

/-- The unit `10 ^ (400 - j)`, in units of the smallest float. -/
def shortUnit (f : Fmt) (j : Nat) : ℚ := 10 ^ 400 * 2 ^ f.scale / 10 ^ j

theorem shortUnit_pos (f : Fmt) (j : Nat) : 0 < shortUnit f j := by unfold shortUnit; positivity

theorem shortUnit_add (f : Fmt) (i j : Nat) : shortUnit f i = 10 ^ j * shortUnit f (i + j) := by
  unfold shortUnit
  rw [pow_add, mul_div_assoc']
  field_simp

theorem shortOk_iff {f : Fmt} (hf : 0 < f.mb) {m j v : Nat} : shortOk f m j v = true ↔ NearMag f.mb (v * shortUnit f j) m := by
  have h := roundMag_nearest f.mb (v * 10 ^ 400 * 2 ^ f.scale) (10 ^ j) hf (by positivity)
  have e : ((v * 10 ^ 400 * 2 ^ f.scale : Nat) : ℚ) / ((10 ^ j : Nat) : ℚ) = v * shortUnit f j := by
    unfold shortUnit
    rw [Nat.cast_mul, Nat.cast_mul, Nat.cast_pow, Nat.cast_pow, Nat.cast_pow, Nat.cast_ofNat, Nat.cast_ofNat, mul_assoc,
      mul_div_assoc]
  rw [e] at h
  simp only [shortOk, beq_iff_eq]
  exact ⟨fun hm => hm ▸ h, fun hn => h.unique hn⟩

theorem floor_bounds (a b : Nat) (hb : 0 < b) : ((a / b : Nat) : ℚ) * b ≤ a ∧ (a : ℚ) < ((a / b : Nat) + 1) * b := by
  constructor
  · exact_mod_cast Nat.div_mul_le_self a b
  · have h := Nat.lt_div_mul_add (a := a) hb
    have h3 : a < (a / b + 1) * b := by rw [Nat.add_mul, Nat.one_mul]; exact h
    exact_mod_cast h3

theorem down_bounds (a S T P : Nat) (hS : 0 < S) (hT : 0 < T) (hP : 0 < P) :
    ((a * P / (S * T) : Nat) : ℚ) * (T * S / P) ≤ a ∧ (a : ℚ) < ((a * P / (S * T) : Nat) + 1) * (T * S / P) := by
  have hP' : (0 : ℚ) < P := by exact_mod_cast hP
  have h := floor_bounds (a * P) (S * T) (Nat.mul_pos hS hT)
  generalize a * P / (S * T) = D at h
  push_cast at h
  constructor
  · rw [mul_div_assoc', div_le_iff₀ hP', mul_comm (T : ℚ)]; exact h.1
  · rw [mul_div_assoc', lt_div_iff₀ hP', mul_comm (T : ℚ)]; exact h.2

theorem shortDown_bounds (f : Fmt) (m j : Nat) : (shortDown f m j : ℚ) * shortUnit f j ≤ magInt f.mb m ∧
    (magInt f.mb m : ℚ) < (shortDown f m j + 1) * shortUnit f j := by
  have h := down_bounds (magInt f.mb m) (2 ^ f.scale) (10 ^ 400) (10 ^ j) (by positivity) (by positivity) (by positivity)
  simp only [Nat.cast_pow, Nat.cast_ofNat] at h
  exact h

theorem rne_cases (a b : Nat) : rne a b = a / b ∨ rne a b = a / b + 1 := by
  unfold rne
  split
  · exact .inl rfl
  · split
    · exact .inr rfl
    · rcases Nat.mod_two_eq_zero_or_one (a / b) with h | h <;> rw [h]
      · exact .inl rfl
      · exact .inr rfl

theorem shortNear_cases (f : Fmt) (m j : Nat) : shortNear f m j = shortDown f m j ∨ shortNear f m j = shortDown f m j + 1 :=
  rne_cases _ _

/-- What the search finds: digits next to the float that identify it, in the largest unit possible. -/
structure Found (f : Fmt) (m v j : Nat) : Prop where
  near : v = shortDown f m j ∨ v = shortDown f m j + 1
  ok : shortOk f m j v = true
  first : ∀ i, i < j → shortOk f m i (shortDown f m i) = false ∧ shortOk f m i (shortDown f m i + 1) = false

theorem shortest_found {f : Fmt} (hf : 0 < f.mb) (hs : f.scale ≤ 1074) {m : Nat} : ∀ fuel j, j + fuel = 1474 →
    (∀ i, i < j → shortOk f m i (shortDown f m i) = false ∧ shortOk f m i (shortDown f m i + 1) = false) →
    Found f m (shortest f m fuel j).1 (shortest f m fuel j).2
  | 0, j, hj, hi => by
    refine ⟨.inl rfl, ?_, hi⟩
    obtain rfl : j = 1474 := by omega
    rw [shortOk_iff hf]
    have e : (shortDown f m 1474 : ℚ) * shortUnit f 1474 = magInt f.mb m := by
      have hd : 2 ^ f.scale * 10 ^ 400 ∣ magInt f.mb m * 10 ^ 1474 := by
        refine Dvd.dvd.mul_left ?_ _
        rw [show (1474 : Nat) = 1074 + 400 from rfl, pow_add 10 1074 400]
        refine Nat.mul_dvd_mul_right ?_ _
        exact Dvd.dvd.trans (pow_dvd_pow 2 hs) (pow_dvd_pow_of_dvd (by decide) 1074)
      have h1 := Nat.div_mul_cancel hd
      have h2 : (shortDown f m 1474 : ℚ) * (2 ^ f.scale * 10 ^ 400) = magInt f.mb m * 10 ^ 1474 := by exact_mod_cast h1
      have hj : (0 : ℚ) < 10 ^ 1474 := by positivity
      unfold shortUnit
      rw [mul_comm ((10 : ℚ) ^ 400), mul_div_assoc', h2, mul_div_cancel_right₀ _ hj.ne']
    have := NearMag.self f.mb m
    show NearMag f.mb ((shortDown f m 1474 : ℚ) * shortUnit f 1474) m
    rw [e]; exact this
  | fuel + 1, j, hj, hi => by
    rw [shortest]
    by_cases h1 : shortOk f m j (shortDown f m j) = true <;> by_cases h2 : shortOk f m j (shortDown f m j + 1) = true
    · rw [if_pos (by rw [h1, h2]; rfl)]
      refine ⟨shortNear_cases f m j, ?_, hi⟩
      rcases shortNear_cases f m j with h | h <;> dsimp only <;> rw [h]
      · exact h1
      · exact h2
    · rw [if_neg (by simp [h2]), if_pos h1]
      exact ⟨.inl rfl, h1, hi⟩
    · rw [if_neg (by simp [h1]), if_neg h1, if_pos h2]
      exact ⟨.inr rfl, h2, hi⟩
    · rw [if_neg (by simp [h1]), if_neg h1, if_neg h2]
      refine shortest_found hf hs fuel (j + 1) (by omega) fun i hlt => ?_
      rcases Nat.lt_succ_iff_lt_or_eq.1 hlt with h | rfl
      · exact hi i h
      · exact ⟨by simpa using h1, by simpa using h2⟩

theorem shortestOf_found {f : Fmt} (hf : 0 < f.mb) (hs : f.scale ≤ 1074) (m : Nat) :
    Found f m (shortestOf f m).1 (shortestOf f m).2 :=
  shortest_found hf hs 1474 0 rfl fun i hi => absurd hi (by omega)

theorem Found.pos {f : Fmt} (hf : 0 < f.mb) {m v j : Nat} (h : Found f m v j) (hm : m ≠ 0) : 0 < v := by
  rcases Nat.eq_zero_or_pos v with rfl | h0
  · exfalso
    have h1 := (shortOk_iff hf).1 h.ok
    rw [Nat.cast_zero, zero_mul] at h1
    have h2 := NearMag.self f.mb 0
    rw [magInt_zero, Nat.cast_zero] at h2
    exact hm (h1.unique h2)
  · exact h0

/-! ## The texts -/

/-- The number `v * 10 ^ (400 - j)`. -/
def shortValue (v j : Nat) : ℚ := v * 10 ^ 400 / 10 ^ j

theorem shortValue_unit (f : Fmt) (v j : Nat) : shortValue v j * 2 ^ f.scale = v * shortUnit f j := by
  unfold shortValue shortUnit
  rw [div_mul_eq_mul_div, mul_div_assoc', mul_assoc]

theorem plainNumber_text (v j : Nat) (s : Bool) :
    NumberText ((if s then [45] else []) ++ plainNumber v j) s (shortValue v j) := by
  unfold plainNumber shortValue
  by_cases h : j ≤ 400
  · rw [if_pos h]
    have := numberText_decimal (decimalNat_spec (v * 10 ^ (400 - j))).1 s
    have e : ((v * 10 ^ (400 - j) : Nat) : ℚ) = v * 10 ^ 400 / 10 ^ j := by
      have hj : (0 : ℚ) < 10 ^ j := by positivity
      rw [eq_div_iff hj.ne', Nat.cast_mul, Nat.cast_pow, Nat.cast_ofNat, mul_assoc, ← pow_add, Nat.sub_add_cancel h]
    rwa [e] at this
  · rw [if_neg h]
    have := numberText_fraction (by omega) (hasDecimals_text (j - 400) v) s
    have e : (v : ℚ) / 10 ^ (j - 400) = v * 10 ^ 400 / 10 ^ j := by
      obtain ⟨k, rfl⟩ := Nat.exists_eq_add_of_le (show 400 ≤ j by omega)
      rw [Nat.add_sub_cancel_left, pow_add, mul_comm (10 ^ 400) ((10 : ℚ) ^ k), mul_div_mul_right _ _ (by positivity)]
    rwa [e] at this

theorem exponentNumber_text {v : Nat} (hv : 0 < v) (j : Nat) (s : Bool) :
    NumberText ((if s then [45] else []) ++ exponentNumber v j) s (shortValue v j) := by
  obtain ⟨hd, h0⟩ := decimalNat_spec v
  have h0 := h0 hv
  unfold exponentNumber
  generalize V1.decimalNat v = ds at hd h0
  obtain ⟨c, r, rfl⟩ := List.exists_cons_of_ne_nil hd.1
  simp only [List.head?_cons, ne_eq, Option.some.injEq] at h0
  dsimp only
  generalize he : (((c :: r).length - 1 + 400 : Nat) : Int) - j = e
  have hc := hd.2.1 c (by simp)
  refine ⟨[c], if (c :: r).length ≤ 1 then [] else 46 :: r,
    101 :: ((if e < 0 then [45] else [43] : Bytes) ++ V1.decimalNat e.natAbs), r, c.toNat - 48, e, rfl,
    ⟨by simp, by simpa using hc, by simp, ?_⟩, ?_,
    .inr ⟨101, if e < 0 then [45] else [43], V1.decimalNat e.natAbs, .inl rfl, (decimalNat_spec _).1.1, (decimalNat_spec _).1.2.1,
      rfl, ?_⟩, ?_⟩
  · intro h; simp only [List.head?_cons, Option.some.injEq] at h; exact absurd h h0
  · split
    · next h =>
      have : r = [] := by
        rw [← List.length_eq_zero_iff]; simp at h; exact congrArg List.length h
      exact .inl ⟨rfl, this⟩
    · next h => exact .inr ⟨by rintro rfl; simp at h, fun x hx => hd.2.1 x (by simp [hx]), rfl⟩
  · have hval : digitsValue (V1.decimalNat e.natAbs) = e.natAbs := (decimalNat_spec e.natAbs).1.2.2.1
    rw [hval]
    split
    · exact .inr ⟨rfl, by omega⟩
    · exact .inl ⟨.inr rfl, by omega⟩
  · have hval : digitsValue ([c] ++ r) = v := hd.2.2.1
    rw [hval, ← he]
    unfold shortValue
    have h10 : (10 : ℚ) ≠ 0 := by norm_num
    rw [show ((((c :: r).length - 1 + 400 : Nat) : Int) - j - (r.length : Int)) = (400 : Int) - (j : Int) by
      simp only [List.length_cons, Nat.add_sub_cancel]; push_cast; ring, zpow_sub₀ h10, mul_div_assoc]
    norm_cast

/-- What `json.Marshal` writes for a finite float is the number that identifies it. -/
theorem jsonFloat_text {f : Fmt} (hf : 0 < f.mb) (hs : f.scale ≤ 1074) {x : FP} (hx : x.m < f.infMag) :
    ∃ t v, jsonFloat f x = some t ∧ NumberText t x.s v ∧ NearMag f.mb (v * 2 ^ f.scale) x.m ∧
      (x.m = 0 → v = 0) ∧ (x.m ≠ 0 → v = shortValue (shortestOf f x.m).1 (shortestOf f x.m).2) := by
  rw [jsonFloat, if_neg (by omega)]
  by_cases h0 : x.m = 0
  · refine ⟨_, 0, rfl, ?_, ?_, fun _ => rfl, fun h => absurd h0 h⟩
    · rw [if_pos h0]
      exact_mod_cast numberText_decimal (b := b!"0") (n := 0) ⟨by decide, by decide, rfl, by decide⟩ x.s
    · have := NearMag.self f.mb 0
      rw [magInt_zero, Nat.cast_zero] at this
      rw [h0, zero_mul]; exact this
  · rw [if_neg h0]
    have hfound := shortestOf_found hf hs x.m
    generalize shortestOf f x.m = p at hfound ⊢
    obtain ⟨v, j⟩ := p
    refine ⟨_, shortValue v j, rfl, ?_, ?_, fun h => absurd h h0, fun _ => rfl⟩
    · have both : ∀ c : Bool, NumberText ((if x.s then [45] else []) ++ if c = true then exponentNumber v j else plainNumber v j) x.s
          (shortValue v j) := by
        intro c
        cases c
        · exact plainNumber_text v j x.s
        · exact exponentNumber_text (hfound.pos hf h0) j x.s
      exact both _
    · rw [shortValue_unit]; exact (shortOk_iff hf).1 hfound.ok

theorem jsonFloat64 {x : F64} (hx : x.isFinite = true) : ∃ t, jsonFloat b64 x.fp = some t ∧ JsonNumber t x := by
  obtain ⟨t, v, h1, h2, h3, -⟩ := jsonFloat_text b64_mb (by decide) ((F64.finite_iff x).1 hx)
  exact ⟨t, h1, jsonNumber_iff.2 ⟨v, h2, (F64.finite_iff x).1 hx, h3⟩⟩

end Rap
