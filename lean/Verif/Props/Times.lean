import Verif.Proof.TimeError
import Verif.Props.Encoders

/-!
# C15, C16: times stored in 16 bits
-/

namespace Rap

/-- The floats `xs` are the numbers `qs`. -/
def Numbers (xs : List F64) (qs : List ℚ) : Prop := xs.map number64 = qs.map Number.fin

theorem Numbers.spec {xs : List F64} {qs : List ℚ} (h : Numbers xs qs) :
    (∀ x ∈ xs, x.isFinite = true) ∧ qs = xs.map F64.toRat := by
  unfold Numbers at h
  induction xs generalizing qs with
  | nil =>
    cases qs with
    | nil => simp
    | cons q qs => simp at h
  | cons x xs ih =>
    cases qs with
    | nil => simp at h
    | cons q qs =>
      simp only [List.map_cons, List.cons.injEq] at h
      obtain ⟨h1, h2⟩ := ih h.2
      have hf : x.isFinite = true := (F64.finite_number x).2 ⟨q, h.1⟩
      have hq := F64.number_fin hf
      rw [h.1] at hq
      refine ⟨fun y hy => ?_, ?_⟩
      · rcases List.mem_cons.1 hy with rfl | hy
        · exact hf
        · exact h1 y hy
      · rw [List.map_cons, ← h2, Number.fin.inj hq]

theorem numbers_of_finite {xs : List F64} (h : ∀ x ∈ xs, x.isFinite = true) : Numbers xs (xs.map F64.toRat) := by
  unfold Numbers
  rw [List.map_map]
  exact List.map_congr_left fun x hx => F64.number_fin (h x hx)

/-! ## C15 -/

private theorem times_length {ts : List F64} (h : (encTime 2 ts).length ≤ sizeLimit) : ts.length ≤ 2 ^ 40 := by
  have hlen : ∀ (gap : F64) (ts : List F64) (total : F64), ts.length ≤ (encTimeLoop gap total ts).length := by
    intro gap ts
    induction ts with
    | nil => simp
    | cons t ts ih => intro total; simp only [encTimeLoop, List.length_append, bstEnc_length, List.length_cons]
                      have := ih (total.add (bstDec 0 gap (bstEnc (t.sub total) 0 gap 2))); omega
  have : ts.length ≤ (encTime 2 ts).length := by
    simp only [encTime, List.length_cons, List.length_append]
    simp only [show ¬ (2 : Nat) = 0 by omega, show ¬ (2 : Nat) = 1 by omega, if_true, if_false]
    match ts with
    | [] => simp
    | [t] => simp
    | t :: u :: us =>
      simp only [encTimeBst, List.length_append]
      have := hlen (maxGap (t :: u :: us)) (u :: us) (startTime (t :: u :: us))
      simp only [List.length_cons] at this ⊢
      omega
  exact le_trans this h

/-- C15: times `qs` in chronological order, of magnitude at most `T` and at most `G` apart, stored in 16 bits: the read
succeeds and leaves what follows unread; there are as many times as before, they never decrease, and the i-th is off by
at most `i * G / 2^17` apart from rounding. -/
theorem C15_compact_times (ts : List F64) (qs : List ℚ) (hq : Numbers ts qs) (hch : qs.IsChain (· ≤ ·)) (T G : ℚ)
    (hT0 : 0 ≤ T) (hT : T ≤ 2 ^ 126) (hqT : ∀ q ∈ qs, |q| ≤ T) (hG : G ≤ 2 ^ 127)
    (hqG : qs.IsChain fun a b => b - a ≤ G) (rest : Bytes) (fin : Err) (h : (encTime 2 ts).length ≤ sizeLimit) :
    ∃ ts' qs', decTime.run (⟨encTime 2 ts ++ rest, fin⟩ : Flat) = .ok ((ts', none), ⟨rest, fin⟩) ∧
      Numbers ts' qs' ∧ qs'.length = qs.length ∧ qs'.IsChain (· ≤ ·) ∧
      ∀ (i : Nat) (a b : ℚ), qs[i]? = some a → qs'[i]? = some b →
        |b - a| ≤ i * (G / 2 ^ 17 + G / 2 ^ 23 + (T + qs.length * G) / 2 ^ 48 + 1 / 2 ^ 149) +
          (T / 2 ^ 24 + 1 / 2 ^ 150) := by
  obtain ⟨hf, rfl⟩ := hq.spec
  have hl := times_length h
  have hch' : ts.IsChain fun a b => a.toRat ≤ b.toRat ∧ b.toRat - a.toRat ≤ G := by
    rw [List.isChain_map] at hch hqG
    rw [List.isChain_iff_getElem] at hch hqG ⊢
    exact fun i hi => ⟨hch i hi, hqG i hi⟩
  obtain ⟨b1, b2, b3, b4⟩ := bstTimes_error hT0 hT hG hl
    (fun t ht => ⟨hf t ht, hqT _ (List.mem_map_of_mem ht)⟩) hch'
  refine ⟨bstTimes ts, _, Prog.clean_flat fin (clean_decTime 2 (by omega) ts rest h), numbers_of_finite b1,
    by simp [b3], (List.isChain_map _).2 b2, ?_⟩
  intro i a b ha hb
  rw [List.getElem?_map, Option.map_eq_some_iff] at ha hb
  obtain ⟨x, hx, rfl⟩ := ha
  obtain ⟨y, hy, rfl⟩ := hb
  rw [List.length_map]
  exact b4 i x y hx hy

/-- Times 0, 1/2, 1/2, 2. -/
example : Numbers [0, 0x3FE0000000000000, 0x3FE0000000000000, 0x4000000000000000] [0, 1 / 2, 1 / 2, 2] ∧
    ([0, 1 / 2, 1 / 2, 2] : List ℚ).IsChain (· ≤ ·) ∧ (∀ q ∈ ([0, 1 / 2, 1 / 2, 2] : List ℚ), |q| ≤ 2) ∧
    ([0, 1 / 2, 1 / 2, 2] : List ℚ).IsChain (fun a b => b - a ≤ 3 / 2) ∧
    (encTime 2 [0, 0x3FE0000000000000, 0x3FE0000000000000, 0x4000000000000000]).length ≤ sizeLimit := by
  refine ⟨by unfold Numbers; decide +kernel, ?_, ?_, ?_, by decide +kernel⟩
  · simp only [List.isChain_cons_cons, List.isChain_singleton]; norm_num
  · intro q hq
    simp only [List.mem_cons, List.not_mem_nil, or_false] at hq
    rcases hq with rfl | rfl | rfl | rfl <;> norm_num [abs_of_pos]
  · simp only [List.isChain_cons_cons, List.isChain_singleton]; norm_num

/-! ## C16 -/

private def one : F64 := 0x3FF0000000000000

theorem F64.eq_of_toRat {x y : F64} (hx : x.isFinite = true) (hy : y.isFinite = true) (h : x.toRat = y.toRat)
    (h0 : 0 < x.toRat) : x = y := by
  have hpos : ∀ {x : F64}, x.isFinite = true → 0 < x.toRat → x.fp.s = false := by
    intro x hx h0
    cases hs : x.fp.s with
    | false => rfl
    | true =>
      have he : x.fp = ⟨true, x.fp.m⟩ := by rw [← hs]
      have := val_tiny x.fp
      rw [F64.toRat_fin hx, this, he, FP.sign_int] at h0
      have ht := tiny_pos
      simp only [if_true] at h0
      have : (0 : ℚ) ≤ (magInt b64.mb x.fp.m : ℚ) := by positivity
      push_cast at h0
      nlinarith
  have hm : x.fp.m = y.fp.m := by
    have a := toRat_mag x hx
    have b := toRat_mag y hy
    rw [h, b] at a
    have := mul_right_cancel₀ tiny_pos.ne' a
    exact (magInt_inj.1 (by exact_mod_cast this)).symm
  rw [← F64.ofFP_fp x, ← F64.ofFP_fp y]
  congr 1
  have s1 := hpos hx h0
  have s2 := hpos hy (h ▸ h0)
  calc x.fp = ⟨x.fp.s, x.fp.m⟩ := rfl
    _ = ⟨y.fp.s, y.fp.m⟩ := by rw [s1, s2, hm]
    _ = y.fp := rfl

private theorem one_val : one.isFinite = true ∧ one.toRat = 1 := by decide +kernel

/-- All decisions on the way up are concrete. -/
private def upTo : Nat → F64 → F64 → Bool
  | 0, _, _ => true
  | k + 1, cur, inc => cur.isFinite && decide (cur.toRat ≤ 1) && upTo k (cur.add inc) (inc.div f2)

private theorem top_bits {x : F64} (hx : x.isFinite = true) (h : 1 ≤ x.toRat) (k : Nat) (cur inc : F64)
    (hu : upTo k cur inc = true) : bstEncBits x k cur inc = List.replicate k true := by
  induction k generalizing cur inc with
  | zero => rfl
  | succ k ih =>
    simp only [upTo, Bool.and_eq_true, decide_eq_true_eq] at hu
    have : ¬ x.lt cur = true := by rw [F64.lt_iff hx hu.1.1]; linarith [hu.1.2]
    rw [bstEncBits, if_neg this, ih _ _ hu.2, List.replicate_succ]

private theorem top_code {x : F64} (hx : x.isFinite = true) (h : 1 ≤ x.toRat) : bstEnc x 0 one 2 = [255, 255] := by
  rw [bstEnc, top_bits hx h _ _ _ (by decide +kernel)]
  decide +kernel

private def topStep : F64 := bstDec 0 one [255, 255]

private theorem topStep_val : topStep.isFinite = true ∧ topStep.toRat = 131071 / 131072 := by decide +kernel

private theorem step_tiny : (2 : ℚ) ^ 1057 * tiny = 1 / 131072 := by
  unfold tiny
  rw [mul_one_div, div_eq_div_iff (by positivity) (by norm_num), one_mul, show (131072 : ℚ) = 2 ^ 17 by norm_num,
    ← pow_add]

private theorem le_big {q : ℚ} (h : q ≤ 1000000000000000000) : q ≤ big := by
  refine le_trans (le_trans h (by norm_num : (1000000000000000000 : ℚ) ≤ 2 ^ 60)) ?_
  unfold big; exact pow_le_pow_right₀ (by norm_num) (by norm_num)

/-- Small multiples of 2^-17 are floats. -/
private theorem rn_small (k : Nat) (hk : k ≤ 2 ^ 53) : rn b64 (k / 131072) = k / 131072 := by
  have hk' : (k : ℚ) ≤ 9007199254740992 := by exact_mod_cast hk
  have ha : |(k : ℚ) / 131072| = k / 131072 := abs_of_nonneg (by positivity)
  refine rn_dyadic (a := k) (j := 1057) hk ?_ ?_
  · rw [ha, mul_assoc, step_tiny, mul_one_div]
  · rw [ha]; apply le_big; linarith

private theorem ofNat_val (i : Nat) (hi : i ≤ 2 ^ 31) :
    (F64.ofInt i).isFinite = true ∧ (F64.ofInt i).toRat = i := by
  have hk : ((i * 131072 : Nat) : ℚ) / 131072 = i := by push_cast; field_simp
  have h := F64.is_ofInt (i : Int)
  have hi' : (i : ℚ) ≤ 2147483648 := by exact_mod_cast hi
  have hr : rn b64 (((i : Int) : ℚ)) = i := by
    have := rn_small (i * 131072) (by omega)
    rw [hk] at this
    exact_mod_cast this
  obtain ⟨h1, h2, -⟩ := F64.Is.moderate h (by
    apply le_big
    rw [Int.cast_natCast, abs_of_nonneg (by positivity)]
    linarith)
  exact ⟨h1, by rw [h2, hr]⟩

private theorem map_ofNat (l : List Nat) (h : ∀ j ∈ l, j ≤ 2 ^ 31) :
    (l.map fun j : Nat => F64.ofInt j).map F64.toRat = l.map fun j : Nat => (j : ℚ) := by
  induction l with
  | nil => rfl
  | cons j l ih =>
    rw [List.map_cons, List.map_cons, List.map_cons, ih fun k hk => h k (by simp [hk]),
      (ofNat_val j (h j (by simp))).2]

private theorem drift_loop (m i : Nat) (hi : i + m ≤ 2 ^ 30) (total cur : F64) (ht : total.isFinite = true)
    (hc : cur.isFinite = true) (h1 : total.toRat = i * 131071 / 131072) (h2 : cur.toRat = i * 131071 / 131072) :
    (∀ t ∈ timeSums one cur (timeCodes one total ((List.range' (i + 1) m).map fun j : Nat => F64.ofInt j)),
      t.isFinite = true) ∧
    (timeSums one cur (timeCodes one total ((List.range' (i + 1) m).map fun j : Nat => F64.ofInt j))).map F64.toRat =
      (List.range' (i + 1) m).map fun j : Nat => (j : ℚ) * 131071 / 131072 := by
  induction m generalizing i total cur with
  | zero => simp [timeCodes, timeSums]
  | succ m ih =>
    obtain ⟨o1, o2⟩ := ofNat_val (i + 1) (by omega)
    obtain ⟨d1, d2⟩ := topStep_val
    have hq : ((i + 1 : Nat) : ℚ) - i * 131071 / 131072 = ((i + 131072 : Nat) : ℚ) / 131072 := by
      push_cast; field_simp; ring
    have h30 : i ≤ 2 ^ 30 := by omega
    have hi' : (i : ℚ) ≤ 1073741824 := by exact_mod_cast h30
    have hi0 : (0 : ℚ) ≤ i := Nat.cast_nonneg i
    obtain ⟨s1, s2, -⟩ := (F64.is_sub o1 ht).moderate (by
      rw [o2, h1, hq]; apply le_big; rw [abs_of_nonneg (div_nonneg (Nat.cast_nonneg _) (by norm_num))]
      push_cast; linarith)
    rw [o2, h1, hq, rn_small _ (by omega)] at s2
    have hcode := top_code s1 (by rw [s2, le_div_iff₀ (by norm_num)]; push_cast; linarith)
    have hadd : ∀ x : F64, x.isFinite = true → x.toRat = i * 131071 / 131072 →
        (x.add topStep).isFinite = true ∧ (x.add topStep).toRat = (i + 1 : Nat) * 131071 / 131072 := by
      intro x hx hv
      have e : x.toRat + topStep.toRat = (((i + 1) * 131071 : Nat) : ℚ) / 131072 := by
        rw [hv, d2]; push_cast; ring
      obtain ⟨a1, a2, -⟩ := (F64.is_add hx d1).moderate (by
        rw [e]; apply le_big; rw [abs_of_nonneg (div_nonneg (Nat.cast_nonneg _) (by norm_num))]
        push_cast; linarith)
      rw [e, rn_small _ (by omega)] at a2
      exact ⟨a1, by rw [a2]; push_cast; ring⟩
    obtain ⟨t1, t2⟩ := hadd total ht h1
    obtain ⟨c1, c2⟩ := hadd cur hc h2
    obtain ⟨i1, i2⟩ := ih (i + 1) (by omega) _ _ t1 c1 t2 c2
    have e1 : timeCodes one total ((List.range' (i + 1) (m + 1)).map fun j : Nat => F64.ofInt j) =
        [255, 255] :: timeCodes one (total.add topStep) ((List.range' (i + 1 + 1) m).map fun j : Nat => F64.ofInt j) := by
      rw [List.range'_succ, List.map_cons, timeCodes]
      simp only [hcode]
      rfl
    rw [e1, timeSums, List.range'_succ]
    change (∀ t ∈ cur.add topStep :: timeSums one (cur.add topStep) _, _) ∧
      (cur.add topStep :: timeSums one (cur.add topStep) _).map F64.toRat = _
    refine ⟨?_, ?_⟩
    · intro t h
      rcases List.mem_cons.1 h with rfl | h
      · exact c1
      · exact i1 t h
    · rw [List.map_cons, i2, c2, List.map_cons]

private theorem ofNat_gap (i : Nat) (hi : i + 1 ≤ 2 ^ 31) : (F64.ofInt (i + 1 : Nat)).sub (F64.ofInt i) = one := by
  obtain ⟨o1, o2⟩ := ofNat_val (i + 1) hi
  obtain ⟨p1, p2⟩ := ofNat_val i (by omega)
  have e : (F64.ofInt (i + 1 : Nat)).toRat - (F64.ofInt i).toRat = 1 := by rw [o2, p2]; push_cast; ring
  obtain ⟨s1, s2, -⟩ := (F64.is_sub o1 p1).moderate (by rw [e]; apply le_big; norm_num)
  rw [e] at s2
  have h1 : rn b64 1 = 1 := by have := F64.rn_toRat one_val.1; rwa [one_val.2] at this
  rw [h1] at s2
  exact F64.eq_of_toRat s1 one_val.1 (by rw [s2, one_val.2]) (by rw [s2]; norm_num)

private theorem gaps_ones (m i : Nat) (hi : i + m + 1 ≤ 2 ^ 31) :
    timeGaps ((List.range' i (m + 1)).map fun j : Nat => F64.ofInt j) = List.replicate m one := by
  induction m generalizing i with
  | zero => simp [List.range', timeGaps]
  | succ m ih =>
    have := ih (i + 1) (by omega)
    rw [List.range'_succ, List.map_cons] at this ⊢
    rw [List.range'_succ, List.map_cons, timeGaps, this, ofNat_gap i (by omega), List.replicate_succ]

private theorem max_ones (m : Nat) : (List.replicate (m + 1) one).foldl fmax F64.ninf = one := by
  have h1 : fmax F64.ninf one = one := by decide +kernel
  have h2 : fmax one one = one := by decide +kernel
  have h3 : ∀ m : Nat, (List.replicate m one).foldl fmax one = one := by
    intro m
    induction m with
    | zero => rfl
    | succ m ih => rw [List.replicate_succ, List.foldl_cons, h2, ih]
  rw [List.replicate_succ, List.foldl_cons, h1, h3]

private theorem near32_one : near32 one = one := by decide +kernel

private theorem bstTimes_many (t : F64) {us : List F64} (h : us ≠ []) :
    bstTimes (t :: us) = near32 (startTime (t :: us)) :: timeSums (near32 (maxGap (t :: us)))
      (near32 (startTime (t :: us))) (timeCodes (maxGap (t :: us)) (startTime (t :: us)) us) := by
  match us, h with
  | u :: us, _ => rfl

private theorem encTimeBst_many (t : F64) {us : List F64} (h : us ≠ []) :
    encTimeBst (t :: us) = putF32 (startTime (t :: us)) ++ putF32 (maxGap (t :: us)) ++
      encTimeLoop (maxGap (t :: us)) (startTime (t :: us)) us := by
  match us, h with
  | u :: us, _ => rfl

/-- C16 is false: for captures at 0, 1, 2, ..., n the i-th time is read back as `i - i / 2^17`. The error of the last
time is `n / 2^17`, and 1 is the largest gap, so no multiple of the largest gap bounds the error of long sequences. -/
theorem C16_evenly_spaced_times_drift (n : Nat) (h1 : 1 ≤ n) (hn : n ≤ 2 ^ 30) (rest : Bytes) (fin : Err) :
    ∃ ts ts', Numbers ts ((List.range (n + 1)).map fun i : Nat => (i : ℚ)) ∧
      decTime.run (⟨encTime 2 ts ++ rest, fin⟩ : Flat) = .ok ((ts', none), ⟨rest, fin⟩) ∧
      Numbers ts' ((List.range (n + 1)).map fun i : Nat => (i : ℚ) - i / 2 ^ 17) := by
  obtain ⟨m, rfl⟩ : ∃ m, n = m + 1 := ⟨n - 1, by omega⟩
  obtain ⟨ts, hts0⟩ : ∃ ts, ts = (List.range' 0 (m + 1 + 1)).map fun j : Nat => F64.ofInt j := ⟨_, rfl⟩
  obtain ⟨us, hus⟩ : ∃ us, us = (List.range' (0 + 1) (m + 1)).map fun j : Nat => F64.ofInt j := ⟨_, rfl⟩
  have hne : us ≠ [] := by rw [hus, List.range'_succ]; simp
  have hfin : ∀ t ∈ ts, t.isFinite = true := by
    intro t ht
    rw [hts0] at ht
    obtain ⟨j, hj, rfl⟩ := List.mem_map.1 ht
    have := List.mem_range'_1.1 hj
    exact (ofNat_val j (by omega)).1
  have hval : ts.map F64.toRat = (List.range (m + 1 + 1)).map fun i : Nat => (i : ℚ) := by
    rw [hts0, List.range_eq_range']
    exact map_ofNat _ (fun j hj => by have := List.mem_range'_1.1 hj; omega)
  have hts : ts = F64.ofInt 0 :: us := by
    rw [hts0, List.range'_succ, List.map_cons, hus]; simp only [Nat.cast_zero]
  have hgap : maxGap ts = one := by
    rw [maxGap, hts0, gaps_ones (m + 1) 0 (by omega), max_ones]
  have hsorted : ts.IsChain fun a b => a.toRat ≤ b.toRat := by
    have : (ts.map F64.toRat).IsChain (· ≤ ·) := by
      rw [hval, List.isChain_map, List.isChain_iff_getElem]
      intro i hi
      simp
    rwa [List.isChain_map] at this
  obtain ⟨s1, s2⟩ := startTime_spec (hts ▸ hfin) (hts ▸ hsorted)
  rw [← hts] at s1 s2
  have z : (F64.ofInt 0).toRat = 0 := by decide +kernel
  rw [z] at s2
  obtain ⟨n1, n2, n3⟩ := near32_err s1 (by rw [s2]; norm_num)
  have n4 : (near32 (startTime ts)).toRat = 0 := by
    rw [n2, s2]
    have e : near32 0 = 0 := by decide +kernel
    obtain ⟨-, k, -⟩ := near32_err zero_fin (by rw [zero_toRat]; norm_num)
    rw [e, zero_toRat] at k
    exact k.symm
  obtain ⟨d1, d2⟩ := drift_loop (m + 1) 0 (by omega) (startTime ts) (near32 (startTime ts)) s1 n1
    (by rw [s2]; simp) (by rw [n4]; simp)
  rw [← hus] at d1 d2
  have hb : bstTimes ts = near32 (startTime ts) :: timeSums (near32 (maxGap ts)) (near32 (startTime ts))
      (timeCodes (maxGap ts) (startTime ts) us) := by
    rw [hts]; exact bstTimes_many _ hne
  rw [hgap, near32_one] at hb
  have hlen : ∀ (gap : F64) (ts : List F64) (total : F64), (encTimeLoop gap total ts).length = 2 * ts.length := by
    intro gap ts
    induction ts with
    | nil => simp [encTimeLoop]
    | cons t ts ih =>
      intro total
      simp only [encTimeLoop, List.length_append, bstEnc_length, List.length_cons, ih]; omega
  have hsize : (encTime 2 ts).length ≤ sizeLimit := by
    have : (putUvarint (u64 ts.length)).length ≤ 10 := putUvarint_length_le (Nat.mod_lt _ (by norm_num))
    simp only [encTime, List.length_cons, List.length_append]
    simp only [show ¬ (2 : Nat) = 0 by omega, show ¬ (2 : Nat) = 1 by omega, if_true, if_false]
    have hb2 : encTimeBst ts = putF32 (startTime ts) ++ putF32 (maxGap ts) ++
        encTimeLoop (maxGap ts) (startTime ts) us := by
      rw [hts]; exact encTimeBst_many _ hne
    rw [hb2, hus]
    simp only [List.length_append, hlen, putF32_length, List.length_map, List.length_range', sizeLimit]
    omega
  refine ⟨ts, bstTimes ts, ?_, Prog.clean_flat fin (clean_decTime 2 (by omega) ts rest hsize), ?_⟩
  · rw [← hval]; exact numbers_of_finite hfin
  · have hd : ∀ l : List Nat, (l.map fun j : Nat => (j : ℚ) * 131071 / 131072) =
        l.map fun j : Nat => (j : ℚ) - j / 2 ^ 17 :=
      fun l => List.map_congr_left fun j _ => by norm_num; ring
    have hv : (bstTimes ts).map F64.toRat = (List.range (m + 1 + 1)).map fun i : Nat => (i : ℚ) - i / 2 ^ 17 := by
      rw [hb, List.map_cons, d2, n4, hd, List.range_eq_range', List.range'_succ (s := 0), List.map_cons, Nat.cast_zero,
        zero_div, sub_zero]
    rw [← hv, hb]
    refine numbers_of_finite fun t ht => ?_
    rcases List.mem_cons.1 ht with rfl | ht
    · exact n1
    · exact d1 t ht

/-- C16, the part that holds: if no gap is below `G / 2^15` and of any two consecutive gaps at least one is at most
`G - G / 2^15`, where `G` is the largest gap, then the drift correction works: the error is at most `G / 2^15` plus what
stems from rounding, of which the term `i * G / 2^23` is due to the decoder using the largest gap rounded to float32.
Missing for C16: sequences with equal neighbouring gaps close to the largest one, for which the claim is false, and
sequences with smaller gaps. -/
theorem C16_irregular_times_partial (ts : List F64) (qs : List ℚ) (hq : Numbers ts qs) (T G : ℚ) (hT0 : 0 ≤ T)
    (hT : T ≤ 2 ^ 126) (hqT : ∀ q ∈ qs, |q| ≤ T) (hG1 : 1 / 2 ^ 126 ≤ G) (hG : G ≤ 2 ^ 127)
    (hM : T + qs.length * G ≤ 2 ^ 30 * G) (hqG : qs.IsChain fun a b => G / 2 ^ 15 ≤ b - a ∧ b - a ≤ G)
    (hmax : ∃ (i : Nat) (a b : ℚ), qs[i]? = some a ∧ qs[i + 1]? = some b ∧ b - a = G)
    (htwo : ∀ (i : Nat) (a b c : ℚ), qs[i]? = some a → qs[i + 1]? = some b → qs[i + 2]? = some c →
      b - a ≤ G - G / 2 ^ 15 ∨ c - b ≤ G - G / 2 ^ 15)
    (rest : Bytes) (fin : Err) (h : (encTime 2 ts).length ≤ sizeLimit) :
    ∃ ts' qs', decTime.run (⟨encTime 2 ts ++ rest, fin⟩ : Flat) = .ok ((ts', none), ⟨rest, fin⟩) ∧
      Numbers ts' qs' ∧ qs'.length = qs.length ∧
      ∀ (i : Nat) (a b : ℚ), qs[i]? = some a → qs'[i]? = some b →
        |b - a| ≤ G / 2 ^ 15 + i * (G / 2 ^ 23 + (T + qs.length * G) / 2 ^ 49 + 1 / 2 ^ 149) +
          (T / 2 ^ 24 + 1 / 2 ^ 150) := by
  obtain ⟨hf, rfl⟩ := hq.spec
  have hl := times_length h
  rw [List.isChain_map] at hqG
  rw [List.length_map] at hM ⊢
  have hts : ∀ t ∈ ts, t.isFinite = true ∧ |t.toRat| ≤ T := fun t ht => ⟨hf t ht, hqT _ (List.mem_map_of_mem ht)⟩
  have hch : ts.IsChain fun a b => a.toRat ≤ b.toRat ∧ b.toRat - a.toRat ≤ G := by
    refine List.IsChain.imp (fun a b h => ⟨?_, h.2⟩) hqG
    have : 0 ≤ G / 2 ^ 15 := div_nonneg (le_trans (by positivity) hG1) (by positivity)
    linarith [h.1]
  obtain ⟨b1, -, b3, -⟩ := bstTimes_error hT0 hT hG hl hts hch
  have hmap : ∀ {l : List F64} {i : Nat} {a : F64}, l[i]? = some a → (l.map F64.toRat)[i]? = some a.toRat := by
    intro l i a h; rw [List.getElem?_map, h]; rfl
  have key := bstTimes_irregular hT0 hT hG1 hG hl hts hM hqG (by
      obtain ⟨i, a, b, h1, h2, h3⟩ := hmax
      rw [List.getElem?_map, Option.map_eq_some_iff] at h1 h2
      obtain ⟨x, hx, rfl⟩ := h1
      obtain ⟨y, hy, rfl⟩ := h2
      exact ⟨i, x, y, hx, hy, h3⟩)
    (fun i a b c h1 h2 h3 => htwo i _ _ _ (hmap h1) (hmap h2) (hmap h3))
  refine ⟨bstTimes ts, _, Prog.clean_flat fin (clean_decTime 2 (by omega) ts rest h), numbers_of_finite b1,
    by simp [b3], ?_⟩
  intro i a b ha hb
  rw [List.getElem?_map, Option.map_eq_some_iff] at ha hb
  obtain ⟨x, hx, rfl⟩ := ha
  obtain ⟨y, hy, rfl⟩ := hb
  exact key i x y hx hy

/-- Times 0, 1/2, 2, 5/2: gaps 1/2, 3/2, 1/2. -/
example : Numbers [0, 0x3FE0000000000000, 0x4000000000000000, 0x4004000000000000] [0, 1 / 2, 2, 5 / 2] ∧
    ([0, 1 / 2, 2, 5 / 2] : List ℚ).IsChain (fun a b => (3 / 2) / 2 ^ 15 ≤ b - a ∧ b - a ≤ 3 / 2) ∧
    (5 / 2 : ℚ) + 4 * (3 / 2) ≤ 2 ^ 30 * (3 / 2) ∧
    (∀ (i : Nat) (a b c : ℚ), ([0, 1 / 2, 2, 5 / 2] : List ℚ)[i]? = some a → ([0, 1 / 2, 2, 5 / 2] : List ℚ)[i + 1]? = some b →
      ([0, 1 / 2, 2, 5 / 2] : List ℚ)[i + 2]? = some c →
      b - a ≤ 3 / 2 - 3 / 2 / 2 ^ 15 ∨ c - b ≤ 3 / 2 - 3 / 2 / 2 ^ 15) := by
  refine ⟨by unfold Numbers; decide +kernel, ?_, by norm_num, ?_⟩
  · simp only [List.isChain_cons_cons, List.isChain_singleton]; norm_num
  · intro i a b c ha hb hc
    match i with
    | 0 =>
      simp only [List.getElem?_cons_zero, List.getElem?_cons_succ, Option.some.injEq] at ha hb hc
      subst ha hb hc; norm_num
    | 1 =>
      simp only [List.getElem?_cons_zero, List.getElem?_cons_succ, Option.some.injEq] at ha hb hc
      subst ha hb hc; norm_num
    | i + 2 => simp at hc

end Rap
