import Verif.Proof.Drift
import Verif.Proof.Time

/-!
# Error of times stored in 16 bits
-/

namespace Rap

theorem near32_grid {x : F64} (hx : x.isFinite = true) (h : |x.toRat| < 2 ^ 128 - 2 ^ 103) (h0 : 0 ≤ x.toRat) :
    (near32 x).toRat = 0 ∨ 1 / 2 ^ 149 ≤ (near32 x).toRat := by
  obtain ⟨h1, h2, -⟩ := near32_err hx h
  obtain ⟨r1, r2, -⟩ := rn_mag b32 x.toRat
  have hn : 0 ≤ (near32 x).toRat := by rw [h2]; exact r2 h0
  rw [← h2, abs_of_nonneg hn, b32_scale] at r1
  generalize magInt b32.mb (rnMag b32 (x.toRat * 2 ^ 149)) = m at r1
  cases m with
  | zero => left; simpa using r1
  | succ m =>
    right
    rw [div_le_iff₀ (by positivity), r1]
    push_cast
    have : (0 : ℚ) ≤ m := by positivity
    linarith

theorem mem_timeGaps {ts : List F64} {g : F64} (h : g ∈ timeGaps ts) :
    ∃ (i : Nat) (a b : F64), ts[i]? = some a ∧ ts[i + 1]? = some b ∧ g = b.sub a := by
  induction ts with
  | nil => simp [timeGaps] at h
  | cons t ts ih =>
    cases ts with
    | nil => simp [timeGaps] at h
    | cons u us =>
      rw [timeGaps] at h
      rcases List.mem_cons.1 h with rfl | h
      · exact ⟨0, t, u, rfl, rfl, rfl⟩
      · obtain ⟨i, a, b, h1, h2, h3⟩ := ih h
        exact ⟨i + 1, a, b, h1, h2, h3⟩

theorem timeGaps_mem {ts : List F64} {i : Nat} {a b : F64} (ha : ts[i]? = some a) (hb : ts[i + 1]? = some b) :
    b.sub a ∈ timeGaps ts := by
  induction ts generalizing i with
  | nil => simp at ha
  | cons t ts ih =>
    cases ts with
    | nil => simp at hb
    | cons u us =>
      rw [timeGaps]
      cases i with
      | zero =>
        simp only [List.getElem?_cons_zero, Option.some.injEq, List.getElem?_cons_succ, zero_add] at ha hb
        rw [ha, hb]; exact List.mem_cons_self ..
      | succ i =>
        simp only [List.getElem?_cons_succ] at ha hb
        exact List.mem_cons_of_mem _ (ih ha (by simpa using hb))

/-- The range of time differences. -/
theorem maxGap_spec {ts : List F64} {T G : ℚ} (hl : 2 ≤ ts.length) (hT : T ≤ 2 ^ 126)
    (hts : ∀ t ∈ ts, t.isFinite = true ∧ |t.toRat| ≤ T)
    (hch : ts.IsChain fun a b => a.toRat ≤ b.toRat ∧ b.toRat - a.toRat ≤ G) :
    (maxGap ts).isFinite = true ∧ 0 ≤ (maxGap ts).toRat ∧ (maxGap ts).toRat ≤ G + G / 2 ^ 53 ∧
      (maxGap ts).toRat ≤ 2 * T + 2 * T / 2 ^ 53 ∧ 0 ≤ G ∧
      ts.IsChain fun a b => a.toRat ≤ b.toRat ∧ b.toRat - a.toRat ≤ (maxGap ts).toRat + G / 2 ^ 53 := by
  have hbig : (2 : ℚ) ^ 127 ≤ big := by
    unfold big; exact pow_le_pow_right₀ (by norm_num) (by norm_num)
  have hgap : ∀ (i : Nat) (a b : F64), ts[i]? = some a → ts[i + 1]? = some b →
      (b.sub a).isFinite = true ∧ |(b.sub a).toRat - (b.toRat - a.toRat)| ≤ (b.toRat - a.toRat) / 2 ^ 53 ∧
        0 ≤ b.toRat - a.toRat ∧ b.toRat - a.toRat ≤ G ∧ b.toRat - a.toRat ≤ 2 * T := by
    intro i a b ha hb
    obtain ⟨fa, ba⟩ := hts a (List.mem_of_getElem? ha)
    obtain ⟨fb, bb⟩ := hts b (List.mem_of_getElem? hb)
    have hab : a.toRat ≤ b.toRat ∧ b.toRat - a.toRat ≤ G := by
      have h1 := List.isChain_iff_getElem.1 hch i (by
        have := (List.getElem?_eq_some_iff.1 hb).1; omega)
      rw [(List.getElem?_eq_some_iff.1 ha).2, (List.getElem?_eq_some_iff.1 hb).2] at h1
      exact h1
    have h2 : |b.toRat - a.toRat| ≤ 2 * T := by
      have := abs_sub b.toRat a.toRat; linarith
    obtain ⟨s1, s2⟩ := sub_mod fb fa (by
      refine le_trans h2 ?_
      have : (2 : ℚ) ^ 127 = 2 * 2 ^ 126 := by norm_num
      linarith)
    rw [abs_of_nonneg (by linarith : 0 ≤ b.toRat - a.toRat)] at s2 h2
    exact ⟨s1, s2, by linarith, hab.2, h2⟩
  have hfin : ∀ g ∈ timeGaps ts, g.isFinite = true := by
    intro g hg
    obtain ⟨i, a, b, h1, h2, rfl⟩ := mem_timeGaps hg
    exact (hgap i a b h1 h2).1
  have hne : timeGaps ts ≠ [] := by
    match ts, hl with
    | a :: b :: l, _ => simp [timeGaps]
  obtain ⟨m1, m2⟩ := fmax_spec hne hfin
  change maxGap ts ∈ timeGaps ts at m1
  change ∀ x ∈ timeGaps ts, x.toRat ≤ (maxGap ts).toRat at m2
  have m3 := hfin _ m1
  obtain ⟨i, a, b, h1, h2, h3⟩ := mem_timeGaps m1
  obtain ⟨g1, g2, g3, g4, g5⟩ := hgap i a b h1 h2
  rw [← h3] at g2
  have g6 := abs_le.1 g2
  have p53 : (0 : ℚ) < 2 ^ 53 := by positivity
  have g7 : (b.toRat - a.toRat) / 2 ^ 53 ≤ G / 2 ^ 53 := by gcongr
  have g8 : (b.toRat - a.toRat) / 2 ^ 53 ≤ 2 * T / 2 ^ 53 := by gcongr
  have g9 : (b.toRat - a.toRat) / 2 ^ 53 ≤ b.toRat - a.toRat := div_le_self g3 (one_le_pow₀ (by norm_num))
  refine ⟨m3, by linarith, by linarith, by linarith, by linarith, ?_⟩
  rw [List.isChain_iff_getElem] at hch ⊢
  intro j hj
  refine ⟨(hch j hj).1, ?_⟩
  have e1 : ts[j]? = some ts[j] := List.getElem?_eq_getElem (by omega)
  have e2 : ts[j + 1]? = some ts[j + 1] := List.getElem?_eq_getElem hj
  obtain ⟨k1, k2, k3, k4, k5⟩ := hgap j _ _ e1 e2
  have k6 := m2 _ (timeGaps_mem e1 e2)
  have k7 := abs_le.1 k2
  have k8 : (ts[j + 1].toRat - ts[j].toRat) / 2 ^ 53 ≤ G / 2 ^ 53 := by gcongr
  linarith

theorem startTime_spec {t : F64} {ts : List F64} (hts : ∀ x ∈ t :: ts, x.isFinite = true)
    (hch : (t :: ts).IsChain fun a b => a.toRat ≤ b.toRat) :
    (startTime (t :: ts)).isFinite = true ∧ (startTime (t :: ts)).toRat = t.toRat := by
  obtain ⟨h1, h2⟩ := fmin_spec (List.cons_ne_nil t ts) hts
  change startTime (t :: ts) ∈ t :: ts at h1
  have h3 : (startTime (t :: ts)).toRat ≤ t.toRat := h2 _ (List.mem_cons_self ..)
  refine ⟨hts _ h1, le_antisymm h3 ?_⟩
  have hp : (t :: ts).Pairwise fun a b : F64 => a.toRat ≤ b.toRat := by
    have : IsTrans F64 fun a b => a.toRat ≤ b.toRat := ⟨fun _ _ _ h k => h.trans k⟩
    exact List.isChain_iff_pairwise.1 hch
  rcases List.mem_cons.1 h1 with h | h
  · rw [h]
  · exact List.rel_of_pairwise_cons hp h

/-- Constants for the walk over times. -/
theorem time_drift {G' : F64} {T G N : ℚ} (hf : G'.isFinite = true) (h0 : 0 ≤ G'.toRat) (h1 : G'.toRat ≤ G + G / 2 ^ 53)
    (h2 : G'.toRat ≤ 2 * T + 2 * T / 2 ^ 53) (hG0 : 0 ≤ G) (hT : T ≤ 2 ^ 126) (hG : G ≤ 2 ^ 127) (hN : 2 ≤ N)
    (hN' : N ≤ 2 ^ 40) :
    Drift G' (near32 G') (2 * (T + N * G) + 1 / 2 ^ 105) (G / 2 ^ 53)
      (G / 2 ^ 17 + G / 2 ^ 46 + (T + N * G) / 2 ^ 49 + 1 / 2 ^ 155)
      (G / 2 ^ 24 + G / 2 ^ 45 + (T + N * G) / 2 ^ 49 + 1 / 2 ^ 150 + 1 / 2 ^ 154) := by
  have ht := tiny_pos
  have ht' := tiny_le'
  have hT0 : 0 ≤ T := by
    norm_num at h2; linarith
  have hbig : (2 : ℚ) ^ 200 ≤ big := by
    unfold big; exact pow_le_pow_right₀ (by norm_num) (by norm_num)
  have hG2 : 2 * G ≤ N * G := mul_le_mul_of_nonneg_right hN hG0
  have hNG : N * G ≤ 2 ^ 40 * 2 ^ 127 := by
    exact mul_le_mul hN' hG hG0 (by positivity)
  have hlim : |G'.toRat| < 2 ^ 128 - 2 ^ 103 := by
    rw [abs_of_nonneg h0]
    norm_num at h2 hT ⊢; linarith
  obtain ⟨n1, n2, n3⟩ := near32_err hf hlim
  have n4 : |(near32 G').toRat - G'.toRat| ≤ 1 / 2 ^ 150 + G'.toRat / 2 ^ 24 := by
    rw [abs_of_nonneg h0] at n3
    refine le_trans n3 (max_le ?_ ?_)
    · have : 0 ≤ G'.toRat / 2 ^ 24 := by positivity
      linarith
    · have : (0 : ℚ) ≤ 1 / 2 ^ 150 := by positivity
      linarith
  have n5 := abs_le.1 n4
  generalize hM : T + N * G = M at *
  refine ⟨hf, n1, h0, near32_grid hf hlim h0, ?_, ?_, ?_, ?_, by positivity, ?_, ?_⟩
  · norm_num at hbig hT hNG ⊢; linarith
  · norm_num at ht' ⊢; linarith
  · norm_num at h1 ⊢; linarith
  · norm_num at h1 n5 ⊢; linarith
  · norm_num at h1 ht' ⊢; linarith
  · norm_num at h1 ht' n4 n5 ⊢; linarith

/-- Times stored in 16 bits: all finite, in order, as many as before, and the error of each. -/
theorem bstTimes_error {ts : List F64} {T G : ℚ} (hT0 : 0 ≤ T) (hT : T ≤ 2 ^ 126) (hG : G ≤ 2 ^ 127)
    (hl : ts.length ≤ 2 ^ 40) (hts : ∀ t ∈ ts, t.isFinite = true ∧ |t.toRat| ≤ T)
    (hch : ts.IsChain fun a b => a.toRat ≤ b.toRat ∧ b.toRat - a.toRat ≤ G) :
    (∀ t ∈ bstTimes ts, t.isFinite = true) ∧ (bstTimes ts).IsChain (fun a b => a.toRat ≤ b.toRat) ∧
      (bstTimes ts).length = ts.length ∧
      ∀ (i : Nat) (a b : F64), ts[i]? = some a → (bstTimes ts)[i]? = some b →
        |b.toRat - a.toRat| ≤ i * (G / 2 ^ 17 + G / 2 ^ 23 + (T + ts.length * G) / 2 ^ 48 + 1 / 2 ^ 149) +
          (T / 2 ^ 24 + 1 / 2 ^ 150) := by
  have hmono : ∀ {ts : List F64}, (ts.IsChain fun a b => a.toRat ≤ b.toRat ∧ b.toRat - a.toRat ≤ G) →
      ts.IsChain fun a b => a.toRat ≤ b.toRat := fun h => List.IsChain.imp (fun _ _ h => h.1) h
  have hfirst : ∀ {t : F64} {ts : List F64}, (∀ x ∈ t :: ts, x.isFinite = true ∧ |x.toRat| ≤ T) →
      ((t :: ts).IsChain fun a b => a.toRat ≤ b.toRat) →
      (near32 (startTime (t :: ts))).isFinite = true ∧
      |(near32 (startTime (t :: ts))).toRat - t.toRat| ≤ T / 2 ^ 24 + 1 / 2 ^ 150 := by
    intro t ts h1 h2
    obtain ⟨s1, s2⟩ := startTime_spec (fun x hx => (h1 x hx).1) h2
    have ht := (h1 t (by simp)).2
    obtain ⟨n1, n2, n3⟩ := near32_err s1 (by rw [s2]; norm_num at hT ⊢; linarith)
    rw [s2] at n3
    refine ⟨n1, le_trans n3 (max_le ?_ ?_)⟩
    · have : 0 ≤ T / 2 ^ 24 := by positivity
      linarith
    · have : (0 : ℚ) ≤ 1 / 2 ^ 150 := by positivity
      have : |t.toRat| / 2 ^ 24 ≤ T / 2 ^ 24 := by gcongr
      linarith
  match ts with
  | [] => simp [bstTimes]
  | [t] =>
    obtain ⟨f1, f2⟩ := hfirst hts (by simp)
    refine ⟨?_, by simp [bstTimes], rfl, ?_⟩
    · intro x hx
      rw [bstTimes, List.mem_singleton] at hx
      rw [hx]; exact f1
    · intro i a b ha hb
      cases i with
      | zero =>
        simp only [bstTimes, List.getElem?_cons_zero, Option.some.injEq] at ha hb
        rw [← ha, ← hb, Nat.cast_zero, zero_mul, zero_add]; exact f2
      | succ i => simp at ha
  | t :: u :: us =>
    obtain ⟨f1, f2⟩ := hfirst hts (hmono hch)
    obtain ⟨s1, s2⟩ := startTime_spec (fun x hx => (hts x hx).1) (hmono hch)
    obtain ⟨m1, m2, m3, m4, m5, m6⟩ := maxGap_spec (by simp) hT hts hch
    have hN : (2 : ℚ) ≤ ((t :: u :: us).length : ℚ) := by
      have : 2 ≤ (t :: u :: us).length := by simp
      exact_mod_cast this
    have hN' : ((t :: u :: us).length : ℚ) ≤ 2 ^ 40 := by exact_mod_cast hl
    have hlen : ((u :: us).length : ℚ) = (t :: u :: us).length - 1 := by
      rw [List.length_cons (a := t), Nat.cast_succ]; ring
    have hD := time_drift m1 m2 m3 m4 m5 hT hG hN hN'
    have hbst : bstTimes (t :: u :: us) = near32 (startTime (t :: u :: us)) ::
        timeSums (near32 (maxGap (t :: u :: us))) (near32 (startTime (t :: u :: us)))
          (timeCodes (maxGap (t :: u :: us)) (startTime (t :: u :: us)) (u :: us)) := rfl
    rw [hbst]
    generalize ((t :: u :: us).length : ℚ) = N at *
    have hM : 0 ≤ T + N * G := by positivity
    have hNM : N * (T + N * G) ≤ 2 ^ 40 * (T + N * G) := mul_le_mul_of_nonneg_right hN' hM
    obtain ⟨w1, w2, w3, w4⟩ := drift_walk hD (u :: us) (prev := t) (e := 0) (f := T / 2 ^ 24 + 1 / 2 ^ 150)
      (hts t (by simp)).1 s1 f1 hts m6 (by rw [s2]; simp) (by rw [s2]; exact f2)
      (by
        rw [hlen]
        generalize hMe : T + N * G = M at *
        have e1 : (N - 1) * (G / 2 ^ 17 + G / 2 ^ 46 + M / 2 ^ 49 + 1 / 2 ^ 155 +
            (G / 2 ^ 24 + G / 2 ^ 45 + M / 2 ^ 49 + 1 / 2 ^ 150 + 1 / 2 ^ 154)) ≤
            N * G / 2 ^ 16 + N * M / 2 ^ 48 + N / 2 ^ 149 := by
          have q1 : 0 ≤ G / 2 ^ 17 + G / 2 ^ 46 + M / 2 ^ 49 + 1 / 2 ^ 155 +
            (G / 2 ^ 24 + G / 2 ^ 45 + M / 2 ^ 49 + 1 / 2 ^ 150 + 1 / 2 ^ 154) := by positivity
          have q2 : 0 ≤ N * G := by positivity
          have q3 : N * (G / 2 ^ 17 + G / 2 ^ 46 + M / 2 ^ 49 + 1 / 2 ^ 155 +
            (G / 2 ^ 24 + G / 2 ^ 45 + M / 2 ^ 49 + 1 / 2 ^ 150 + 1 / 2 ^ 154)) ≤
            N * G / 2 ^ 16 + N * M / 2 ^ 48 + N / 2 ^ 149 := by
            norm_num; linarith
          linarith
        have q2 : 0 ≤ N * G := by positivity
        norm_num at e1 hN' hNM ⊢
        linarith)
    refine ⟨?_, w2, by rw [List.length_cons, List.length_cons, w3], ?_⟩
    · intro x hx
      rcases List.mem_cons.1 hx with rfl | hx
      · exact f1
      · exact w1 x hx
    · intro i a b ha hb
      cases i with
      | zero =>
        simp only [List.getElem?_cons_zero, Option.some.injEq] at ha hb
        rw [← ha, ← hb, Nat.cast_zero, zero_mul, zero_add]; exact f2
      | succ i =>
        simp only [List.getElem?_cons_succ] at ha hb
        refine le_trans (w4 i a b ha hb) ?_
        rw [Nat.cast_succ, zero_add, add_comm (T / 2 ^ 24 + 1 / 2 ^ 150)]
        gcongr ?_ + _
        refine mul_le_mul_of_nonneg_left ?_ (by positivity)
        norm_num
        linarith

/-- Irregularly spaced times stored in 16 bits. -/
theorem bstTimes_irregular {ts : List F64} {T G : ℚ} (hT0 : 0 ≤ T) (hT : T ≤ 2 ^ 126) (hG1 : 1 / 2 ^ 126 ≤ G)
    (hG : G ≤ 2 ^ 127) (hl : ts.length ≤ 2 ^ 40) (hts : ∀ t ∈ ts, t.isFinite = true ∧ |t.toRat| ≤ T)
    (hM : T + ts.length * G ≤ 2 ^ 30 * G)
    (hch : ts.IsChain fun a b => G / 2 ^ 15 ≤ b.toRat - a.toRat ∧ b.toRat - a.toRat ≤ G)
    (hmax : ∃ (i : Nat) (a b : F64), ts[i]? = some a ∧ ts[i + 1]? = some b ∧ b.toRat - a.toRat = G)
    (htwo : ∀ (i : Nat) (a b c : F64), ts[i]? = some a → ts[i + 1]? = some b → ts[i + 2]? = some c →
      b.toRat - a.toRat ≤ G - G / 2 ^ 15 ∨ c.toRat - b.toRat ≤ G - G / 2 ^ 15) :
    ∀ (i : Nat) (a b : F64), ts[i]? = some a → (bstTimes ts)[i]? = some b →
        |b.toRat - a.toRat| ≤ G / 2 ^ 15 + i * (G / 2 ^ 23 + (T + ts.length * G) / 2 ^ 49 + 1 / 2 ^ 149) +
          (T / 2 ^ 24 + 1 / 2 ^ 150) := by
  have hG0 : 0 < G := lt_of_lt_of_le (by positivity) hG1
  have hch' : ts.IsChain fun a b => a.toRat ≤ b.toRat ∧ b.toRat - a.toRat ≤ G := by
    refine List.IsChain.imp (fun a b h => ⟨?_, h.2⟩) hch
    have : 0 ≤ G / 2 ^ 15 := by positivity
    linarith [h.1]
  have hmono : ts.IsChain fun a b => a.toRat ≤ b.toRat := List.IsChain.imp (fun _ _ h => h.1) hch'
  obtain ⟨k, p, q, hp, hq, hpq⟩ := hmax
  obtain ⟨t, u, us, rfl⟩ : ∃ t u us, ts = t :: u :: us := by
    have := (List.getElem?_eq_some_iff.1 hq).1
    cases ts with
    | nil => simp at this
    | cons t ts =>
      cases ts with
      | nil => simp at this
      | cons u us => exact ⟨t, u, us, rfl⟩
  obtain ⟨s1, s2⟩ := startTime_spec (fun x hx => (hts x hx).1) hmono
  have ht := (hts t (by simp)).2
  obtain ⟨n1, n2, n3⟩ := near32_err s1 (by rw [s2]; norm_num at hT ⊢; linarith)
  rw [s2] at n3
  have f2 : |(near32 (startTime (t :: u :: us))).toRat - t.toRat| ≤ T / 2 ^ 24 + 1 / 2 ^ 150 := by
    refine le_trans n3 (max_le ?_ ?_)
    · have : 0 ≤ T / 2 ^ 24 := by positivity
      linarith
    · have : (0 : ℚ) ≤ 1 / 2 ^ 150 := by positivity
      have : |t.toRat| / 2 ^ 24 ≤ T / 2 ^ 24 := by gcongr
      linarith
  obtain ⟨m1, m2, m3, m4, m5, m6⟩ := maxGap_spec (by simp) hT hts hch'
  have hN : (2 : ℚ) ≤ ((t :: u :: us).length : ℚ) := by
    have : 2 ≤ (t :: u :: us).length := by simp
    exact_mod_cast this
  have hN' : ((t :: u :: us).length : ℚ) ≤ 2 ^ 40 := by exact_mod_cast hl
  have hlen : ((u :: us).length : ℚ) = (t :: u :: us).length - 1 := by
    rw [List.length_cons (a := t), Nat.cast_succ]; ring
  have hD := time_drift m1 m2 m3 m4 m5 hT hG hN hN'
  have hbst : bstTimes (t :: u :: us) = near32 (startTime (t :: u :: us)) ::
      timeSums (near32 (maxGap (t :: u :: us))) (near32 (startTime (t :: u :: us)))
        (timeCodes (maxGap (t :: u :: us)) (startTime (t :: u :: us)) (u :: us)) := rfl
  rw [hbst]
  have hGle : G ≤ (maxGap (t :: u :: us)).toRat + G / 2 ^ 53 := by
    have h1 := List.isChain_iff_getElem.1 m6 k (List.getElem?_eq_some_iff.1 hq).1
    rw [(List.getElem?_eq_some_iff.1 hp).2, (List.getElem?_eq_some_iff.1 hq).2, hpq] at h1
    exact h1.2
  generalize ((t :: u :: us).length : ℚ) = N at *
  have hM0 : 0 ≤ T + N * G := by positivity
  have hNM : N * (T + N * G) ≤ 2 ^ 40 * (T + N * G) := mul_le_mul_of_nonneg_right hN' hM0
  have hdE : 2 * (G / 2 ^ 17 + G / 2 ^ 46 + (T + N * G) / 2 ^ 49 + 1 / 2 ^ 155) ≤ G / 2 ^ 15 - G / 2 ^ 53 := by
    generalize T + N * G = M at *
    norm_num at hM hG1 ⊢
    linarith
  have hp53 : 0 ≤ G / 2 ^ 53 := by positivity
  have w4 := drift_walk_irregular hD (u :: us) (prev := t) (f := T / 2 ^ 24 + 1 / 2 ^ 150)
    (hts t (by simp)).1 s1 n1 hts (by
      rw [List.isChain_iff_getElem] at m6 hch ⊢
      exact fun i hi => ⟨by linarith [(hch i hi).1], (m6 i hi).2⟩) (by
      intro i a b c ha hb hc
      rcases htwo i a b c ha hb hc with h | h
      · exact .inl (by linarith)
      · exact .inr (by linarith)) (.inl (by
        rw [s2, sub_self, abs_zero]; exact hD.nonneg.1)) (by rw [s2]; exact f2) (by
      rw [hlen]
      have e1 : (N - 1) * (G / 2 ^ 24 + G / 2 ^ 45 + (T + N * G) / 2 ^ 49 + 1 / 2 ^ 150 + 1 / 2 ^ 154) ≤
          N * G / 2 ^ 16 + N * (T + N * G) / 2 ^ 48 + N / 2 ^ 149 := by
        generalize T + N * G = M at *
        have q1 : 0 ≤ G / 2 ^ 24 + G / 2 ^ 45 + M / 2 ^ 49 + 1 / 2 ^ 150 + 1 / 2 ^ 154 := by positivity
        have q2 : 0 ≤ N * G := by positivity
        have q4 : 0 ≤ N * M := by positivity
        have q3 : N * (G / 2 ^ 24 + G / 2 ^ 45 + M / 2 ^ 49 + 1 / 2 ^ 150 + 1 / 2 ^ 154) ≤
          N * G / 2 ^ 16 + N * M / 2 ^ 48 + N / 2 ^ 149 := by
          norm_num; linarith
        linarith
      have q2 : 2 * G ≤ N * G := mul_le_mul_of_nonneg_right hN hG0.le
      norm_num at e1 hN' hNM hdE ⊢
      linarith)
  intro i a b ha hb
  cases i with
  | zero =>
    simp only [List.getElem?_cons_zero, Option.some.injEq] at ha hb
    rw [← ha, ← hb, Nat.cast_zero, zero_mul]
    have : 0 ≤ G / 2 ^ 15 := by positivity
    linarith
  | succ i =>
    simp only [List.getElem?_cons_succ] at ha hb
    refine le_trans (w4 i a b ha hb) ?_
    have e2 : ((i : ℚ) + 1) * (G / 2 ^ 24 + G / 2 ^ 45 + (T + N * G) / 2 ^ 49 + 1 / 2 ^ 150 + 1 / 2 ^ 154) ≤
        (i + 1) * (G / 2 ^ 23 + (T + N * G) / 2 ^ 49 + 1 / 2 ^ 149) := by
      refine mul_le_mul_of_nonneg_left ?_ (by positivity)
      norm_num
      linarith
    rw [Nat.cast_succ]
    linarith

end Rap
