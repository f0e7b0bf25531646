import Verif.Proof.OctError

/-!
# Error of floats stored in 16 bits
-/

namespace Rap

theorem rn32_err {q : ℚ} (h : |q| < 2 ^ 128 - 2 ^ 103) :
    |rn b32 q| < b32.top ∧ |rn b32 q - q| ≤ max (1 / 2 ^ 150) (|q| / 2 ^ 24) := by
  have hlt : |rn b32 q| < b32.top := by
    have hs := scale_pos b32
    rw [← limit32] at h
    have h1 := (rnMag_below b32_mb (by decide) h).1
    have h2 := (rn_mag b32 q).1
    rw [Fmt.top, lt_div_iff₀ hs, h2]
    exact_mod_cast magInt_lt.2 h1
  exact ⟨hlt, rn_err b32_mb hlt⟩

/-- The difference of two float32 of moderate size. -/
theorem sub32_mod {x y : F64} (hx : x.isFinite = true) (hy : y.isFinite = true) {M : ℚ} (h1 : |x.toRat| ≤ M)
    (h2 : |y.toRat| ≤ M) (hM : M ≤ 2 ^ 126) (hle : y.toRat ≤ x.toRat) (d : F64)
    (hd : d = widen ((narrow x).sub (narrow y))) :
    d.isFinite = true ∧ 0 ≤ d.toRat ∧
      |d.toRat - ((near32 x).toRat - (near32 y).toRat)| ≤ (2 * M + M / 2 ^ 22 + 1 / 2 ^ 148) / 2 ^ 24 + 1 / 2 ^ 150 := by
  have hM0 : 0 ≤ M := le_trans (abs_nonneg _) h1
  have hlim : M < 2 ^ 128 - 2 ^ 103 := lt_of_le_of_lt hM (by norm_num)
  have nx := is_narrow hx
  have ny := is_narrow hy
  have fx := nx.fin.2 (rn32_err (lt_of_le_of_lt h1 hlim)).1
  have fy := ny.fin.2 (rn32_err (lt_of_le_of_lt h2 hlim)).1
  have ex : (near32 x).toRat = (narrow x).toRat := (widen_finite fx).2
  have ey : (near32 y).toRat = (narrow y).toRat := (widen_finite fy).2
  have hle' := near32_le hy hx hle (lt_of_le_of_lt h2 hlim) (lt_of_le_of_lt h1 hlim)
  have cx := abs_le.1 (near32_close hx h1 (le_trans hM (by norm_num))).2
  have cy := abs_le.1 (near32_close hy h2 (le_trans hM (by norm_num))).2
  have bx := abs_le.1 h1
  have by' := abs_le.1 h2
  have hdiff : |(near32 x).toRat - (near32 y).toRat| ≤ 2 * M + M / 2 ^ 22 + 1 / 2 ^ 148 := by
    rw [abs_le]
    norm_num at cx cy ⊢
    constructor <;> linarith
  have hs := F32.is_sub fx fy
  rw [← ex, ← ey] at hs
  have hw : 2 * M + M / 2 ^ 22 + 1 / 2 ^ 148 < 2 ^ 128 - 2 ^ 103 := by
    norm_num at hM ⊢; linarith
  obtain ⟨r1, r2⟩ := rn32_err (lt_of_le_of_lt hdiff hw)
  have fs := hs.fin.2 r1
  obtain ⟨w1, w2⟩ := widen_finite fs
  have hv : d.toRat = rn b32 ((near32 x).toRat - (near32 y).toRat) := by rw [hd, w2, hs.val fs]
  refine ⟨hd ▸ w1, ?_, ?_⟩
  · rw [hv]; exact (rn_mag b32 _).2.1 (by linarith)
  · rw [hv]
    refine le_trans r2 (max_le ?_ ?_)
    · have : 0 ≤ (2 * M + M / 2 ^ 22 + 1 / 2 ^ 148) / 2 ^ 24 := by positivity
      linarith
    · have : (0 : ℚ) ≤ 1 / 2 ^ 150 := by positivity
      have : |(near32 x).toRat - (near32 y).toRat| / 2 ^ 24 ≤ (2 * M + M / 2 ^ 22 + 1 / 2 ^ 148) / 2 ^ 24 := by gcongr
      linarith

/-- Floats stored in 16 bits. -/
theorem bstFloats_error {vs : List F64} {M lo hi : ℚ} (hM : M ≤ 2 ^ 126)
    (hvs : ∀ v ∈ vs, v.isFinite = true ∧ |v.toRat| ≤ M ∧ lo ≤ v.toRat ∧ v.toRat ≤ hi) :
    (bstFloats vs).length = vs.length ∧ (∀ v ∈ bstFloats vs, v.isFinite = true) ∧
      ∀ (i : Nat) (a b : F64), vs[i]? = some a → (bstFloats vs)[i]? = some b →
        |b.toRat - a.toRat| ≤ (hi - lo) / 2 ^ 17 + M / 2 ^ 22 + 1 / 2 ^ 148 := by
  by_cases hne : vs = []
  · subst hne; simp [bstFloats]
  have htp := tiny_pos
  have htl := tiny_le'
  have hbig : (2 : ℚ) ^ 200 ≤ big := by
    unfold big; exact pow_le_pow_right₀ (by norm_num) (by norm_num)
  obtain ⟨n1, n2⟩ := fmin_spec hne fun v hv => (hvs v hv).1
  obtain ⟨m1, m2⟩ := fmax_spec hne fun v hv => (hvs v hv).1
  have hb : bstFloats vs = vs.map fun v => bstDec (near32 (vs.foldl fmin F64.inf))
    (widen ((narrow (vs.foldl fmax F64.ninf)).sub (narrow (vs.foldl fmin F64.inf))))
    (bstEnc v (vs.foldl fmin F64.inf) ((vs.foldl fmax F64.ninf).sub (vs.foldl fmin F64.inf)) 2) := rfl
  rw [hb]
  generalize vs.foldl fmin F64.inf = mn at *
  generalize vs.foldl fmax F64.ninf = mx at *
  obtain ⟨d, hd⟩ : ∃ d, d = widen ((narrow mx).sub (narrow mn)) := ⟨_, rfl⟩
  rw [← hd]
  obtain ⟨fn, bn, ln, un⟩ := hvs _ n1
  obtain ⟨fx, bx, lx, ux⟩ := hvs _ m1
  have hM0 : 0 ≤ M := le_trans (abs_nonneg _) bn
  have hle := n2 _ m1
  obtain ⟨d1, d2, d3⟩ := sub32_mod fx fn bx bn hM hle d hd
  obtain ⟨c1, c2⟩ := near32_close fn bn (le_trans hM (by norm_num))
  obtain ⟨c3, c4⟩ := near32_close fx bx (le_trans hM (by norm_num))
  have an := abs_le.1 bn
  have ax := abs_le.1 bx
  have hs2 : |mx.toRat - mn.toRat| ≤ 2 * M := by
    have := abs_sub mx.toRat mn.toRat; linarith
  obtain ⟨s1, s2⟩ := sub_mod fx fn (le_trans hs2 (by norm_num at hM hbig ⊢; linarith))
  have hsn : 0 ≤ mx.toRat - mn.toRat := by linarith
  rw [abs_of_nonneg hsn] at s2
  have s3 := abs_le.1 s2
  have hself : (mx.toRat - mn.toRat) / 2 ^ 53 ≤ mx.toRat - mn.toRat := div_le_self hsn (one_le_pow₀ (by norm_num))
  have s53 : (mx.toRat - mn.toRat) / 2 ^ 53 ≤ 2 * M / 2 ^ 53 := by gcongr; linarith
  generalize mx.sub mn = D at *
  have hD0 : 0 ≤ D.toRat := by linarith
  have v1 := abs_le.1 c2
  have v2 := abs_le.1 c4
  have v3 := abs_le.1 d3
  have hDle : D.toRat ≤ 3 * M := by norm_num at s53; linarith
  have hdle : d.toRat ≤ 3 * M + 1 / 2 ^ 140 := by norm_num at v1 v2 v3 ⊢; linarith
  have hMb : |mn.toRat| + D.toRat ≤ big / 4 := by norm_num at hM hbig; linarith
  have hMb' : |(near32 mn).toRat| + d.toRat ≤ big / 4 := by
    have : |(near32 mn).toRat| ≤ 2 * M + 1 / 2 ^ 150 := by
      rw [abs_le]; norm_num at v1 ⊢; constructor <;> linarith
    norm_num at hM hbig hdle this; linarith
  have hnear : |(near32 mn).toRat| ≤ 2 * M + 1 / 2 ^ 150 := by
    rw [abs_le]; norm_num at v1 ⊢; constructor <;> linarith
  have key : ∀ v ∈ vs, (bstDec (near32 mn) d (bstEnc v mn D 2)).isFinite = true ∧
      |(bstDec (near32 mn) d (bstEnc v mn D 2)).toRat - v.toRat| ≤ (hi - lo) / 2 ^ 17 + M / 2 ^ 22 + 1 / 2 ^ 148 := by
    intro v hv
    obtain ⟨fv, bv, lv, uv⟩ := hvs v hv
    have hlen : (bstEnc v mn D 2).length = 2 := packBits_length _ _
    obtain ⟨e1, e2⟩ := bst_error fn s1 fv hD0 hMb 2 (by norm_num)
    obtain ⟨g1, g2⟩ := bst_dec fn s1 hD0 hMb (bstEnc v mn D 2) (by rw [hlen]; norm_num)
    obtain ⟨k1, k2⟩ := bst_dec c1 d1 d2 hMb' (bstEnc v mn D 2) (by rw [hlen]; norm_num)
    rw [hlen] at g2 k2
    refine ⟨k1, ?_⟩
    obtain ⟨p1, p2⟩ := frac_pos (unpackBits (bstEnc v mn D 2))
    have gd := frac_diff (unpackBits (bstEnc v mn D 2)) (lo := mn.toRat) (hi := mn.toRat + D.toRat)
      (lo' := (near32 mn).toRat) (hi' := (near32 mn).toRat + d.toRat) (a := M * 3 / 2 ^ 24 + M / 2 ^ 40 + 3 / 2 ^ 150)
      (by rw [abs_le]; norm_num at v1 ⊢; constructor <;> linarith)
      (by rw [abs_le]; norm_num at v1 v2 v3 s3 s53 ⊢; constructor <;> linarith)
    have q1 : (near32 mn).toRat * (1 - frac (unpackBits (bstEnc v mn D 2))) +
        ((near32 mn).toRat + d.toRat) * frac (unpackBits (bstEnc v mn D 2)) =
        (near32 mn).toRat + d.toRat * frac (unpackBits (bstEnc v mn D 2)) := by ring
    have q2 : mn.toRat * (1 - frac (unpackBits (bstEnc v mn D 2))) +
        (mn.toRat + D.toRat) * frac (unpackBits (bstEnc v mn D 2)) =
        mn.toRat + D.toRat * frac (unpackBits (bstEnc v mn D 2)) := by ring
    rw [q1, q2] at gd
    have hcl : |clamp mn.toRat (mn.toRat + D.toRat) v.toRat - v.toRat| ≤ 2 * M / 2 ^ 53 := by
      have w1 := n2 v hv
      have w2 := m2 v hv
      have hp : 0 ≤ 2 * M / 2 ^ 53 := by positivity
      unfold clamp
      rcases le_total v.toRat (mn.toRat + D.toRat) with c | c
      · rw [min_eq_left c, max_eq_right w1, sub_self, abs_zero]; exact hp
      · rw [min_eq_right c, max_eq_right (by linarith), abs_le]; constructor <;> linarith
    generalize clamp mn.toRat (mn.toRat + D.toRat) v.toRat = C at *
    generalize (near32 mn).toRat + d.toRat * frac (unpackBits (bstEnc v mn D 2)) = X' at *
    generalize mn.toRat + D.toRat * frac (unpackBits (bstEnc v mn D 2)) = X at *
    generalize (bstDec (near32 mn) d (bstEnc v mn D 2)).toRat = r at *
    generalize (bstDec mn D (bstEnc v mn D 2)).toRat = y at *
    have t1 := abs_le.1 e2
    have t2 := abs_le.1 g2
    have t3 := abs_le.1 k2
    have t4 := abs_le.1 gd
    have t5 := abs_le.1 hcl
    have hD17 : D.toRat ≤ hi - lo + 2 * M / 2 ^ 53 := by linarith
    have z1 : |mn.toRat| + D.toRat ≤ 4 * M := by linarith
    have z2 : |(near32 mn).toRat| + d.toRat ≤ 5 * M + 1 / 2 ^ 139 := by norm_num at hnear hdle ⊢; linarith
    generalize |mn.toRat| + D.toRat = Y at *
    generalize |(near32 mn).toRat| + d.toRat = Y' at *
    rw [abs_le]
    clear hbig hMb hMb'
    norm_num at t1 t2 t3 t4 t5 hD17 z2 htl ⊢
    obtain ⟨t1a, t1b⟩ := t1
    obtain ⟨t2a, t2b⟩ := t2
    obtain ⟨t3a, t3b⟩ := t3
    obtain ⟨t4a, t4b⟩ := t4
    obtain ⟨t5a, t5b⟩ := t5
    constructor <;> linarith
  refine ⟨by simp, ?_, ?_⟩
  · intro x hx
    obtain ⟨v, hv, rfl⟩ := List.mem_map.1 hx
    exact (key v hv).1
  · intro i a b ha hb
    rw [List.getElem?_map, ha, Option.map_some, Option.some.injEq] at hb
    subst hb
    exact (key a (List.mem_of_getElem? ha)).2

end Rap
