import Verif.Proof.FloatError
import Verif.Props.Times

/-!
# C49: floats stored in 16 bits
-/

namespace Rap

private theorem zip_parts {α β : Type} : ∀ (ts : List α) (vs : List β), ts.length = vs.length →
    (ts.zip vs).map (·.2) = vs ∧ (ts.zip vs).map (·.1) = ts
  | [], [], _ => ⟨rfl, rfl⟩
  | t :: ts, v :: vs, h => by
    obtain ⟨h1, h2⟩ := zip_parts ts vs (by simpa using h)
    simp only [List.zip_cons_cons, List.map_cons, h1, h2]
    exact ⟨trivial, trivial⟩

/-- C49: floats stored with 16 bits: the same captures come back at the times given, and when the values lie between
`lo` and `hi` and are at most `M` in magnitude, each is off by at most `(hi - lo) / 2^17` apart from the rounding of the
range to single precision, at most `M / 2^22 + 2^-148`. The error does not grow along the collection. -/
theorem C49_compact_floats (t' : Nat) (name : Bytes) (caps : List (F64 × F64)) (qs : List ℚ)
    (hq : Numbers (caps.map (·.2)) qs) (M lo hi : ℚ) (hM : M ≤ 2 ^ 126)
    (hqs : ∀ q ∈ qs, |q| ≤ M ∧ lo ≤ q ∧ q ≤ hi) :
    ∃ b caps' qs', floatEncode 2 [.float name caps] = .ok (.ok ([], [b])) ∧
      (floatEncoder t').decode name [] b (caps.map (·.1)) = .ok (some (.float name caps'), none) ∧
      caps'.map (·.1) = caps.map (·.1) ∧ Numbers (caps'.map (·.2)) qs' ∧
      ∀ (i : Nat) (a b : ℚ), qs[i]? = some a → qs'[i]? = some b →
        |b - a| ≤ (hi - lo) / 2 ^ 17 + M / 2 ^ 22 + 1 / 2 ^ 148 := by
  obtain ⟨hf, rfl⟩ := hq.spec
  obtain ⟨vs, hvs⟩ : ∃ vs, vs = caps.map (·.2) := ⟨_, rfl⟩
  obtain ⟨ts, hts⟩ : ∃ ts, ts = caps.map (·.1) := ⟨_, rfl⟩
  obtain ⟨b1, b2, b3⟩ := bstFloats_error (vs := vs) hM (by
    intro v hv
    rw [hvs] at hv
    exact ⟨hf v hv, hqs _ (List.mem_map_of_mem hv)⟩)
  have hlen : ts.length = (bstFloats vs).length := by rw [b1, hts, hvs]; simp
  obtain ⟨z1, z2⟩ := zip_parts ts (bstFloats vs) hlen
  have hc := clean_floatDecBst ts vs [] (by rw [hts, hvs]; simp)
  rw [List.append_nil] at hc
  refine ⟨_, ts.zip (bstFloats vs), (bstFloats vs).map F64.toRat, rfl, ?_, by rw [z2, hts],
    by rw [z1]; exact numbers_of_finite b2, ?_⟩
  · show floatDecode name [] (2 :: floatEncBst (caps.map (·.2))) _ = _
    rw [← hvs, ← hts]
    have h0 : (2 : UInt8).toNat = 2 := rfl
    simp only [floatDecode, h0, if_true, if_false, show ¬ (2 : Nat) = 0 by omega, show ¬ (2 : Nat) = 1 by omega,
      onErrReader_of_clean hc]
    rfl
  · intro i a b ha hb
    rw [← hvs] at ha
    rw [List.getElem?_map, Option.map_eq_some_iff] at ha hb
    obtain ⟨x, hx, rfl⟩ := ha
    obtain ⟨y, hy, rfl⟩ := hb
    exact b3 i x y hx hy

/-- Three values between -1/2 and 1, given in no particular order. -/
example : Numbers ([(0, 0x3FF0000000000000), (0, 0xBFE0000000000000), (0, 0)].map fun c : F64 × F64 => c.2) [1, -1 / 2, 0] ∧
    ∀ q ∈ ([1, -1 / 2, 0] : List ℚ), |q| ≤ 1 ∧ -1 / 2 ≤ q ∧ q ≤ 1 := by
  refine ⟨by unfold Numbers; decide +kernel, ?_⟩
  intro q hq
  simp only [List.mem_cons, List.not_mem_nil, or_false] at hq
  rcases hq with rfl | rfl | rfl <;> norm_num [abs_of_pos, abs_of_neg, abs_le]

end Rap
