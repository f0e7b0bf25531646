import Verif.Proof.OctError
import Verif.Props.Times

/-!
# C13: positions stored as oct-tree cells
-/

namespace Rap

private theorem octStored_length (n : Nat) (vs : List V3) : (octStored n vs).length = vs.length := by
  have h1 : ∀ (lo hi : V3) (cs : List (List UInt8)) (cur : V3), (octSums lo hi cur cs).length = cs.length := by
    intro lo hi cs
    induction cs with
    | nil => intro cur; rfl
    | cons c cs ih => intro cur; rw [octSums, List.length_cons, List.length_cons, ih]
  have h2 : ∀ (lo hi : V3) (ps : List V3) (q : V3), (octChoices n lo hi q ps).length = ps.length := by
    intro lo hi ps
    induction ps with
    | nil => intro q; rfl
    | cons p ps ih => intro q; simp only [octChoices, List.length_cons, ih]
  match vs with
  | [] => rfl
  | [_] => rfl
  | p :: q :: ps => simp only [octStored, List.length_cons, h1, h2]

private theorem axis_of {get : V3 → F64} (h : get ∈ [V3.x, V3.y, V3.z]) : ∃ A : Axis, A.get = get := by
  simp only [List.mem_cons, List.not_mem_nil, or_false] at h
  rcases h with rfl | rfl | rfl
  · exact ⟨axisX, rfl⟩
  · exact ⟨axisY, rfl⟩
  · exact ⟨axisZ, rfl⟩

private theorem zip_snd {α β γ : Type} (f : β → γ) : ∀ (ts : List α) (vs : List β), ts.length = vs.length →
    (ts.zip vs).map (fun c => f c.2) = vs.map f ∧ (ts.zip vs).map (·.1) = ts
  | [], [], _ => ⟨rfl, rfl⟩
  | t :: ts, v :: vs, h => by
    obtain ⟨h1, h2⟩ := zip_snd f ts vs (by simpa using h)
    simp only [List.zip_cons_cons, List.map_cons, h1, h2]
    exact ⟨trivial, trivial⟩

/-- C13: positions stored with technique 2 (16 levels) or 3 (8 levels) of the oct-tree. The same captures come back, at
the times given. On each axis, when the values are at most `P` in magnitude and the differences of neighbours lie
between `lo` and `hi` (both of magnitude at most `D`), the i-th value is off by at most `i * (hi - lo) / 2^(levels + 1)`
apart from roundings of the floats and of the range to single precision. -/
theorem C13_octree_error (t : Nat) (ht : t = 2 ∨ t = 3) (t' : Nat) (name : Bytes) (caps : List (F64 × V3))
    (hl : caps.length ≤ 2 ^ 40) :
    ∃ b caps', positionEncode t [.position name caps] = .ok (.ok ([], [b])) ∧
      (positionEncoder t').decode name [] b (caps.map (·.1)) = .ok (some (.position name caps'), none) ∧
      caps'.map (·.1) = caps.map (·.1) ∧
      ∀ get ∈ [V3.x, V3.y, V3.z], ∀ qs, Numbers (caps.map fun c => get c.2) qs →
        ∀ P lo hi D : ℚ, 0 ≤ P → P ≤ 2 ^ 126 → (∀ q ∈ qs, |q| ≤ P) → |lo| ≤ D → |hi| ≤ D → D ≤ 2 ^ 126 →
          qs.IsChain (fun a b => lo ≤ b - a ∧ b - a ≤ hi) →
          ∃ qs', Numbers (caps'.map fun c => get c.2) qs' ∧ ∀ (i : Nat) (a b : ℚ), qs[i]? = some a → qs'[i]? = some b →
            |b - a| ≤ i * ((hi - lo) / 2 ^ ((if t = 2 then 16 else 8) + 1) + D / 2 ^ 24 +
              (P + caps.length * D) / 2 ^ 45 + 1 / 2 ^ 149) + (P / 2 ^ 24 + 1 / 2 ^ 150) := by
  obtain ⟨n, hn, hst⟩ : ∃ n, (if t = 2 then 16 else 8) = 8 * n ∧ (∀ vs, storedPositions t vs = octStored n vs) := by
    rcases ht with rfl | rfl
    · exact ⟨2, rfl, fun vs => rfl⟩
    · exact ⟨1, rfl, fun vs => rfl⟩
  obtain ⟨t, rfl⟩ : ∃ u : Fin 4, u.val = t := ⟨⟨t, by omega⟩, rfl⟩
  obtain ⟨vs, hvs⟩ : ∃ vs, vs = caps.map (·.2) := ⟨_, rfl⟩
  obtain ⟨ts, hts⟩ : ∃ ts, ts = caps.map (·.1) := ⟨_, rfl⟩
  have hlen : ts.length = (octStored n vs).length := by rw [octStored_length, hts, hvs]; simp
  have hc := clean_positionCaptures t ts vs (by rw [hts, hvs]; simp)
  rw [hst] at hc
  refine ⟨_, ts.zip (octStored n vs), rfl, ?_, ?_, ?_⟩
  · show (do match ← (positionCaptures (List.map (fun c : F64 × V3 => c.1) caps)).onBytes _ with
      | .error e => Except.ok (none, some e)
      | .ok caps => .ok (some (Coll.position name caps), none)) = _
    rw [← hts]
    rw [hvs] at hc ⊢
    erw [onBytes_of_clean hc]
    rfl
  · rw [(zip_snd id _ _ hlen).2, hts]
  · intro get hget qs hq P lo hi D hP0 hP hqP hlo hhi hD hch
    obtain ⟨A, rfl⟩ := axis_of hget
    obtain ⟨hf, rfl⟩ := hq.spec
    rw [(zip_snd A.get _ _ hlen).1, A.stored]
    have hmap : caps.map (fun c => A.get c.2) = vs.map A.get := by rw [hvs, List.map_map]; rfl
    rw [hmap] at hf hqP hch ⊢
    have hlv : (vs.map A.get).length = caps.length := by rw [hvs]; simp
    rw [List.isChain_map] at hch
    obtain ⟨b1, b2, b3⟩ := axisStored_error (k := 8 * n) (by rw [← hn]; split <;> omega) (by rw [← hn]; split <;> omega)
      hP0 hP hD hlo hhi (by rw [hlv]; exact hl)
      (fun t ht => ⟨hf t ht, hqP _ (List.mem_map_of_mem ht)⟩) hch
    refine ⟨_, numbers_of_finite b1, ?_⟩
    intro i a b ha hb
    rw [List.getElem?_map, Option.map_eq_some_iff] at ha hb
    obtain ⟨x, hx, rfl⟩ := ha
    obtain ⟨y, hy, rfl⟩ := hb
    rw [hn, ← hlv]
    exact b3 i x y hx hy

/-- Three positions whose height is 0, 1, -1/2: the differences lie between -3/2 and 1. -/
example : Numbers ([(0, ⟨0, 0, 0⟩), (0, ⟨0, 0x3FF0000000000000, 0⟩), (0, ⟨0, 0xBFE0000000000000, 0⟩)].map
      fun c : F64 × V3 => c.2.y) [0, 1, -1 / 2] ∧
    ([0, 1, -1 / 2] : List ℚ).IsChain (fun a b => -3 / 2 ≤ b - a ∧ b - a ≤ 1) ∧
    (∀ q ∈ ([0, 1, -1 / 2] : List ℚ), |q| ≤ 1) ∧ |(-3 / 2 : ℚ)| ≤ 3 / 2 := by
  refine ⟨by unfold Numbers; decide +kernel, ?_, ?_, by norm_num [abs_of_neg]⟩
  · simp only [List.isChain_cons_cons, List.isChain_singleton]; norm_num
  · intro q hq
    simp only [List.mem_cons, List.not_mem_nil, or_false] at hq
    rcases hq with rfl | rfl | rfl <;> norm_num [abs_of_pos, abs_of_neg, abs_le]

end Rap
