import Verif.Proof.Round
import Verif.Props.Encoders

/-!
# C10, C14: storage with 32-bit floats
-/

namespace Rap

/-- What the second collection keeps of the first: the times and, of each component, the nearest float32. -/
def SingleV3 (c c' : F64 × V3) : Prop :=
  c'.1 = c.1 ∧ Single c.2.x c'.2.x ∧ Single c.2.y c'.2.y ∧ Single c.2.z c'.2.z

private theorem zip_fst_map {α β γ : Type} (f : β → γ) (l : List (α × β)) :
    (l.map (·.1)).zip ((l.map (·.2)).map f) = l.map fun c => (c.1, f c.2) := by
  induction l with
  | nil => rfl
  | cons c l ih => simp only [List.map_cons, List.zip_cons_cons, ih]

private theorem forall₂_map_right {α β : Type} {R : α → β → Prop} {f : α → β} (h : ∀ a, R a (f a)) (l : List α) :
    List.Forall₂ R l (l.map f) := by
  induction l with
  | nil => exact .nil
  | cons a l ih => exact .cons (h a) ih

private theorem V3.near32_near32 (v : V3) : v.near32.near32 = v.near32 := by
  simp only [V3.near32, Rap.near32_near32]

private theorem near32_stable {α : Type} (caps : List (α × V3)) :
    ((caps.map fun c => (c.1, c.2.near32)).map fun c => (c.1, c.2.near32)) = caps.map fun c => (c.1, c.2.near32) := by
  simp only [List.map_map, Function.comp_def, V3.near32_near32]

/-- The decoder on what the encoder wrote. -/
private theorem position32 (t' : Nat) (name : Bytes) (caps : List (F64 × V3)) :
    ∃ b, positionEncode 1 [.position name caps] = .ok (.ok ([], [b])) ∧
      (positionEncoder t').decode name [] b (caps.map (·.1)) =
        .ok (some (.position name (caps.map fun c => (c.1, c.2.near32))), none) := by
  refine ⟨_, rfl, ?_⟩
  have hc := clean_positionCaptures 1 (caps.map (·.1)) (caps.map (·.2)) (by simp)
  have h0 : storedPositions (1 : Fin 4).val (caps.map (·.2)) = (caps.map (·.2)).map V3.near32 := rfl
  rw [h0, zip_fst_map] at hc
  show (do match ← (positionCaptures (List.map (fun c : F64 × V3 => c.1) caps)).onBytes _ with
    | .error e => Except.ok (none, some e)
    | .ok caps => .ok (some (Coll.position name caps), none)) = _
  erw [onBytes_of_clean hc]
  rfl

/-- C10 for positions: with 32-bit storage each component comes back as the nearest float32, and storing the result
again changes nothing. -/
theorem C10_position_raw32 (t' : Nat) (name : Bytes) (caps : List (F64 × V3)) :
    ∃ b caps', positionEncode 1 [.position name caps] = .ok (.ok ([], [b])) ∧
      (positionEncoder t').decode name [] b (caps.map (·.1)) = .ok (some (.position name caps'), none) ∧
      List.Forall₂ SingleV3 caps caps' ∧
      ∃ b', positionEncode 1 [.position name caps'] = .ok (.ok ([], [b'])) ∧
        (positionEncoder t').decode name [] b' (caps'.map (·.1)) = .ok (some (.position name caps'), none) := by
  obtain ⟨b, h1, h2⟩ := position32 t' name caps
  obtain ⟨b', h3, h4⟩ := position32 t' name (caps.map fun c => (c.1, c.2.near32))
  rw [near32_stable] at h4
  exact ⟨b, _, h1, h2, forall₂_map_right (fun c => ⟨rfl, single_near32 _, single_near32 _, single_near32 _⟩) caps,
    b', h3, h4⟩

private theorem euler32 (t' : Nat) (name : Bytes) (caps : List (F64 × V3)) :
    ∃ b, eulerEncode 1 [.euler name caps] = .ok (.ok ([], [b])) ∧
      (eulerEncoder t').decode name [] b (caps.map (·.1)) =
        .ok (some (.euler name (caps.map fun c => (c.1, c.2.near32))), none) := by
  refine ⟨_, rfl, ?_⟩
  have hc := clean_eulerCaptures 1 (caps.map (·.1)) (caps.map (·.2)) (by simp)
  have h0 : storedRotations (1 : Fin 3).val (caps.map (·.2)) = (caps.map (·.2)).map V3.near32 := rfl
  rw [h0, zip_fst_map] at hc
  show (do match ← (eulerCaptures (List.map (fun c : F64 × V3 => c.1) caps)).onBytes _ with
    | .error e => Except.ok (none, some e)
    | .ok caps => .ok (some (Coll.euler name caps), none)) = _
  erw [onBytes_of_clean hc]
  rfl

/-- C10 for rotations. -/
theorem C10_euler_raw32 (t' : Nat) (name : Bytes) (caps : List (F64 × V3)) :
    ∃ b caps', eulerEncode 1 [.euler name caps] = .ok (.ok ([], [b])) ∧
      (eulerEncoder t').decode name [] b (caps.map (·.1)) = .ok (some (.euler name caps'), none) ∧
      List.Forall₂ SingleV3 caps caps' ∧
      ∃ b', eulerEncode 1 [.euler name caps'] = .ok (.ok ([], [b'])) ∧
        (eulerEncoder t').decode name [] b' (caps'.map (·.1)) = .ok (some (.euler name caps'), none) := by
  obtain ⟨b, h1, h2⟩ := euler32 t' name caps
  obtain ⟨b', h3, h4⟩ := euler32 t' name (caps.map fun c => (c.1, c.2.near32))
  rw [near32_stable] at h4
  exact ⟨b, _, h1, h2, forall₂_map_right (fun c => ⟨rfl, single_near32 _, single_near32 _, single_near32 _⟩) caps,
    b', h3, h4⟩

private theorem float32 (t' : Nat) (name : Bytes) (caps : List (F64 × F64)) :
    ∃ b, floatEncode 1 [.float name caps] = .ok (.ok ([], [b])) ∧
      (floatEncoder t').decode name [] b (caps.map (·.1)) =
        .ok (some (.float name (caps.map fun c => (c.1, near32 c.2))), none) := by
  refine ⟨_, rfl, ?_⟩
  have hc := clean_floatDec32 (caps.map (·.1)) (caps.map (·.2)) 0 [] (by simp)
  rw [List.append_nil, zip_fst_map] at hc
  show floatDecode name [] (1 :: floatEnc32 (caps.map (·.2))) _ = _
  have h0 : (1 : UInt8).toNat = 1 := rfl
  simp only [floatDecode, h0, if_true]
  rw [if_neg (by omega), onErrReader_of_clean hc]
  rfl

/-- C10 for floats. -/
theorem C10_float_raw32 (t' : Nat) (name : Bytes) (caps : List (F64 × F64)) :
    ∃ b caps', floatEncode 1 [.float name caps] = .ok (.ok ([], [b])) ∧
      (floatEncoder t').decode name [] b (caps.map (·.1)) = .ok (some (.float name caps'), none) ∧
      List.Forall₂ (fun c c' => c'.1 = c.1 ∧ Single c.2 c'.2) caps caps' ∧
      ∃ b', floatEncode 1 [.float name caps'] = .ok (.ok ([], [b'])) ∧
        (floatEncoder t').decode name [] b' (caps'.map (·.1)) = .ok (some (.float name caps'), none) := by
  obtain ⟨b, h1, h2⟩ := float32 t' name caps
  obtain ⟨b', h3, h4⟩ := float32 t' name (caps.map fun c => (c.1, near32 c.2))
  have : ((caps.map fun c => (c.1, near32 c.2)).map fun c => (c.1, near32 c.2)) =
      caps.map fun c => (c.1, near32 c.2) := by
    simp only [List.map_map, Function.comp_def, near32_near32]
  rw [this] at h4
  exact ⟨b, _, h1, h2, forall₂_map_right (fun c => ⟨rfl, single_near32 _⟩) caps, b', h3, h4⟩

/-- C10: in the normal range of float32 the nearest float32 is within a relative error of `2 ^ -24`, and below it within
`2 ^ -150`. -/
theorem C10_relative_error (x y : F64) (h : Single x y) (q : ℚ) (hx : number64 x = .fin q)
    (hq : |q| < 2 ^ 128 - 2 ^ 103) :
    ∃ r, number64 y = .fin r ∧ (1 / 2 ^ 126 ≤ |q| → |r - q| ≤ |q| / 2 ^ 24) ∧
      (|q| ≤ 1 / 2 ^ 126 → |r - q| ≤ 1 / 2 ^ 150) := by
  have hf : x.isFinite = true := (F64.finite_number x).2 ⟨q, hx⟩
  have hxq : x.toRat = q := by
    have := F64.number_fin hf
    rw [hx] at this; exact (Number.fin.inj this).symm
  obtain ⟨z, h1, h2, -⟩ := h
  rw [hx] at h1
  simp only [Rounds32, Nearest32, Nearest] at h1
  rw [if_neg (by linarith)] at h1
  obtain ⟨r, hr, hnear⟩ := h1
  have h3 := (near32_err hf (by rw [hxq]; exact hq))
  rw [hxq] at h3
  have hfin := F64.number_fin h3.1
  have h4 : number32 (narrow x) = .fin (near32 x).toRat := by rw [← number_widen]; exact hfin
  have h5 := (hnear _ _ h4).1
  refine ⟨r, by rw [h2, hr], fun hn => ?_, fun hn => ?_⟩
  · refine le_trans h5 ?_
    have := near32_rel hf (by rw [hxq]; exact hq) (by rw [hxq]; exact hn)
    rwa [hxq] at this
  · refine le_trans h5 (le_trans h3.2.2 (max_le (le_refl _) ?_))
    calc |q| / 2 ^ 24 ≤ 1 / 2 ^ 126 / 2 ^ 24 := by gcongr
      _ = 1 / 2 ^ 150 := by norm_num

/-- 0.1 is in the normal range; its nearest float32 is 13421773 / 2^27. -/
example : Single 0x3FB999999999999A (near32 0x3FB999999999999A) ∧
    number64 0x3FB999999999999A = .fin (3602879701896397 / 2 ^ 55) ∧
    number64 (near32 0x3FB999999999999A) = .fin (13421773 / 2 ^ 27) :=
  ⟨single_near32 _, by decide +kernel, by decide +kernel⟩

/-- A tie: 1 + 2^-24 is halfway between 1 and 1 + 2^-23, and the nearest float32 is 1, whose last bit is 0; past the
largest float32 there is an infinity; a NaN stays a NaN. -/
example : number64 (near32 0x3FF0000010000000) = .fin 1 ∧ number64 0x3FF0000010000000 = .fin (1 + 1 / 2 ^ 24) ∧
    number64 (near32 0xC7EFFFFFF0000000) = .ninf ∧ number64 (near32 0x7FF0000000000001) = .nan := by
  decide +kernel

/-- C14, C10: with 32-bit time storage the times come back as their nearest float32s, in order, and what follows stays
unread. Storing them again changes nothing. -/
theorem C14_raw32_times_single (ts : List F64) (rest : Bytes) (fin : Err) (h : (encTime 1 ts).length ≤ sizeLimit) :
    ∃ ts', decTime.run (⟨encTime 1 ts ++ rest, fin⟩ : Flat) = .ok ((ts', none), ⟨rest, fin⟩) ∧
      List.Forall₂ Single ts ts' ∧
      decTime.run (⟨encTime 1 ts' ++ rest, fin⟩ : Flat) = .ok ((ts', none), ⟨rest, fin⟩) := by
  refine ⟨_, C14_raw32_times_nearest ts rest fin h, forall₂_map_right single_near32 ts, ?_⟩
  have hst : ∀ ts : List F64, ((ts.map fun t => widen (narrow t)).map fun t => widen (narrow t)) =
      ts.map fun t => widen (narrow t) := by
    intro ts
    rw [List.map_map]
    exact List.map_congr_left fun t _ => near32_near32 t
  have he : encTime 1 (ts.map fun t => widen (narrow t)) = encTime 1 ts := by
    have : encTime32 (ts.map fun t => widen (narrow t)) = encTime32 ts := by
      rw [encTime32, encTime32, List.map_map]
      refine congrArg List.flatten (List.map_congr_left fun t _ => ?_)
      show putF32 (near32 t) = putF32 t
      simp only [putF32, narrow_near32]
    simp only [encTime, List.length_map, this, Nat.one_ne_zero, if_true, if_false]
  have hl : (encTime 1 (ts.map fun t => widen (narrow t))).length ≤ sizeLimit := by rw [he]; exact h
  have := C14_raw32_times_nearest (ts.map fun t => widen (narrow t)) rest fin hl
  rwa [hst] at this

end Rap
