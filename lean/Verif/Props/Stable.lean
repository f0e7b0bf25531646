import Verif.Proof.Stable
import Verif.Proof.LayoutWrite
import Verif.Props.Again

/-!
# C65: saving again loses nothing more
-/

namespace Rap

/-- Techniques that keep what they stored before, for the collection `c`: 64-bit and 32-bit floats, and angles of 16 bits
unless there is only one. -/
def Settled (c : Coll) : Builtin → Prop
  | .event | .enum => True
  | .position t => t.val ≤ 1
  | .euler t => t.val ≤ 1 ∨ c.times.length ≠ 1
  | .float t => t.val ≤ 1

/-! ## Values -/

theorem V3.near32_near32 (v : V3) : v.near32.near32 = v.near32 := by
  simp only [V3.near32, Rap.near32_near32]

theorem map_again {α : Type} (f : α → α) (h : ∀ a, f (f a) = f a) (l : List α) : (l.map f).map f = l.map f := by
  rw [List.map_map]
  exact List.map_congr_left fun a _ => h a

theorem times_again {tech : Nat} (ht : tech ≤ 1) (ts : List F64) :
    storedTimes tech (storedTimes tech ts) = storedTimes tech ts := by
  unfold storedTimes
  split
  · rfl
  · rw [if_pos (by omega), if_pos (by omega)]
    exact map_again _ near32_near32 ts

theorem positions_again {tech : Nat} (ht : tech ≤ 1) (vs : List V3) :
    storedPositions tech (storedPositions tech vs) = storedPositions tech vs := by
  unfold storedPositions
  split
  · rfl
  · rw [if_pos (by omega), if_pos (by omega)]
    exact map_again _ V3.near32_near32 vs

theorem floats_again {tech : Nat} (ht : tech ≤ 1) (vs : List F64) :
    storedFloats tech (storedFloats tech vs) = storedFloats tech vs := by
  unfold storedFloats
  split
  · rfl
  · rw [if_pos (by omega), if_pos (by omega)]
    exact map_again _ near32_near32 vs

theorem stored16_many {vs : List V3} (h : vs.length ≠ 1) :
    stored16 vs = vs.map fun v => ⟨angle16 v.x, angle16 v.y, angle16 v.z⟩ := by
  unfold stored16
  split
  · simp at h
  · rfl

theorem rotations_again {tech : Nat} {vs : List V3} (ht : tech ≤ 1 ∨ vs.length ≠ 1) :
    storedRotations tech (storedRotations tech vs) = storedRotations tech vs := by
  unfold storedRotations
  split
  · rfl
  · split
    · exact map_again _ V3.near32_near32 vs
    · have hl : vs.length ≠ 1 := by rcases ht with h | h <;> omega
      rw [stored16_many hl, stored16_many (by simpa using hl)]
      refine map_again _ (fun v => ?_) vs
      simp only [angle16_angle16]

/-! ## Collections -/

theorem map_fst_zip_eq {α β : Type} {l : List α} {m : List β} (h : l.length = m.length) : (l.zip m).map (·.1) = l := by
  rw [List.map_fst_zip (by omega)]

theorem map_snd_zip_eq {α β : Type} {l : List α} {m : List β} (h : l.length = m.length) : (l.zip m).map (·.2) = m := by
  rw [List.map_snd_zip (by omega)]

theorem stored_again {tech : Nat} (ht : tech ≤ 1) {c : Coll} (hn : Native c) {b : Builtin} (hb : c.sig = b.encoder.sig)
    (hs : Settled c b) :
    (b.stored c (storedTimes tech c.times)).sig = c.sig ∧ Native (b.stored c (storedTimes tech c.times)) ∧
      b.stored (b.stored c (storedTimes tech c.times)) (storedTimes tech (b.stored c (storedTimes tech c.times)).times) =
        b.stored c (storedTimes tech c.times) := by
  have hl := storedTimes_length tech c.times
  cases c with
  | other s n ts => exact hn.elim
  | event n caps =>
    cases b <;> first | (exfalso; revert hb; simp only [Coll.sig, Builtin.encoder, eventEncoder, enumEncoder, positionEncoder, eulerEncoder, floatEncoder]; decide) | skip
    simp only [Builtin.stored, Coll.times, Coll.sig, List.length_map] at hl ⊢
    refine ⟨trivial, trivial, ?_⟩
    rw [map_fst_zip_eq (by simpa using hl), map_snd_zip_eq (by simpa using hl), times_again ht]
  | enum n ms caps =>
    cases b <;> first | (exfalso; revert hb; simp only [Coll.sig, Builtin.encoder, eventEncoder, enumEncoder, positionEncoder, eulerEncoder, floatEncoder]; decide) | skip
    simp only [Builtin.stored, Coll.times, Coll.sig, List.length_map] at hl ⊢
    refine ⟨trivial, trivial, ?_⟩
    rw [map_fst_zip_eq (by simpa using hl), map_snd_zip_eq (by simpa using hl), times_again ht]
  | position n caps =>
    cases b <;> first | (exfalso; revert hb; simp only [Coll.sig, Builtin.encoder, eventEncoder, enumEncoder, positionEncoder, eulerEncoder, floatEncoder]; decide) | skip
    simp only [Builtin.stored, Coll.times, Coll.sig, List.length_map] at hl ⊢
    refine ⟨trivial, trivial, ?_⟩
    rw [map_fst_zip_eq (by simpa [storedPositions_length] using hl), map_snd_zip_eq (by simpa [storedPositions_length] using hl),
      times_again ht, positions_again hs]
  | euler n caps =>
    cases b <;> first | (exfalso; revert hb; simp only [Coll.sig, Builtin.encoder, eventEncoder, enumEncoder, positionEncoder, eulerEncoder, floatEncoder]; decide) | skip
    simp only [Builtin.stored, Coll.times, Coll.sig, List.length_map] at hl ⊢
    refine ⟨trivial, trivial, ?_⟩
    rw [map_fst_zip_eq (by simpa [storedRotations_length] using hl), map_snd_zip_eq (by simpa [storedRotations_length] using hl),
      times_again ht, rotations_again (by simpa [Settled, Coll.times] using hs)]
  | float n caps =>
    cases b <;> first | (exfalso; revert hb; simp only [Coll.sig, Builtin.encoder, eventEncoder, enumEncoder, positionEncoder, eulerEncoder, floatEncoder]; decide) | skip
    simp only [Builtin.stored, Coll.times, Coll.sig, List.length_map] at hl ⊢
    refine ⟨trivial, trivial, ?_⟩
    rw [map_fst_zip_eq (by simpa [storedFloats_length] using hl), map_snd_zip_eq (by simpa [storedFloats_length] using hl),
      times_again ht, floats_again hs]

mutual
theorem flat_mapColls (f : Coll → Coll) : (rec : Rec) → (rec.mapColls f).flat = rec.flat.map f
  | .nil => rfl
  | .mk id name colls recs md bins refs => by
    rw [Rec.mapColls, Rec.flat, Rec.flat, List.map_append, flatList_mapColls f recs]
    congr 1
    induction colls with
    | nil => rfl
    | cons c colls ih => cases c <;> simp_all
theorem flatList_mapColls (f : Coll → Coll) : (recs : List Rec) → Rec.flatList (Rec.mapCollsList f recs) =
    (Rec.flatList recs).map f
  | [] => rfl
  | r :: rs => by
    rw [Rec.mapCollsList, Rec.flatList, Rec.flatList, List.map_append, flat_mapColls f r, flatList_mapColls f rs]
end

/-! ## The statements -/

/-- C65: a recording is saved, loaded, and what was loaded is saved again with the same encoders and times of 64 or 32 bits.
If the encoders store 64-bit floats, 32-bit floats or angles of 16 bits, the second file is loaded as exactly what the first
was loaded as: everything that is lost is lost the first time. -/
theorem C65_saved_twice (F : Flate) (hF : F.Lawful) (X : Ext) (unmarshal : Bytes → Except Err V1.Recording)
    (ws rs : List Builtin) (tech : Nat) (ht : tech ≤ 1) (compress compress' : Bool) (orders : List (List Bytes)) (rec : Rec)
    (hg : GoodRec rec) (hnative : ∀ c ∈ rec.flat, Native c) (hko : KeyOrders rec orders)
    (hws : ∀ c ∈ rec.flat, ∃ b ∈ ws, b.encoder.accepts c)
    (hrs : ∀ b ∈ ws, ∃ b' ∈ rs, b'.encoder.sig = b.encoder.sig) (hset : ∀ c ∈ rec.flat, ∀ b ∈ ws, b.encoder.accepts c → Settled c b) :
    ∃ n out, write F ⟨ws.map Builtin.encoder, tech, compress⟩ orders rec (⟨[]⟩ : Buf) = .ok (n, none, out) ∧
      (n ≤ sizeLimit → ∃ rec' s, read F X unmarshal (rs.map Builtin.encoder) (⟨out.bytes, .eof⟩ : Flat) =
          .ok ((rec', n, none), s) ∧
        ∀ orders', KeyOrders rec' orders' →
          ∃ m out', write F ⟨ws.map Builtin.encoder, tech, compress'⟩ orders' rec' (⟨[]⟩ : Buf) = .ok (m, none, out') ∧
            (m ≤ sizeLimit → ∃ s, read F X unmarshal (rs.map Builtin.encoder) (⟨out'.bytes, .eof⟩ : Flat) =
              .ok ((rec', m, none), s))) := by
  obtain ⟨n, out, h1, h2⟩ := C17_roundtrip F hF X unmarshal ws rs tech (by omega) compress orders rec hg hnative hko hws hrs
  refine ⟨n, out, h1, fun hn => ?_⟩
  obtain ⟨s, hs⟩ := h2 hn
  refine ⟨_, s, hs, fun orders' hko' => ?_⟩
  obtain ⟨hg', -⟩ := C60_wellformed F X unmarshal rs _ s _ n hs (mapColls_complete _ rec hg)
  -- what is known of each collection
  have key : ∀ c ∈ rec.flat, (storedColl ws c (storedTimes tech c.times)).sig = c.sig ∧
      Native (storedColl ws c (storedTimes tech c.times)) ∧
      storedColl ws (storedColl ws c (storedTimes tech c.times))
        (storedTimes tech (storedColl ws c (storedTimes tech c.times)).times) = storedColl ws c (storedTimes tech c.times) := by
    intro c hc
    obtain ⟨b, hb, hacc⟩ := hws c hc
    cases hch : Builtin.chosen ws c with
    | none =>
      exfalso
      unfold Builtin.chosen at hch
      exact absurd hacc (List.find?_eq_none.1 hch b hb)
    | some b' =>
      have hm : b' ∈ ws := List.mem_of_find?_eq_some hch
      have hsig : c.sig = b'.encoder.sig := (accepts_iff b' c).1 (List.find?_some (p := fun b : Builtin => b.encoder.accepts c) hch)
      obtain ⟨k1, k2, k3⟩ := stored_again ht (hnative c hc) hsig (hset c hc b' hm (List.find?_some (p := fun b : Builtin => b.encoder.accepts c) hch))
      have e : storedColl ws c (storedTimes tech c.times) = b'.stored c (storedTimes tech c.times) := by
        unfold storedColl; rw [hch]
      rw [e]
      refine ⟨k1, k2, ?_⟩
      have hch' : Builtin.chosen ws (b'.stored c (storedTimes tech c.times)) = some b' := by
        rw [← hch]
        unfold Builtin.chosen
        congr 1
        funext b
        rw [Bool.eq_iff_iff, accepts_iff, accepts_iff, k1]
      conv_lhs => unfold storedColl
      rw [hch']
      exact k3
  obtain ⟨m, out', g1, g2⟩ := C17_roundtrip F hF X unmarshal ws rs tech (by omega) compress' orders' _ hg' (by
      rw [flat_mapColls]
      intro c hc
      obtain ⟨d, hd, rfl⟩ := List.mem_map.1 hc
      exact (key d hd).2.1) hko' (by
      rw [flat_mapColls]
      intro c hc
      obtain ⟨d, hd, rfl⟩ := List.mem_map.1 hc
      obtain ⟨b, hb, hacc⟩ := hws d hd
      refine ⟨b, hb, ?_⟩
      rw [accepts_iff] at hacc ⊢
      rw [(key d hd).1, hacc]) hrs
  refine ⟨m, out', g1, fun hm => ?_⟩
  obtain ⟨s', hs'⟩ := g2 hm
  refine ⟨s', ?_⟩
  rw [hs', mapColls_id]
  rw [flat_mapColls]
  intro c hc
  obtain ⟨d, hd, rfl⟩ := List.mem_map.1 hc
  exact (key d hd).2.2

/-- Encoders that lose something: 32-bit positions and floats, angles of 16 bits. -/
def settledEncoders : List Builtin := [.event, .position 1, .euler 2, .enum, .float 1]

example : GoodRec sample ∧ (∀ c ∈ sample.flat, Native c) ∧ KeyOrders sample sampleOrders ∧
    (∀ c ∈ sample.flat, ∃ b ∈ settledEncoders, b.encoder.accepts c) ∧
    (∀ c ∈ sample.flat, ∀ b ∈ settledEncoders, b.encoder.accepts c → Settled c b) := by
  refine ⟨sample_good, ?_, sample_orders, ?_, ?_⟩
  · simp [sample, sampleChild, Rec.flat, Rec.flatList, Native]
  · simp only [sample, sampleChild, Rec.flat, Rec.flatList, settledEncoders, accepts_iff]
    simp [Coll.sig, Builtin.encoder, eventEncoder, positionEncoder, eulerEncoder, enumEncoder, floatEncoder]
  · simp only [sample, sampleChild, Rec.flat, Rec.flatList, settledEncoders, accepts_iff]
    simp [Coll.sig, Builtin.encoder, eventEncoder, positionEncoder, eulerEncoder, enumEncoder, floatEncoder, Settled, sigEvent,
      sigPosition, sigEuler, sigEnum, sigFloat, Coll.times]

-- two rotations that lose something the first time and nothing the second time
example : let v : List V3 := [⟨0x3FB999999999999A, 0, 0⟩, ⟨0x4059000000000001, 0, 0⟩]
    storedRotations 2 v ≠ v ∧ storedRotations 2 (storedRotations 2 v) = storedRotations 2 v := by decide +kernel

/-- C65 for single values: angles of 16 bits are exact from the second time on, for all floats whatever (also infinities and
NaN), and so are 32-bit floats. -/
theorem C65_values (a : F64) :
    angle16 (angle16 a) = angle16 a ∧ near32 (near32 a) = near32 a := by
  exact ⟨angle16_angle16 a, near32_near32 a⟩

example : angle16 0x3FB999999999999A ≠ 0x3FB999999999999A ∧ near32 0x3FB999999999999A ≠ 0x3FB999999999999A := by decide +kernel

/-- C65 does not hold for floats in 16 bits: the values move each time, towards the middle of their range. -/
theorem C65_floats_move : let f0 : F64 := 0; let f1 : F64 := 0x3FF0000000000000
    (storedFloats 2 [f0, f1]).map number64 = [.fin (1 / 2 ^ 17), .fin (1 - 1 / 2 ^ 17)] ∧
    (storedFloats 2 (storedFloats 2 [f0, f1])) ≠ storedFloats 2 [f0, f1] := by decide +kernel

/-- C65 does not hold for times in 16 bits. -/
theorem C65_times_move : let t : List F64 := [0, 0x3FF0000000000000, 0x4000000000000000]
    storedTimes 2 (storedTimes 2 t) ≠ storedTimes 2 t := by decide +kernel

/-- C65 does not hold for positions in octree cells. -/
theorem C65_positions_move : let p : List V3 := [⟨0, 0, 0⟩, ⟨0x3FF0000000000000, 0, 0⟩, ⟨0, 0x3FF0000000000000, 0⟩]
    storedPositions 2 (storedPositions 2 p) ≠ storedPositions 2 p ∧
    storedPositions 3 (storedPositions 3 p) ≠ storedPositions 3 p := by decide +kernel

/-- C65 does not hold for a single rotation of 16 bits: an angle just below 360 is first 360, then 0. -/
theorem C65_single_rotation_moves : let v : V3 := ⟨0x40767FFFFFFFFFFF, 0, 0⟩
    storedRotations 2 [v] = [⟨f360, 0, 0⟩] ∧ storedRotations 2 (storedRotations 2 [v]) = [⟨0, 0, 0⟩] := by decide +kernel

end Rap
