import Verif.Spec.Program
import Verif.Props.Default
import Verif.Props.Quantise

/-!
# C81: saving with the writer of the program and loading again
-/

namespace Rap

theorem kept_coarsely (vs : List V3) : CoarselyKept vs (storedPositions 3 vs) := by
  refine ⟨storedPositions_length 3 vs, fun get hget qs hq hl P lo hi D hP0 hP hqP hlo hhi hD hch => ?_⟩
  obtain ⟨A, rfl⟩ : ∃ A : Axis, A.get = get := by
    simp only [List.mem_cons, List.not_mem_nil, or_false] at hget
    rcases hget with rfl | rfl | rfl
    exacts [⟨axisX, rfl⟩, ⟨axisY, rfl⟩, ⟨axisZ, rfl⟩]
  obtain ⟨hf, rfl⟩ := hq.spec
  rw [show storedPositions 3 vs = octStored 1 vs from rfl, A.stored]
  rw [List.isChain_map] at hch
  obtain ⟨b1, b2, b3⟩ := axisStored_error (k := 8 * 1) (by omega) (by omega) hP0 hP hD hlo hhi (by rw [List.length_map]; exact hl)
    (fun t ht => ⟨hf t ht, hqP _ (List.mem_map_of_mem ht)⟩) hch
  refine ⟨_, numbers_of_finite b1, ?_⟩
  intro i a b ha hb
  rw [List.getElem?_map, Option.map_eq_some_iff] at ha hb
  obtain ⟨x, hx, rfl⟩ := ha
  obtain ⟨y, hy, rfl⟩ := hb
  have := b3 i x y hx hy
  rwa [List.length_map] at this

theorem kept_angle16 (a : F64) : AngleKept a (angle16 a) := by
  intro A hA hle
  obtain ⟨R, h1, h2, h3, k, h4, -⟩ := angle16_ok a A hA hle
  exact ⟨R, h1, by linarith, by linarith, k, h4⟩

/-- The only angle of a collection is kept as a float32. -/
theorem kept_wrapped (a : F64) : AngleKept a (near32 (wrapEuler a)) := by
  intro A hA hle
  obtain ⟨hf, rfl⟩ := fin_of hA
  obtain ⟨k, hk, w1, w2⟩ := wrap_spec hf hle
  have hsmall : (1 : ℚ) / 2 ^ 1066 ≤ 1 / 2 ^ 200 :=
    one_div_le_one_div_of_le (by positivity) (pow_le_pow_right₀ (by norm_num) (by norm_num))
  have hrange : -(1 / 2 ^ 200) ≤ a.toRat - 360 * k ∧ a.toRat - 360 * k ≤ 360 := by
    rcases hk with rfl | ⟨rfl, h3, h4⟩
    · have a1 : (⌊a.toRat / 360⌋ : ℚ) ≤ a.toRat / 360 := Int.floor_le _
      have a2 : a.toRat / 360 < ⌊a.toRat / 360⌋ + 1 := Int.lt_floor_add_one _
      have : (0 : ℚ) ≤ 1 / 2 ^ 200 := by positivity
      constructor <;> linarith
    · rw [neg_div] at h3
      generalize (1 : ℚ) / 2 ^ 1066 = w at *
      constructor
      · push_cast; linarith
      · push_cast; linarith
  have w3 := abs_le.1 w2
  have hb : |(wrapEuler a).toRat| ≤ 361 := by
    rw [abs_le]
    norm_num at hrange w3 ⊢
    constructor <;> linarith [hrange.1, hrange.2, w3.1, w3.2]
  obtain ⟨n1, n2⟩ := near32_close w1 hb (by norm_num)
  have n3 := abs_le.1 n2
  refine ⟨_, F64.number_fin n1, ?_, ?_, k, ?_⟩
  · norm_num at hrange w3 n3 ⊢
    linarith [hrange.1, w3.1, n3.1]
  · norm_num at hrange w3 n3 ⊢
    linarith [hrange.2, w3.2, n3.2]
  · rw [abs_le]
    norm_num at hrange w3 n3 ⊢
    constructor <;> linarith [w3.1, w3.2, n3.1, n3.2]

theorem kept_turns : ∀ vs : List V3, List.Forall₂ TurnKept vs (storedRotations 2 vs)
  | [] => .nil
  | [_] => .cons ⟨kept_wrapped _, kept_wrapped _, kept_wrapped _⟩ .nil
  | v :: w :: vs => by
    rw [show storedRotations 2 (v :: w :: vs) = (v :: w :: vs).map fun v => ⟨angle16 v.x, angle16 v.y, angle16 v.z⟩ from rfl,
      List.forall₂_map_right_iff, List.forall₂_same]
    exact fun v _ => ⟨kept_angle16 _, kept_angle16 _, kept_angle16 _⟩

theorem program_stored (c : Coll) (hc : Savable c) : ProgramSaves c (storedColl cliBuiltins c (storedTimes 2 c.times)) := by
  have hz : ∀ {α β : Type} (caps : List (F64 × α)) (vs : List β), vs.length = caps.length →
      ((storedTimes 2 (caps.map (·.1))).zip vs).map (·.1) = storedTimes 2 (caps.map (·.1)) ∧
      ((storedTimes 2 (caps.map (·.1))).zip vs).map (·.2) = vs :=
    fun caps vs h => zip_maps _ _ (by rw [storedTimes_length, List.length_map, h])
  cases c with
  | position n caps =>
    have h : storedColl cliBuiltins (.position n caps) (storedTimes 2 (caps.map (·.1))) =
      .position n ((storedTimes 2 (caps.map (·.1))).zip (storedPositions 3 (caps.map (·.2)))) := rfl
    obtain ⟨h1, h2⟩ := hz caps (storedPositions 3 (caps.map (·.2))) (by rw [storedPositions_length, List.length_map])
    rw [Coll.times, h]
    simp only [ProgramSaves, h1, h2]
    exact ⟨trivial, kept_times _, kept_coarsely _⟩
  | euler n caps =>
    have h : storedColl cliBuiltins (.euler n caps) (storedTimes 2 (caps.map (·.1))) =
      .euler n ((storedTimes 2 (caps.map (·.1))).zip (storedRotations 2 (caps.map (·.2)))) := rfl
    obtain ⟨h1, h2⟩ := hz caps (storedRotations 2 (caps.map (·.2))) (by rw [storedRotations_length, List.length_map])
    rw [Coll.times, h]
    simp only [ProgramSaves, h1, h2]
    exact ⟨trivial, kept_times _, kept_turns _⟩
  | event n caps =>
    have h : storedColl cliBuiltins (.event n caps) (storedTimes 2 (caps.map (·.1))) =
      .event n ((storedTimes 2 (caps.map (·.1))).zip (caps.map (·.2))) := rfl
    obtain ⟨h1, h2⟩ := hz caps (caps.map (·.2)) (by rw [List.length_map])
    rw [Coll.times, h]
    simp only [ProgramSaves, h1, h2]
    exact ⟨trivial, kept_times _, trivial⟩
  | enum n ms caps =>
    have h : storedColl cliBuiltins (.enum n ms caps) (storedTimes 2 (caps.map (·.1))) =
      .enum n ms ((storedTimes 2 (caps.map (·.1))).zip (caps.map (·.2))) := rfl
    obtain ⟨h1, h2⟩ := hz caps (caps.map (·.2)) (by rw [List.length_map])
    rw [Coll.times, h]
    simp only [ProgramSaves, h1, h2]
    exact ⟨trivial, trivial, kept_times _, trivial⟩
  | float => exact hc.elim
  | other => exact hc.elim

/-- C81: a recording whose collections are positions, rotations, events and enums is saved by the writer of the commands
from-json and upgrade, and `Load` reads the file as the same tree, with the same ids, names, metadata, binaries and
references. Of the collections only times, positions and rotations change, by no more than `ProgramSaves` says. -/
theorem C81_saved_and_loaded (F : Flate) (hF : F.Lawful) (X : Ext) (unmarshal : Bytes → Except Err V1.Recording)
    (orders : List (List Bytes)) (rec : Rec) (hg : GoodRec rec) (hd : ∀ c ∈ rec.flat, Savable c)
    (hko : KeyOrders rec orders) :
    ∃ n out, write F cliWriter orders rec (⟨[]⟩ : Buf) = .ok (n, none, out) ∧
      (n ≤ sizeLimit → ∃ rec' s, load F X unmarshal (⟨out.bytes, .eof⟩ : Flat) = .ok ((rec', n, none), s) ∧
        SameBut ProgramSaves rec rec') := by
  obtain ⟨n, out, h1, h2⟩ := C17_roundtrip F hF X unmarshal cliBuiltins loadBuiltins 2 (by decide) true orders rec hg
    (fun c hc => by have := hd c hc; cases c <;> simp_all [Native, Savable]) hko (fun c hc => by
      have := hd c hc
      simp only [accepts_iff]
      cases c with
      | position => exact ⟨.position 3, by decide, rfl⟩
      | euler => exact ⟨.euler 2, by decide, rfl⟩
      | event => exact ⟨.event, by decide, rfl⟩
      | enum => exact ⟨.enum, by decide, rfl⟩
      | float => exact this.elim
      | other => exact this.elim) (by decide)
  refine ⟨n, out, h1, fun hn => ?_⟩
  obtain ⟨s, hs⟩ := h2 hn
  exact ⟨_, s, hs, sameBut_map hg fun c hc => program_stored c (hd c hc)⟩

/-- The hypotheses hold for the sample of C78. -/
example : storeFlate.Lawful ∧ GoodRec savedSample ∧ (∀ c ∈ savedSample.flat, Savable c) ∧
    KeyOrders savedSample ((visitedBlocks savedSample).map fun b => b.map (·.1)) := by
  refine ⟨storeFlate_lawful, savedSample_good, ?_, ?_⟩
  · intro c hc
    simp [savedSample, Rec.flat, Rec.flatList] at hc
    rcases hc with rfl | rfl | rfl | rfl <;> trivial
  · rw [KeyOrders, List.forall₂_map_left_iff, List.forall₂_same]
    exact fun b _ => List.Perm.refl _

/-- What `AngleKept` says: -90 degrees come back as an angle within 0.003 degrees of 270, whole turns aside. -/
example (r : F64) (h : AngleKept 0xC056800000000000 r) :
    ∃ R, number64 r = .fin R ∧ ∃ k : Int, |R - (-90 - 360 * k)| ≤ 3 / 1000 := by
  obtain ⟨R, h1, -, -, k, h2⟩ := h (-90) (by decide +kernel) (by norm_num [abs_of_neg])
  exact ⟨R, h1, k, le_trans h2 (by norm_num)⟩

/-- C81: every version 1 recording, converted and saved by the command upgrade, is loaded as the same tree with times,
positions and rotations as accurate as `ProgramSaves` says. -/
theorem C81_upgraded (F : Flate) (hF : F.Lawful) (X X' : Ext) (unmarshal : Bytes → Except Err V1.Recording)
    (v : V1.Recording) (orders : List (List Bytes)) (hko : KeyOrders (V1.protobufToStd X v) orders) :
    ∃ n out, write F cliWriter orders (V1.protobufToStd X v) (⟨[]⟩ : Buf) = .ok (n, none, out) ∧
      (n ≤ sizeLimit → ∃ rec' s, load F X' unmarshal (⟨out.bytes, .eof⟩ : Flat) = .ok ((rec', n, none), s) ∧
        SameBut ProgramSaves (V1.protobufToStd X v) rec') := by
  refine C81_saved_and_loaded F hF X' unmarshal orders _ (good_v1 X v) (fun c hc => ?_) hko
  obtain ⟨h1, h2⟩ := flat_v1 X v c hc
  cases c with
  | position => trivial
  | euler => trivial
  | event => trivial
  | enum => trivial
  | float => simp only [Coll.sig] at h2; exact absurd h2 (by decide)
  | other => exact h1.elim

/-- The sample of C46, with the keys in the order of the recording. -/
example : storeFlate.Lawful ∧ (V1.protobufToStd oneExt v1Sample).flat ≠ [] ∧
    KeyOrders (V1.protobufToStd oneExt v1Sample)
      ((visitedBlocks (V1.protobufToStd oneExt v1Sample)).map fun b => b.map (·.1)) := by
  refine ⟨storeFlate_lawful, by decide +kernel, ?_⟩
  rw [KeyOrders, List.forall₂_map_left_iff, List.forall₂_same]
  exact fun b _ => List.Perm.refl _

/-- C81: what from-json writes for a document is loaded as the recording `r` that the document describes, as accurate as
`ProgramSaves` says. -/
theorem C81_from_json {X : JsonExt} (hX : X.Lawful) (F : Flate) (hF : F.Lawful) (X' : Ext)
    (unmarshal : Bytes → Except Err V1.Recording) (orders : Rec → List (List Bytes)) {j : JVal} {r : Rec}
    (h : fromJSON X (.ok j) = pure r) (hg : GoodRec r) (hko : KeyOrders r (orders r)) :
    Describes (parserReading X) j r ∧ ∃ n out, fromJson X F orders (.ok j) (⟨[]⟩ : Buf) = .ok (none, out) ∧
      write F cliWriter (orders r) r (⟨[]⟩ : Buf) = .ok (n, none, out) ∧
      (n ≤ sizeLimit → ∃ r' s, load F X' unmarshal (⟨out.bytes, .eof⟩ : Flat) = .ok ((r', n, none), s) ∧
        SameBut ProgramSaves r r') := by
  have hflat := describes_flat (C50_parsed hX h)
  obtain ⟨n, out, h1, h2, h3⟩ := C52_from_json_partial hX F hF X' unmarshal orders h hg hko
  refine ⟨C50_parsed hX h, n, out, h1, h2, fun hn => ?_⟩
  obtain ⟨f, s, hs, hf⟩ := h3 hn
  refine ⟨_, s, hs, sameBut_map hg fun c hc => ?_⟩
  rw [(hf c hc).2]
  refine program_stored c ?_
  obtain ⟨a, b⟩ := hflat c hc
  cases c with
  | position => trivial
  | euler => trivial
  | event => trivial
  | enum => trivial
  | float => simp only [Coll.sig] at b; exact absurd b (by decide)
  | other => exact a.elim

/-- The sample document of C52. -/
example : sampleJson.Lawful ∧ fromJSON sampleJson (.ok (.obj rootDocument)) = pure rootRecording ∧
    rootRecording.flat ≠ [] := by
  refine ⟨sampleJson_lawful, ?_, by decide +kernel⟩
  refine C50_accepted sampleJson_lawful ?_ rootDocument_describes
  simp only [rootDocument, childDocument, sampleObject, JVal.Proper, properMembers, properItems, List.map_cons,
    List.map_nil, and_true, true_and]
  decide

end Rap
