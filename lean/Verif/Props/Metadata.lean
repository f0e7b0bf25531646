import Verif.Proof.Metadata

/-!
# C04, C05, C06: metadata values
-/

namespace Rap

/-- C04: every metadata value built with the public constructors, to any nesting depth and for any iteration order
of its maps, is written, and reading it returns it and leaves what follows unread. `fuel` bounds the nesting depth the
model follows; any bound above the input length will do (`C37`). -/
theorem C04_metadata_roundtrip (p : Property) (h : Constructible p) :
    ∃ bs, p.bytes = .ok bs ∧
      (bs.length ≤ sizeLimit → ∀ (rest : Bytes) (fin : Err) (fuel : Nat), bs.length < fuel →
        (readProperty fuel).run (⟨bs ++ rest, fin⟩ : Flat) = .ok (.ok p, ⟨rest, fin⟩)) := by
  obtain ⟨c, d, hc, hd, hr⟩ := constructible_RT h
  refine ⟨c :: d, by simp [Property.bytes, hc, hd, bind, Except.bind], ?_⟩
  intro hl rest fin fuel hf
  simp only [List.length_cons] at hl hf
  refine Prog.clean_flat fin ?_
  rw [List.cons_append, readProperty, clean_readPropertyWith]
  exact hr fuel (by omega) (by omega) rest

/-- A nested block with an array of blocks inside. -/
example : Constructible (.block [([97], .str [1, 2]), ([98], .newMetadataArray [[([99], .time 5)], []])]) := by
  refine .block _ (by decide) ?_
  intro kv hkv
  simp only [List.mem_cons, List.not_mem_nil, or_false] at hkv
  rcases hkv with rfl | rfl
  · exact .str _
  · refine .metadataArray _ ?_
    intro b hb
    simp only [List.mem_cons, List.not_mem_nil, or_false] at hb
    rcases hb with rfl | rfl
    · exact .block _ (by decide) (by simpa using .time _)
    · exact .block _ (by decide) (by simp)

/-! ## C05 -/

/-- The codes the reader supports. -/
def supportedCodes : List UInt8 := [0, 1, 2, 3, 4, 5, 6, 7, 11, 12, 13, 14, 15, 16, 18, 19, 20, 24, 25]

/-- C05: an unsupported type code is an error, and nothing after it is read. -/
theorem C05_unknown_code_is_error (c : UInt8) (h : c ∉ supportedCodes) (rest : Bytes) (fin : Err) (fuel : Nat)
    (hf : 0 < fuel) :
    (readProperty fuel).run (⟨c :: rest, fin⟩ : Flat) = .ok (.error (.badProperty c.toNat), ⟨rest, fin⟩) := by
  obtain ⟨fuel, rfl⟩ : ∃ k, fuel = k + 1 := ⟨fuel - 1, by omega⟩
  simp only [supportedCodes, List.mem_cons, List.not_mem_nil, or_false, not_or] at h
  refine Prog.clean_flat fin ?_
  rw [readProperty, clean_readPropertyWith]
  simp [readPropData, h]

example : (8 : UInt8) ∉ supportedCodes ∧ (17 : UInt8) ∉ supportedCodes ∧ (255 : UInt8) ∉ supportedCodes := by decide

/-- C05: conversely each supported code is used by some value. -/
theorem C05_supported_codes_used (c : UInt8) (h : c ∈ supportedCodes) : ∃ p, Constructible p ∧ p.code = .ok c := by
  simp only [supportedCodes, List.mem_cons, List.not_mem_nil, or_false] at h
  rcases h with rfl | rfl | rfl | rfl | rfl | rfl | rfl | rfl | rfl | rfl | rfl | rfl | rfl | rfl | rfl | rfl | rfl |
    rfl | rfl
  · exact ⟨_, .str [], rfl⟩
  · exact ⟨_, .int 0, rfl⟩
  · exact ⟨_, .f32 0, rfl⟩
  · exact ⟨_, .bool true, rfl⟩
  · exact ⟨_, .bool false, rfl⟩
  · exact ⟨_, .byte 0, rfl⟩
  · exact ⟨_, .vec2 0 0, rfl⟩
  · exact ⟨_, .vec3 0 0 0, rfl⟩
  · exact ⟨_, .block [] (by simp) (by simp), rfl⟩
  · exact ⟨_, .time 0, rfl⟩
  · exact ⟨_, .stringArray [], rfl⟩
  · exact ⟨_, .intArray [], rfl⟩
  · exact ⟨_, .float32Array [], rfl⟩
  · exact ⟨_, .boolArray [], rfl⟩
  · exact ⟨_, .binaryArray [], rfl⟩
  · exact ⟨_, .vector2Array [], rfl⟩
  · exact ⟨_, .vector3Array [], rfl⟩
  · exact ⟨_, .metadataArray [] (by simp), rfl⟩
  · exact ⟨_, .timestampArray [], rfl⟩

/-- C05: values of different kinds (as chosen by the constructor) have different type codes. -/
theorem C05_codes_distinguish_kinds (p q : Property) (k k' : Kind) (hp : HasKind p k) (hq : HasKind q k')
    (h : p.code = q.code) : k = k' := by
  cases hp <;> cases hq <;> first
    | rfl
    | (exfalso; revert h; simp [Property.code, Property.newInt, Property.newStringArray, Property.newIntArray,
        Property.newFloat32Array, Property.newVector2Array, Property.newVector3Array, Property.newMetadataArray,
        Property.newTimestampArray, Property.newBinaryArray, Property.newBoolArray]; done)
    | (exfalso; revert h; simp only [Property.code, Property.newInt, Property.newStringArray, Property.newIntArray,
        Property.newFloat32Array, Property.newVector2Array, Property.newVector3Array, Property.newMetadataArray,
        Property.newTimestampArray, Property.newBinaryArray, Property.newBoolArray, Except.ok.injEq]
       split <;> decide)

example : HasKind (.bool true) .bool ∧ HasKind (.newBoolArray [true]) .boolArray := ⟨.bool _, .boolArray _⟩

/-- C05: all values of one kind share a code, except that `true` and `false` have one each. -/
theorem C05_same_kind_same_code (p q : Property) (k : Kind) (hp : HasKind p k) (hq : HasKind q k) (hk : k ≠ .bool) :
    p.code = q.code := by
  cases hp <;> cases hq <;> first | rfl | exact absurd rfl hk

/-! ## C06 -/

/-- C06: an integer reads back as itself exactly when it fits in 32 bits; otherwise as the 32-bit integer congruent
to it. -/
theorem C06_int_keeps_32_bits (i : Int) (rest : Bytes) (fin : Err) (fuel : Nat) (hf : 5 < fuel) :
    ∃ bs j, (Property.newInt i).bytes = .ok bs ∧
      (readProperty fuel).run (⟨bs ++ rest, fin⟩ : Flat) = .ok (.ok (.int32 j), ⟨rest, fin⟩) ∧
      (j.toInt = i ↔ -2 ^ 31 ≤ i ∧ i < 2 ^ 31) ∧ j.toInt % 2 ^ 32 = i % 2 ^ 32 := by
  obtain ⟨bs, hbs, hr⟩ := C04_metadata_roundtrip _ (.int i)
  have hlen : bs.length = 5 := by
    simp only [Property.bytes, Property.newInt, Property.code, Property.data, bind, Except.bind,
      Except.ok.injEq] at hbs
    rw [← hbs]; simp [leBytes_length]
  refine ⟨bs, BitVec.ofInt 32 i, hbs, hr (by rw [hlen]; decide) rest fin fuel (by omega), ?_, ?_⟩
  · rw [BitVec.toInt_ofInt]; simp only [Int.bmod]; omega
  · rw [BitVec.toInt_ofInt]; simp only [Int.bmod]; omega

/-- 2^31 comes back as -2^31. -/
example : (BitVec.ofInt 32 (2 ^ 31)).toInt = -2 ^ 31 := by decide

end Rap
