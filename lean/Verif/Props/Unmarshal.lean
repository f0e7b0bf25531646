import Verif.Spec.Unmarshal
import Verif.Props.Marshal

/-!
# C58: each metadata type reads itself back from JSON
-/

namespace Rap

variable {M : MarshalExt} {X : JsonExt} {N : Bytes → F64 → Prop} {U : UnmarshalExt}

theorem letter_key (c : UInt8) (h1 : 32 ≤ c) (h2 : c ≠ 34) (h3 : c ≠ 92) : KeyText [34, c, 34] [c] :=
  ⟨[], [], [c], by simp [Blank], by simp [Blank], .plain h1 h2 h3 .nil, rfl⟩

theorem vec2_text (hM : M.Lawful X N) {x y : F64} {p q : Rat} (hx : number64 x = .fin p) (hy : number64 y = .fin q) :
    ∃ t, marshal M (.vec2 x y) = pure t ∧ JText N t (.obj [(b!"x", .num x), (b!"y", .num y)]) := by
  obtain ⟨tx, g1, g2⟩ := hM.float64 x p hx
  obtain ⟨ty, g3, g4⟩ := hM.float64 y q hy
  refine ⟨_, by rw [marshal, g1, g3]; rfl, ?_⟩
  have := JText.obj (N := N) (ms := [([34, 120, 34], tx), ([34, 121, 34], ty)])
    (d := [(b!"x", .num x), (b!"y", .num y)]) (by simp) (separated_commas _)
    (.cons (letter_key _ (by decide) (by decide) (by decide))
      (.cons (letter_key _ (by decide) (by decide) (by decide)) .nil))
    (.cons (.num g2) (.cons (.num g4) .nil))
  simpa [commas] using this

theorem vec3_text (hM : M.Lawful X N) {x y z : F64} {p q r : Rat} (hx : number64 x = .fin p) (hy : number64 y = .fin q)
    (hz : number64 z = .fin r) :
    ∃ t, marshal M (.vec3 x y z) = pure t ∧ JText N t (.obj [(b!"x", .num x), (b!"y", .num y), (b!"z", .num z)]) := by
  obtain ⟨tx, g1, g2⟩ := hM.float64 x p hx
  obtain ⟨ty, g3, g4⟩ := hM.float64 y q hy
  obtain ⟨tz, g5, g6⟩ := hM.float64 z r hz
  refine ⟨_, by rw [marshal, g1, g3, g5]; rfl, ?_⟩
  have := JText.obj (N := N) (ms := [([34, 120, 34], tx), ([34, 121, 34], ty), ([34, 122, 34], tz)])
    (d := [(b!"x", .num x), (b!"y", .num y), (b!"z", .num z)]) (by simp) (separated_commas _)
    (.cons (letter_key _ (by decide) (by decide) (by decide)) (.cons (letter_key _ (by decide) (by decide) (by decide))
      (.cons (letter_key _ (by decide) (by decide) (by decide)) .nil)))
    (.cons (.num g2) (.cons (.num g4) (.cons (.num g6) .nil)))
  simpa [commas] using this

theorem back_str (hM : M.Lawful X N) (hU : U.Lawful M N) {s : Bytes} (h : Utf8 s) : decodeString U (M.str s) = pure s := by
  rw [decodeString, (hU.value _ _).2 (str_text hM h)]

theorem back_simple (hM : M.Lawful X N) (hU : U.Lawful M N) {p : Property} (h : Recoverable X p)
    (hp : (∀ kvs, p ≠ .block kvs) ∧ (∀ c ps, p ≠ .array c ps) ∧ ∀ b d, p ≠ .raw b d) :
    ∃ t, marshal M p = pure t ∧ unmarshalLike U X p t = pure p := by
  have hstr : ∀ s, Utf8 s → ∃ t, marshal M (.str s) = pure t ∧ unmarshalLike U X (.str s) t = pure (.str s) := by
    intro s h1
    exact ⟨_, by rw [marshal], by rw [unmarshalLike, back_str hM hU h1, pure_bind]⟩
  have hint : ∀ i, ∃ t, marshal M (.int32 i) = pure t ∧ unmarshalLike U X (.int32 i) t = pure (.int32 i) := by
    intro i
    obtain ⟨d, h1, h2⟩ := hM.integer _ i.toInt (decimal_spec _) (by have := i.toInt_lt; have := i.le_toInt; omega)
    refine ⟨_, by rw [marshal], ?_⟩
    rw [unmarshalLike, unmarshalInt32, (hU.value _ _).2 (.num h1)]
    simp only [hU.int32 _ i (decimal_spec _)]
    rfl
  have hf32 : ∀ f q, number32 f = .fin q → ∃ t, marshal M (.f32 f) = pure t ∧
      unmarshalLike U X (.f32 f) t = pure (.f32 f) := by
    intro f q h1
    obtain ⟨t, d, r, g1, g2, g3, g4, g5⟩ := hM.float32 f q h1
    refine ⟨t, by rw [marshal, g1]; rfl, ?_⟩
    rw [unmarshalLike, unmarshalFloat32, (hU.value _ _).2 (.num g2)]
    simp only [hU.float32 _ _ g1]
    rfl
  have hbool : ∀ b, ∃ t, marshal M (.bool b) = pure t ∧ unmarshalLike U X (.bool b) t = pure (.bool b) := by
    intro b
    cases b
    · exact ⟨b!"false", by rw [marshal]; rfl, by rw [unmarshalLike, unmarshalBool, (hU.value _ _).2 .false]; rfl⟩
    · exact ⟨b!"true", by rw [marshal]; rfl, by rw [unmarshalLike, unmarshalBool, (hU.value _ _).2 .true]; rfl⟩
  have hbyte : ∀ b, ∃ t, marshal M (.byte b) = pure t ∧ unmarshalLike U X (.byte b) t = pure (.byte b) := by
    intro b
    refine ⟨_, by rw [marshal], ?_⟩
    rw [unmarshalLike, unmarshalByte, back_str hM hU (utf8_ascii _ (hexEncode_ascii _)), pure_bind,
      if_pos (by simp)]
    have : (b!"0x" ++ hexEncode [b]).drop 2 = hexEncode [b] := rfl
    rw [this, hexDecode_text (hexText_encode [b])]
    rfl
  have hvec2 : ∀ x y p q, number64 x = .fin p → number64 y = .fin q → ∃ t, marshal M (.vec2 x y) = pure t ∧
      unmarshalLike U X (.vec2 x y) t = pure (.vec2 x y) := by
    intro x y p q h1 h2
    obtain ⟨t, g1, g2⟩ := vec2_text hM h1 h2
    refine ⟨t, g1, ?_⟩
    rw [unmarshalLike, unmarshalVector2, unmarshalFields, (hU.value _ _).2 g2]
    rfl
  have hvec3 : ∀ x y z p q r, number64 x = .fin p → number64 y = .fin q → number64 z = .fin r →
      ∃ t, marshal M (.vec3 x y z) = pure t ∧ unmarshalLike U X (.vec3 x y z) t = pure (.vec3 x y z) := by
    intro x y z p q r h1 h2 h3
    obtain ⟨t, g1, g2⟩ := vec3_text hM h1 h2 h3
    refine ⟨t, g1, ?_⟩
    rw [unmarshalLike, unmarshalVector3, unmarshalFields, (hU.value _ _).2 g2]
    rfl
  have htime : ∀ t : BitVec 64, -2 ^ 63 ≤ t.toInt * 1000 → t.toInt * 1000 < 2 ^ 63 →
      ∃ s, marshal M (.time t) = pure s ∧ unmarshalLike U X (.time t) s = pure (.time t) := by
    intro t h1 h2
    obtain ⟨g1, g2, g3, g4⟩ := hM.time (t * 1000)
    refine ⟨_, by rw [marshal], ?_⟩
    have e : (t * 1000).toInt = t.toInt * 1000 := by
      rw [BitVec.toInt_mul, show (1000 : BitVec 64).toInt = 1000 by decide, Int.bmod_def]
      split <;> omega
    rw [unmarshalLike, unmarshalTime, back_str hM hU g2, pure_bind, g4, e, Int.mul_ediv_cancel _ (by decide),
      BitVec.ofInt_toInt]
    rfl
  cases h with
  | str h => exact hstr _ h
  | int32 => exact hint _
  | f32 h => exact hf32 _ _ h
  | bool => exact hbool _
  | byte => exact hbyte _
  | vec2 h1 h2 => exact hvec2 _ _ _ _ h1 h2
  | vec3 h1 h2 h3 => exact hvec3 _ _ _ _ _ _ h1 h2 h3
  | time h1 h2 => exact htime _ h1 h2
  | other h =>
    cases h with
    | str h => exact hstr _ h
    | int32 => exact hint _
    | f32 h => exact hf32 _ _ h
    | bool => exact hbool _
    | byte => exact hbyte _
    | vec2 h1 h2 => exact hvec2 _ _ _ _ h1 h2
    | vec3 h1 h2 h3 => exact hvec3 _ _ _ _ _ _ h1 h2 h3
    | time h1 h2 => exact htime _ h1 h2
    | block => exact absurd rfl (hp.1 _)
    | array => exact absurd rfl (hp.2.1 _ _)
    | binary => exact absurd rfl (hp.2.2 _ _)
    | bools => exact absurd rfl (hp.2.2 _ _)

/-- C58, for values JSON can carry (`Recoverable`): such a value is written as a text that its own type reads as that value. Missing:
the values of `C58_refused`, for which it is false, and those JSON cannot carry. -/
theorem C58_back_partial (hX : X.Lawful) (hM : M.Lawful X N) (hU : U.Lawful M N) {p : Property} (h : Recoverable X p) :
    ∃ t, marshal M p = pure t ∧ unmarshalLike U X p t = pure p := by
  by_cases hp : (∀ kvs, p ≠ .block kvs) ∧ (∀ c ps, p ≠ .array c ps) ∧ ∀ b d, p ≠ .raw b d
  · exact back_simple hM hU h hp
  · have hq : Portable X p := by
      cases h with
      | other h => exact h
      | _ => exact absurd ⟨by simp, by simp, by simp⟩ hp
    obtain ⟨t, j, h1, -, h3, h4, -⟩ := carried_of_portable hM hq
    have hv := (hU.value _ _).2 h3
    have hg := C43_kinds_partial hX h4
    refine ⟨t, h1, ?_⟩
    cases p with
    | block kvs =>
      cases h4 with
      | block => rw [unmarshalLike, unmarshalBlock, hv]; simp only [unmarshalMetadata, hg]; rfl
    | array c ps =>
      cases h4 with
      | array => rw [unmarshalLike, unmarshalArray, hv]; simp only [hg]; rfl
    | raw b d => rw [unmarshalLike, unmarshalRaw, hv]; simp only [hg]; rfl
    | _ => exact absurd ⟨by simp, by simp, by simp⟩ hp

open Classical in
/-- A reader for whatever is written: `UnmarshalExt.Lawful` asks for nothing that `MarshalExt.Lawful` excludes. -/
theorem exists_unmarshal (hM : M.Lawful X N) : ∃ U : UnmarshalExt, U.Lawful M N := by
  refine ⟨⟨fun b => if h : ∃ j, JText N b j then some h.choose else none,
    fun b => if h : ∃ i : BitVec 32, IsInteger b i.toInt then some h.choose else none,
    fun b => if h : ∃ f, M.float32 f = some b then some h.choose else none⟩, ⟨fun b j => ?_, fun t i ht => ?_, fun f t ht => ?_⟩⟩
  · constructor
    · intro h
      dsimp only at h
      split at h
      · rename_i h2
        rw [← Option.some.inj h]
        exact h2.choose_spec
      · simp at h
    · intro h
      have h2 : ∃ j, JText N b j := ⟨j, h⟩
      dsimp only
      rw [dif_pos h2, jtext_unique hM.numbers h2.choose_spec h]
  · have h2 : ∃ i : BitVec 32, IsInteger t i.toInt := ⟨i, ht⟩
    dsimp only
    rw [dif_pos h2, BitVec.eq_of_toInt_eq (isInteger_unique h2.choose_spec ht)]
  · have h2 : ∃ f, M.float32 f = some t := ⟨f, ht⟩
    dsimp only
    rw [dif_pos h2]
    have key : ∀ g, M.float32 g = some t → ∃ d, N t d ∧ X.float32 d = some g := by
      intro g hg
      by_cases hq : ∃ q, number32 g = .fin q
      · obtain ⟨q, hq⟩ := hq
        obtain ⟨t', d, r, g1, g2, -, g4, -⟩ := hM.float32 g q hq
        rw [hg] at g1
        cases g1
        exact ⟨d, g2, g4⟩
      · rw [hM.float32_none g fun q h => hq ⟨q, h⟩] at hg
        simp at hg
    obtain ⟨d, k1, k2⟩ := key _ h2.choose_spec
    obtain ⟨d', k3, k4⟩ := key f ht
    rw [hM.number_unique _ _ _ k1 k3, k4] at k2
    exact k2.symm

/-- A text with characters that need escaping, the float32 1 (which `getProperties` takes for an integer), and a block. -/
example : ∃ U : UnmarshalExt, U.Lawful sampleMarshal sampleNumber ∧ Recoverable sampleReader (.str [34, 92, 10]) ∧
    Recoverable sampleReader (.f32 0x3F800000) ∧ Recoverable sampleReader (.block portableBlock) := by
  obtain ⟨U, hU⟩ := exists_unmarshal sampleMarshal_lawful
  exact ⟨U, hU, .str (utf8_ascii _ (by decide)), .f32 (q := 1) (by decide +kernel), .other portableBlock_portable⟩

/-- C58: a value of another kind, null excepted, is an error. -/
theorem C58_other_kind (hU : U.Lawful M N) {p : Property} (hp : p ≠ .nil) {b : Bytes} {j : JVal} (h : JText N b j)
    (hj : j ≠ .null) (hs : ¬ Suits p j) : ∃ n, unmarshalLike U X p b = GoE.fail n := by
  have hv := (hU.value _ _).2 h
  cases p <;> cases j <;> simp only [Suits, not_true_eq_false] at hs <;>
    first
    | exact absurd rfl hp
    | exact absurd rfl hj
    | exact ⟨_, by simp only [unmarshalLike, unmarshalByte, unmarshalTime, decodeString, hv]; rfl⟩
    | exact ⟨_, by simp only [unmarshalLike, unmarshalInt32, hv]; rfl⟩
    | exact ⟨_, by simp only [unmarshalLike, unmarshalFloat32, hv]; rfl⟩
    | exact ⟨_, by simp only [unmarshalLike, unmarshalBool, hv]; rfl⟩
    | exact ⟨_, by simp only [unmarshalLike, unmarshalVector2, unmarshalVector3, unmarshalFields, hv]; rfl⟩
    | exact ⟨_, by simp only [unmarshalLike, unmarshalBlock, hv]; rfl⟩
    | exact ⟨_, by simp only [unmarshalLike, unmarshalArray, hv]; rfl⟩

/-- The text `true` for an int32. -/
example : JText sampleNumber b!"true" (.bool true) ∧ ¬ Suits (.int32 7) (.bool true) := ⟨.true, by simp [Suits]⟩

/-- C58: what null becomes: zero, an empty text, false, an empty block; an error for times and raw arrays. -/
theorem C58_null (hU : U.Lawful M N) (hX : X.parseTime [] = none) : 
    (∀ s, unmarshalLike U X (.str s) b!"null" = pure (.str [])) ∧
    (∀ i, unmarshalLike U X (.int32 i) b!"null" = pure (.int32 0)) ∧
    (∀ f, unmarshalLike U X (.f32 f) b!"null" = pure (.f32 0)) ∧
    (∀ x, unmarshalLike U X (.bool x) b!"null" = pure (.bool false)) ∧
    (∀ x y, unmarshalLike U X (.vec2 x y) b!"null" = pure (.vec2 0 0)) ∧
    (∀ x y z, unmarshalLike U X (.vec3 x y z) b!"null" = pure (.vec3 0 0 0)) ∧
    (∀ kvs, unmarshalLike U X (.block kvs) b!"null" = pure (.block [])) ∧
    (∀ t, ∃ n, unmarshalLike U X (.time t) b!"null" = GoE.fail n) ∧
    (∀ c d, ∃ n, unmarshalLike U X (.raw c d) b!"null" = GoE.fail n) := by
  have hv := (hU.value _ _).2 .null
  refine ⟨fun _ => ?_, fun _ => ?_, fun _ => ?_, fun _ => ?_, fun _ _ => ?_, fun _ _ _ => ?_, fun _ => ?_, fun _ => ⟨50, ?_⟩,
    fun _ _ => ⟨53, ?_⟩⟩
  · simp only [unmarshalLike, decodeString, hv]; rfl
  · simp only [unmarshalLike, unmarshalInt32, hv]; rfl
  · simp only [unmarshalLike, unmarshalFloat32, hv]; rfl
  · simp only [unmarshalLike, unmarshalBool, hv]; rfl
  · simp only [unmarshalLike, unmarshalVector2, unmarshalFields, hv]; rfl
  · simp only [unmarshalLike, unmarshalVector3, unmarshalFields, hv]; rfl
  · simp only [unmarshalLike, unmarshalBlock, hv, unmarshalMetadata, getProperties, mapGet, getMembers]; rfl
  · simp only [unmarshalLike, unmarshalTime, decodeString, hv, pure_bind, hX]; rfl
  · simp only [unmarshalLike, unmarshalRaw, hv, getProperties]; rfl

example : sampleReader.parseTime [] = none := by decide

/-- C58 fails for bytes: null, an empty text and a bare `0x` make the reader panic, and nothing else does. -/
theorem C58_byte_panics (hU : U.Lawful M N) (b : Bytes) (c : UInt8) :
    unmarshalLike U X (.byte c) b = GoE.panic .indexOutOfRange ↔
      JText N b .null ∨ JText N b (.str []) ∨ JText N b (.str b!"0x") := by
  rw [← hU.value, ← hU.value, ← hU.value]
  constructor
  · intro h
    rw [unmarshalLike, unmarshalByte, decodeString] at h
    split at h
    · rename_i s hv
      rw [pure_bind] at h
      cases hd : hexDecode (if b!"0x" <+: s then s.drop 2 else s) with
      | none => rw [hd] at h; cases h
      | some bs =>
        rw [hd] at h
        cases bs with
        | cons a as => cases h
        | nil =>
          have h1 := hexText_length (hexText_decode _ _ hd)
          rw [List.length_nil, Nat.mul_zero, List.length_eq_zero_iff] at h1
          right
          rw [hv]
          split at h1
          · rename_i hp
            obtain ⟨r, rfl⟩ := hp
            right
            have : r = [] := by simpa using h1
            rw [this]; rfl
          · left; rw [h1]
    · rename_i hv
      exact .inl hv
    · cases h
  · rintro (h | h | h) <;> simp only [unmarshalLike, unmarshalByte, decodeString, h, pure_bind] <;> rfl

/-- C58: otherwise a text of hexadecimal digits, with or without `0x`, is read as its first byte; further bytes are ignored. -/
theorem C58_byte (hU : U.Lawful M N) {b s bytes : Bytes} {d : UInt8} (c : UInt8) (h : JText N b (.str s))
    (hs : HexText s (d :: bytes) ∨ ∃ r, s = b!"0x" ++ r ∧ HexText r (d :: bytes)) :
    unmarshalLike U X (.byte c) b = pure (.byte d) := by
  have hv := (hU.value _ _).2 h
  rw [unmarshalLike, unmarshalByte, decodeString, hv]
  dsimp only
  rw [pure_bind]
  rcases hs with hs | ⟨r, rfl, hs⟩
  · have hn : ¬ b!"0x" <+: s := by
      cases hs with
      | cons h1 h2 h3 =>
        rintro ⟨r, hr⟩
        have hb := congrArg (fun l => l[1]?) hr
        simp only [List.cons_append, List.getElem?_cons_succ, List.getElem?_cons_zero, Option.some.injEq] at hb
        rw [← hb] at h2
        rcases h2 with h2 | h2
        · exact absurd (List.mem_of_getElem? h2) (by decide)
        · exact absurd (List.mem_of_getElem? h2) (by decide)
    rw [if_neg hn, hexDecode_text hs]
    rfl
  · rw [if_pos (by simp), show (b!"0x" ++ r).drop 2 = r from rfl, hexDecode_text hs]
    rfl

/-- `0x1fff` is the byte 31. -/
example : HexText b!"1fff" [31, 255] ∧ ∃ b, JText sampleNumber b (.str (b!"0x" ++ b!"1fff")) :=
  ⟨hexText_decode _ _ (by decide), _, str_text sampleMarshal_lawful (utf8_ascii _ (by decide))⟩

/-- C58 fails for arrays: null and an empty array make the reader panic. -/
theorem C58_array_panics (hU : U.Lawful M N) (c : UInt8) (ps : List Property) {b : Bytes}
    (h : JText N b .null ∨ JText N b (.arr [])) : unmarshalLike U X (.array c ps) b = GoE.panic .indexOutOfRange := by
  rw [← hU.value, ← hU.value] at h
  rcases h with h | h <;> simp only [unmarshalLike, unmarshalArray, h, C43_empty_array] <;> rfl

/-- `[]` -/
example : JText sampleNumber b!"[]" (.arr []) := .arr0 (w := []) (by simp [Blank])

/-- C58 fails for arrays of booleans and raw arrays of one byte: they are written, but their text is refused. -/
theorem C58_refused (hX : X.Lawful) (hM : M.Lawful X N) (hU : U.Lawful M N) :
    (∀ x : Bool, ∃ t n, marshal M (.array 3 [.bool x]) = pure t ∧ unmarshalLike U X (.array 3 [.bool x]) t = GoE.fail n) ∧
    (∀ c : UInt8, ∃ t n, marshal M (.newBinaryArray [c]) = pure t ∧
      unmarshalLike U X (.newBinaryArray [c]) t = GoE.fail n) := by
  constructor
  · intro x
    have h := array_text (N := N) (ts := [boolText x]) (js := [.bool x]) (bools_text [x])
    refine ⟨[91] ++ commas [boolText x] ++ [93], 51, ?_, ?_⟩
    · have : boolText x ≠ [] := by cases x <;> decide
      simp only [marshal, marshalItems, nested_pure this, pure_bind]
    · simp only [unmarshalLike, unmarshalArray, (hU.value _ _).2 h, getProperties, List.map_nil]
      rfl
  · intro c
    refine ⟨_, 53, by rw [C55_one_byte, marshal], ?_⟩
    have hv := (hU.value _ _).2 (str_text (N := N) hM (utf8_ascii _ (hexEncode_ascii [c])))
    have hg : getProperties X (.str (b!"0x" ++ hexEncode [c])) = pure (.byte c) := by
      exact C43_kinds_partial hX (.byte (hexText_encode [c]))
    have : Property.newBinaryArray [c] = .raw 5 (bytesArrayToBytes [c]) := rfl
    rw [this, unmarshalLike, unmarshalRaw, hv]
    simp only [hg]
    rfl

/-- The hypotheses hold of sample readers and writers. -/
example : ∃ U : UnmarshalExt, U.Lawful sampleMarshal sampleNumber ∧ sampleReader.Lawful ∧
    sampleMarshal.Lawful sampleReader sampleNumber :=
  let ⟨U, hU⟩ := exists_unmarshal sampleMarshal_lawful
  ⟨U, hU, sampleReader_lawful, sampleMarshal_lawful⟩

/-- `LastOf` after a value has been set. -/
def LastFrom (names : List Bytes) (d : List (Bytes × JVal)) (x0 x : F64) : Prop :=
  (∃ pre k post, d = pre ++ (k, .num x) :: post ∧ k ∈ names ∧ ∀ m ∈ post, m.1 ∈ names → m.2 = .null) ∨
    (x = x0 ∧ ∀ m ∈ d, m.1 ∈ names → m.2 = .null)

theorem lastFrom_num {names : List Bytes} {k : Bytes} {f : F64} {rest : List (Bytes × JVal)} {x0 x : F64} (hk : k ∈ names) :
    LastFrom names ((k, .num f) :: rest) x0 x ↔ LastFrom names rest f x := by
  constructor
  · rintro (⟨pre, k', post, h1, h2, h3⟩ | ⟨-, h⟩)
    · cases pre with
      | nil =>
        simp only [List.nil_append, List.cons.injEq, Prod.mk.injEq, JVal.num.injEq] at h1
        obtain ⟨⟨-, rfl⟩, rfl⟩ := h1
        exact .inr ⟨rfl, h3⟩
      | cons a pre =>
        simp only [List.cons_append, List.cons.injEq] at h1
        exact .inl ⟨pre, k', post, h1.2, h2, h3⟩
    · have := h (k, .num f) (by simp) hk
      simp at this
  · rintro (⟨pre, k', post, rfl, h2, h3⟩ | ⟨rfl, h⟩)
    · exact .inl ⟨(k, .num f) :: pre, k', post, rfl, h2, h3⟩
    · exact .inl ⟨[], k, rest, rfl, hk, h⟩

theorem lastFrom_skip {names : List Bytes} {k : Bytes} {j : JVal} {rest : List (Bytes × JVal)} {x0 x : F64}
    (hk : k ∈ names → j = .null) : LastFrom names ((k, j) :: rest) x0 x ↔ LastFrom names rest x0 x := by
  constructor
  · rintro (⟨pre, k', post, h1, h2, h3⟩ | ⟨rfl, h⟩)
    · cases pre with
      | nil =>
        simp only [List.nil_append, List.cons.injEq, Prod.mk.injEq] at h1
        obtain ⟨⟨rfl, rfl⟩, rfl⟩ := h1
        have := hk h2
        simp at this
      | cons a pre =>
        simp only [List.cons_append, List.cons.injEq] at h1
        exact .inl ⟨pre, k', post, h1.2, h2, h3⟩
    · exact .inr ⟨rfl, fun m hm => h m (by simp [hm])⟩
  · rintro (⟨pre, k', post, rfl, h2, h3⟩ | ⟨rfl, h⟩)
    · exact .inl ⟨(k, j) :: pre, k', post, rfl, h2, h3⟩
    · refine .inr ⟨rfl, fun m hm hn => ?_⟩
      rcases List.mem_cons.1 hm with rfl | hm
      · exact hk hn
      · exact h m hm hn

theorem isField_iff (l u : UInt8) (k : Bytes) : isField l u k = true ↔ k ∈ [[l], [u]] := by
  simp only [isField, Bool.or_eq_true, beq_iff_eq, List.mem_cons, List.not_mem_nil, or_false]

theorem setFloat_pure {j : JVal} {x0 : F64} (h : j = .null ∨ ∃ f, j = .num f) :
    (∃ f, j = .num f ∧ setFloat j x0 = pure f) ∨ (j = .null ∧ setFloat j x0 = pure x0) := by
  rcases h with rfl | ⟨f, rfl⟩
  · exact .inr ⟨rfl, rfl⟩
  · exact .inl ⟨f, rfl, rfl⟩

theorem setFloat_fail {j : JVal} {x0 : F64} (h : ¬ (j = .null ∨ ∃ f, j = .num f)) : setFloat j x0 = GoE.fail 47 := by
  cases j <;> first | rfl | exact absurd (by simp) h

def fieldNames (three : Bool) : List Bytes := [[120], [88], [121], [89]] ++ if three then [[122], [90]] else []

theorem setFields_iff (d : List (Bytes × JVal)) (x0 y0 z0 x y z : F64) (three : Bool) :
    setFields d (x0, y0, z0) three = pure (x, y, z) ↔ LastFrom [[120], [88]] d x0 x ∧ LastFrom [[121], [89]] d y0 y ∧
      LastFrom (if three then [[122], [90]] else []) d z0 z ∧
      ∀ m ∈ d, m.1 ∈ fieldNames three → m.2 = .null ∨ ∃ f, m.2 = .num f := by
  induction d generalizing x0 y0 z0 with
  | nil =>
    rw [setFields, GoE.pure_inj]
    have key : ∀ (names : List Bytes) (a b : F64), LastFrom names [] a b ↔ a = b := by
      intro names a b
      constructor
      · rintro (⟨pre, k, post, h, -⟩ | ⟨h, -⟩)
        · exact absurd (congrArg List.length h) (by simp)
        · exact h.symm
      · rintro rfl
        exact .inr ⟨rfl, fun m hm => absurd hm List.not_mem_nil⟩
    simp only [key, Prod.mk.injEq, List.not_mem_nil, false_imp_iff, implies_true, and_true]
  | cons m rest ih =>
    obtain ⟨k, j⟩ := m
    have hrest : (∀ m ∈ (k, j) :: rest, m.1 ∈ fieldNames three → m.2 = .null ∨ ∃ f, m.2 = .num f) ↔
        (k ∈ fieldNames three → j = .null ∨ ∃ f, j = .num f) ∧
          ∀ m ∈ rest, m.1 ∈ fieldNames three → m.2 = .null ∨ ∃ f, m.2 = .num f := by
      simp only [List.mem_cons, forall_eq_or_imp]
    rw [hrest]
    by_cases hx : k ∈ ([[120], [88]] : List Bytes)
    · have hy : k ∉ ([[121], [89]] : List Bytes) := by rcases hx with _ | ⟨_, _ | ⟨_, ⟨⟩⟩⟩ <;> decide
      have hz : k ∉ (if three then [[122], [90]] else [] : List Bytes) := by
        rcases hx with _ | ⟨_, _ | ⟨_, ⟨⟩⟩⟩ <;> cases three <;> decide
      have ha : k ∈ fieldNames three := by rcases hx with _ | ⟨_, _ | ⟨_, ⟨⟩⟩⟩ <;> cases three <;> decide
      rw [setFields, if_pos ((isField_iff _ _ _).2 hx), lastFrom_skip (fun h => absurd h hy), lastFrom_skip (fun h => absurd h hz)]
      by_cases hj : j = .null ∨ ∃ f, j = .num f
      · rcases setFloat_pure (x0 := x0) hj with ⟨f, rfl, h⟩ | ⟨rfl, h⟩
        · rw [h, pure_bind, ih, lastFrom_num hx]; simp
        · rw [h, pure_bind, ih, lastFrom_skip (fun _ => rfl)]; simp
      · rw [setFloat_fail hj]
        exact ⟨fun h => (by cases h), fun h => absurd (h.2.2.2.1 ha) hj⟩
    by_cases hy : k ∈ ([[121], [89]] : List Bytes)
    · have hz : k ∉ (if three then [[122], [90]] else [] : List Bytes) := by
        rcases hy with _ | ⟨_, _ | ⟨_, ⟨⟩⟩⟩ <;> cases three <;> decide
      have ha : k ∈ fieldNames three := by rcases hy with _ | ⟨_, _ | ⟨_, ⟨⟩⟩⟩ <;> cases three <;> decide
      rw [setFields, if_neg (fun h => hx ((isField_iff _ _ _).1 h)), if_pos ((isField_iff _ _ _).2 hy),
        lastFrom_skip (fun h => absurd h hx), lastFrom_skip (names := if three then _ else _) (fun h => absurd h hz)]
      by_cases hj : j = .null ∨ ∃ f, j = .num f
      · rcases setFloat_pure (x0 := y0) hj with ⟨f, rfl, h⟩ | ⟨rfl, h⟩
        · rw [h, pure_bind, ih, lastFrom_num hy]; simp
        · rw [h, pure_bind, ih, lastFrom_skip (fun _ => rfl)]; simp
      · rw [setFloat_fail hj]
        exact ⟨fun h => (by cases h), fun h => absurd (h.2.2.2.1 ha) hj⟩
    by_cases hz : k ∈ (if three then [[122], [90]] else [] : List Bytes)
    · cases three with
      | false => cases hz
      | true =>
        have ha : k ∈ fieldNames true := by rcases hz with _ | ⟨_, _ | ⟨_, ⟨⟩⟩⟩ <;> decide
        rw [setFields, if_neg (fun h => hx ((isField_iff _ _ _).1 h)), if_neg (fun h => hy ((isField_iff _ _ _).1 h)),
          if_pos (by rw [Bool.true_and]; exact (isField_iff _ _ _).2 hz),
          lastFrom_skip (fun h => absurd h hx), lastFrom_skip (fun h => absurd h hy)]
        by_cases hj : j = .null ∨ ∃ f, j = .num f
        · rcases setFloat_pure (x0 := z0) hj with ⟨f, rfl, h⟩ | ⟨rfl, h⟩
          · rw [h, pure_bind, ih, lastFrom_num hz]; simp
          · rw [h, pure_bind, ih, lastFrom_skip (names := if true then _ else _) (fun _ => rfl)]; simp
        · rw [setFloat_fail hj]
          exact ⟨fun h => (by cases h), fun h => absurd (h.2.2.2.1 ha) hj⟩
    · have ha : k ∉ fieldNames three := by
        intro h
        rcases List.mem_append.1 h with h | h
        · rcases List.mem_append.1 (show k ∈ [[120], [88]] ++ [[121], [89]] from h) with h | h
          · exact hx h
          · exact hy h
        · exact hz h
      have hz' : ¬ (three && isField 122 90 k) = true := by
        intro h
        rw [Bool.and_eq_true] at h
        rw [h.1, if_pos rfl] at hz
        exact hz ((isField_iff _ _ _).1 h.2)
      rw [setFields, if_neg (fun h => hx ((isField_iff _ _ _).1 h)), if_neg (fun h => hy ((isField_iff _ _ _).1 h)),
        if_neg hz', ih, lastFrom_skip (fun h => absurd h hx), lastFrom_skip (fun h => absurd h hy),
        lastFrom_skip (names := if three then _ else _) (fun h => absurd h hz)]
      simp only [ha, false_imp_iff, true_and]

/-- C58: a vector is read from any object whose members x, y (and z), in either case, are numbers or null: the last number counts,
other members do not matter, and a coordinate that is missing is 0. -/
theorem C58_vector (hU : U.Lawful M N) {b : Bytes} {d : List (Bytes × JVal)} (h : JText N b (.obj d)) (v : Property)
    (x0 y0 z0 : F64) :
    (unmarshalLike U X (.vec2 x0 y0) b = pure v ↔ ∃ x y, v = .vec2 x y ∧ LastOf [b!"x", b!"X"] d x ∧
      LastOf [b!"y", b!"Y"] d y ∧ ∀ m ∈ d, m.1 ∈ [b!"x", b!"X", b!"y", b!"Y"] → m.2 = .null ∨ ∃ f, m.2 = .num f) ∧
    (unmarshalLike U X (.vec3 x0 y0 z0) b = pure v ↔ ∃ x y z, v = .vec3 x y z ∧ LastOf [b!"x", b!"X"] d x ∧
      LastOf [b!"y", b!"Y"] d y ∧ LastOf [b!"z", b!"Z"] d z ∧
      ∀ m ∈ d, m.1 ∈ [b!"x", b!"X", b!"y", b!"Y", b!"z", b!"Z"] → m.2 = .null ∨ ∃ f, m.2 = .num f) := by
  have hv := (hU.value _ _).2 h
  have e : ∀ names x, LastOf names d x ↔ LastFrom names d 0 x := fun _ _ => Iff.rfl
  simp only [e]
  constructor
  · rw [unmarshalLike, unmarshalVector2, unmarshalFields, hv]
    dsimp only
    constructor
    · intro g
      obtain ⟨⟨x, y⟩, g1, g2⟩ := GoE.bind_pure_iff.1 g
      obtain ⟨⟨x', y', z'⟩, g3, g4⟩ := GoE.bind_pure_iff.1 g1
      obtain ⟨h1, h2, -, h4⟩ := (setFields_iff _ _ _ _ _ _ _ _).1 g3
      cases GoE.pure_inj.1 g4
      exact ⟨_, _, (GoE.pure_inj.1 g2).symm, h1, h2, h4⟩
    · rintro ⟨x, y, rfl, h1, h2, h4⟩
      rw [(setFields_iff d 0 0 0 x y 0 false).2 ⟨h1, h2, .inr ⟨rfl, fun m _ hm => by cases hm⟩, h4⟩]
      rfl
  · rw [unmarshalLike, unmarshalVector3, unmarshalFields, hv]
    dsimp only
    constructor
    · intro g
      obtain ⟨⟨x, y, z⟩, g1, g2⟩ := GoE.bind_pure_iff.1 g
      obtain ⟨h1, h2, h3, h4⟩ := (setFields_iff _ _ _ _ _ _ _ _).1 g1
      exact ⟨_, _, _, (GoE.pure_inj.1 g2).symm, h1, h2, h3, h4⟩
    · rintro ⟨x, y, z, rfl, h1, h2, h3, h4⟩
      rw [(setFields_iff d 0 0 0 x y z true).2 ⟨h1, h2, h3, h4⟩]
      rfl

/-- `{"Y": y, "x": 1, "X": null}`, for instance: the coordinates are 1 and y. -/
example (f y : F64) : LastOf [b!"x", b!"X"] [(b!"Y", .num y), (b!"x", .num f), (b!"X", .null), (b!"w", .bool true)] f :=
  .inl ⟨[(b!"Y", .num y)], b!"x", [(b!"X", .null), (b!"w", .bool true)], rfl, by decide, by simp⟩

end Rap
