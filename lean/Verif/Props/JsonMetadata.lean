import Verif.Proof.Json

/-!
# C43: JSON values become metadata by fixed rules (format/metadata/utils.go)
-/

namespace Rap

section Rules

variable {X : JsonExt}

theorem number_int {d : F64} {i : Int} (h : number64 d = .fin i) (h1 : -2 ^ 31 ≤ i) (h2 : i < 2 ^ 31) :
    numberProperty X d = pure (.int32 (BitVec.ofInt 32 i)) := by
  have e := toInt64_int h (by omega) (by omega)
  rw [numberProperty, if_pos (integral_true h (by omega) (by omega)), e, if_pos ⟨h1, h2⟩]

theorem number_float {d : F64} {q : Rat} {f : F32} (h : number64 d = .fin q) (hq : ∀ i : Int, q ≠ i)
    (hf : X.float32 d = some f) : numberProperty X d = pure (.f32 f) := by
  rw [numberProperty, integral_false h hq, if_neg (by simp), hf]; rfl

theorem prefix_0x (t : Bytes) : b!"0x" <+: b!"0x" ++ t := ⟨t, rfl⟩

theorem string_byte {text : Bytes} {b : UInt8} (h : HexText text [b]) :
    stringProperty X (b!"0x" ++ text) = pure (.byte b) := by
  have hl := hexText_length h
  have hp : PlainText (b!"0x" ++ text) := by
    intro c hc
    rcases List.mem_append.1 hc with hc | hc
    · exact (by decide : ∀ c ∈ b!"0x", 32 ≤ c ∧ c ≠ 34 ∧ c ≠ 92) c hc
    · exact hexText_plain h c hc
  rw [stringProperty, if_pos ⟨prefix_0x _, by simp only [List.length_append, hl]; rfl⟩, requote_plain hp]
  simp only [GoE.get, pure_bind]
  rw [if_pos (prefix_0x _)]
  have : (b!"0x" ++ text).drop 2 = text := rfl
  rw [this, hexDecode_text h]
  rfl

theorem string_binary {text bytes : Bytes} (h : HexText text bytes) (hn : bytes.length ≠ 1) :
    stringProperty X (b!"0x" ++ text) = pure (.newBinaryArray bytes) := by
  have hl := hexText_length h
  rw [stringProperty, if_neg, if_pos (prefix_0x _)]
  · have : (b!"0x" ++ text).drop 2 = text := rfl
    rw [this, hexDecode_text h]; rfl
  · rintro ⟨-, h4⟩
    simp only [List.length_append, hl, List.length_cons, List.length_nil] at h4
    omega

theorem string_time (hX : X.Lawful) {s : Bytes} {t : BitVec 64} (h : ¬ b!"0x" <+: s) (ht : X.parseTime s = some t) :
    stringProperty X s = pure (.time t) := by
  rw [stringProperty, if_neg (fun h' => h h'.1), if_neg h, if_pos (by rw [ht]; rfl),
    requote_plain (hX.time_plain s t ht)]
  simp only [GoE.get, pure_bind, ht]

theorem string_text {s : Bytes} (h : ¬ b!"0x" <+: s) (ht : X.parseTime s = none) (hs : PlainText s) :
    stringProperty X s = pure (.str s) := by
  rw [stringProperty, if_neg (fun h' => h h'.1), if_neg h, if_neg (by rw [ht]; simp), requote_plain hs]
  rfl

theorem getItems_eq : (l : List JVal) → getItems X l = GoE.each (getProperties X) l
  | [] => by rw [getItems, GoE.each]
  | v :: rest => by rw [getItems, GoE.each, getItems_eq rest]

theorem getMembers_pure : (d : List (Bytes × JVal)) → (kvs : Block) → d.map (·.1) = kvs.map (·.1) →
    List.Forall₂ (fun v p => getProperties X v = pure p) (d.map (·.2)) (kvs.map (·.2)) → getMembers X d = pure kvs
  | [], kvs, hk, _ => by
    cases kvs with
    | nil => rw [getMembers]
    | cons _ _ => simp at hk
  | (k, v) :: rest, kvs, hk, h => by
    cases kvs with
    | nil => simp at hk
    | cons kv kvs =>
      obtain ⟨k', p⟩ := kv
      simp only [List.map_cons, List.cons.injEq] at hk
      obtain ⟨rfl, hk⟩ := hk
      simp only [List.map_cons, List.forall₂_cons] at h
      rw [getMembers, h.1, pure_bind, getMembers_pure rest kvs hk h.2, pure_bind]

theorem nodup_perm_length {α : Type} {l l' : List α} (hl : l.length = l'.length) (hs : ∀ a ∈ l', a ∈ l)
    (h' : l'.Nodup) : l.Perm l' :=
  ((h'.subperm hs).perm_of_length_le hl.le).symm

/-- A pair of keys in an object. -/
theorem mem_keys_of_get {d : List (Bytes × JVal)} {k : Bytes} {v : JVal} (h : mapGet d k = some v) : k ∈ d.map (·.1) :=
  List.mem_map.2 ⟨_, mem_of_mapGet h, rfl⟩

theorem object_block {d : List (Bytes × JVal)} {kvs : Block} (hd : (d.map (·.1)).Nodup)
    (h2 : ¬ (d.map (·.1)).Perm [b!"x", b!"y"]) (h3 : ¬ (d.map (·.1)).Perm [b!"x", b!"y", b!"z"])
    (h : getMembers X d = pure kvs) : getProperties X (.obj d) = pure (.block kvs) := by
  rw [getProperties]
  split
  · next x y hx hy =>
    rw [if_neg]
    · split
      · next z' hz =>
        rw [if_neg]
        · rw [h]; rfl
        · intro hl
          refine h3 (nodup_perm_length (by simpa using hl) ?_ (by decide))
          intro a ha
          simp only [List.mem_cons, List.not_mem_nil, or_false] at ha
          rcases ha with rfl | rfl | rfl
          · exact mem_keys_of_get hx
          · exact mem_keys_of_get hy
          · exact mem_keys_of_get hz
      · rw [h]; rfl
    · intro hl
      refine h2 (nodup_perm_length (by simpa using hl) ?_ (by decide))
      intro a ha
      simp only [List.mem_cons, List.not_mem_nil, or_false] at ha
      rcases ha with rfl | rfl
      · exact mem_keys_of_get hx
      · exact mem_keys_of_get hy
  · rw [h]; rfl

theorem object_vec2 {d : List (Bytes × JVal)} {x y : F64} (h : d.Perm [(b!"x", .num x), (b!"y", .num y)]) :
    getProperties X (.obj d) = pure (.vec2 x y) := by
  have hd : (d.map (·.1)).Nodup := (h.map (·.1)).nodup_iff.2 (by simp)
  have hx : mapGet d b!"x" = some (.num x) := mapGet_of_mem hd (h.mem_iff.2 (by simp))
  have hy : mapGet d b!"y" = some (.num y) := mapGet_of_mem hd (h.mem_iff.2 (by simp))
  rw [getProperties, hx, hy]
  dsimp only
  have hl : d.length = 2 := h.length_eq
  rw [if_pos hl]
  rfl

theorem object_vec3 {d : List (Bytes × JVal)} {x y z : F64}
    (h : d.Perm [(b!"x", .num x), (b!"y", .num y), (b!"z", .num z)]) :
    getProperties X (.obj d) = pure (.vec3 x y z) := by
  have hd : (d.map (·.1)).Nodup := (h.map (·.1)).nodup_iff.2 (by simp)
  have hx : mapGet d b!"x" = some (.num x) := mapGet_of_mem hd (h.mem_iff.2 (by simp))
  have hy : mapGet d b!"y" = some (.num y) := mapGet_of_mem hd (h.mem_iff.2 (by simp))
  have hz : mapGet d b!"z" = some (.num z) := mapGet_of_mem hd (h.mem_iff.2 (by simp))
  have hl : d.length = 3 := h.length_eq
  rw [getProperties, hx, hy, hz]
  dsimp only
  rw [if_neg (by omega), if_pos hl]
  rfl

theorem array_bools {bs : List Bool} (h : bs ≠ []) :
    getProperties X (.arr (bs.map .bool)) = pure (.newBoolArray bs) := by
  cases bs with
  | nil => exact absurd rfl h
  | cons b rest =>
    rw [getProperties.eq_def]
    have : (rest.map JVal.bool).map itemBool = rest := by
      rw [List.map_map]; exact List.map_id' rest
    simp only [List.map_cons, this]

theorem array_items {items : List JVal} {props : List Property} {c : UInt8} (hne : items ≠ [])
    (hb : ∀ b, .bool b ∉ items) (h : List.Forall₂ (fun v p => getProperties X v = pure p) items props)
    (hc : ∀ p ∈ props, p.code = .ok c) : getProperties X (.arr items) = pure (.array c props) := by
  cases h with
  | nil => exact absurd rfl hne
  | @cons first p rest ps h1 h2 =>
    rw [getProperties.eq_def]
    dsimp only
    have h3 : getItems X rest = pure ps := by rw [getItems_eq]; exact (GoE.each_pure rest).2 h2
    cases first with
    | bool b => exact absurd List.mem_cons_self (hb b)
    | _ => simp only [h1, h3, pure_bind, hc p List.mem_cons_self]; rfl

end Rules

/-- C43: every JSON value with a metadata meaning is turned into it: integral numbers in the range of int32 into an
int32, other numbers into a float32, RFC 3339 texts into times, hexadecimal texts into bytes, objects of x and y (and z)
into vectors, other objects into blocks, arrays of one kind into arrays of that kind. -/
theorem C43_kinds_partial {X : JsonExt} (hX : X.Lawful) {j : JVal} {p : Property} (h : Means X j p) :
    getProperties X j = pure p := by
  refine Means.rec (motive_1 := fun j p _ => getProperties X j = pure p)
    (motive_2 := fun l ps _ => List.Forall₂ (fun v p => getProperties X v = pure p) l ps)
    ?int ?float ?bool ?byte ?binary ?time ?text ?vec2 ?vec3 ?block ?bools ?array .nil (fun _ _ h1 h2 => .cons h1 h2) h
  case int => intro d i h h1 h2; rw [getProperties]; exact number_int h h1 h2
  case float => intro d q f h hq hf; rw [getProperties]; exact number_float h hq hf
  case bool => intro b; rw [getProperties]
  case byte => intro text b h; rw [getProperties]; exact string_byte h
  case binary => intro text bytes h hn; rw [getProperties]; exact string_binary h hn
  case time => intro s t h ht; rw [getProperties]; exact string_time hX h ht
  case text => intro s h ht hs; rw [getProperties]; exact string_text h ht hs
  case vec2 => intro d x y h; exact object_vec2 h
  case vec3 => intro d x y z h; exact object_vec3 h
  case block => intro d kvs hd h2 h3 hk _ ih; exact object_block hd h2 h3 (getMembers_pure _ _ hk ih)
  case bools => intro bs h; exact array_bools h
  case array => intro items props c hne hb _ hc ih; exact array_items hne hb ih hc

/-- A sample of the external functions: one known time, rounding to float32, integers up to 2^53. -/
def sampleJson : JsonExt where
  parseTime s := if s = b!"1970-01-01T00:00:01Z" then some 1000000 else none
  float32 d := some (narrow d)
  atoi d := if FP.eq b64 d.fp (F64.ofInt (toInt64 d)).fp ∧ (toInt64 d).natAbs ≤ 2 ^ 53 then some (toInt64 d) else none

theorem sampleJson_lawful : sampleJson.Lawful where
  time_plain s t h := by
    simp only [sampleJson, Option.ite_none_right_eq_some] at h
    rw [h.1]; decide
  atoi_exact d i h hi := by
    have e := toInt64_int h (by omega) (by omega)
    have h1 := integral_true h (by omega) (by omega)
    simp only [sampleJson]
    rw [if_pos ⟨h1, by rw [e]; exact hi⟩, e]
  atoi_only d i h hi := by
    simp only [sampleJson, Option.ite_none_right_eq_some, Option.some.injEq] at h
    obtain ⟨⟨h1, h2⟩, rfl⟩ := h
    rw [eq_number64, ofInt_integral _ h2] at h1
    exact h1.1
  atoi_range d i h := by
    simp only [sampleJson, Option.ite_none_right_eq_some, Option.some.injEq] at h
    obtain ⟨⟨-, h2⟩, rfl⟩ := h
    omega

/-- `{"n": -7, "f": [0.5, 0.25], "p": {"y": 2, "x": 1}, "b": "0x1f", "t": "1970-01-01T00:00:01Z", "l": [true, false]}` -/
def sampleObject : List (Bytes × JVal) :=
  [(b!"n", .num 0xC01C000000000000), (b!"f", .arr [.num 0x3FE0000000000000, .num 0x3FD0000000000000]),
   (b!"p", .obj [(b!"y", .num 0x4000000000000000), (b!"x", .num 0x3FF0000000000000)]), (b!"b", .str b!"0x1f"),
   (b!"t", .str b!"1970-01-01T00:00:01Z"), (b!"l", .arr [.bool true, .bool false])]

/-- Its metadata. -/
def sampleBlock : Block :=
  [(b!"n", .newInt (-7)), (b!"f", .newFloat32Array [0x3F000000, 0x3E800000]),
   (b!"p", .vec2 0x3FF0000000000000 0x4000000000000000), (b!"b", .byte 31), (b!"t", .time 1000000),
   (b!"l", .newBoolArray [true, false])]

theorem sampleObject_means : Means sampleJson (.obj sampleObject) (.block sampleBlock) := by
  have hhalf : ∀ (q : ℚ) (n : Nat), 1 < n → q * n = 1 → ∀ i : Int, q ≠ i := by
    rintro q n h1 h2 i rfl
    have h3 : i * n = 1 := by exact_mod_cast h2
    have := Int.eq_one_or_neg_one_of_mul_eq_one' h3
    omega
  refine .block (by decide) (by decide) (by decide) rfl ?_
  refine .cons (.int (i := -7) (by decide +kernel) (by decide) (by decide)) <|
    .cons (.array (by simp) (by simp) (.cons (.float (q := 1 / 2) (by decide +kernel) (hhalf _ 2 (by decide) (by norm_num))
      (by decide +kernel : sampleJson.float32 0x3FE0000000000000 = some 0x3F000000)) (.cons (.float (q := 1 / 4) (by decide +kernel)
      (hhalf _ 4 (by decide) (by norm_num)) (by decide +kernel : sampleJson.float32 0x3FD0000000000000 = some 0x3E800000)) .nil)) ?_) <|
    .cons (.vec2 (List.Perm.swap ..)) <|
    .cons (.byte (text := b!"1f") (.cons (.inl rfl : IsHex 49 1) (.inl rfl : IsHex 102 15) .nil)) <|
    .cons (.time (by decide) (by decide)) <| .cons (.bools (bs := [true, false]) (by simp)) .nil
  intro p hp
  change p ∈ [Property.f32 0x3F000000, .f32 0x3E800000] at hp
  simp only [List.mem_cons, List.not_mem_nil, or_false] at hp
  rcases hp with rfl | rfl <;> rfl

/-- Integers, float arrays, vectors, bytes, times and booleans in one object. -/
example : sampleJson.Lawful ∧ Means sampleJson (.obj sampleObject) (.block sampleBlock) ∧
    getProperties sampleJson (.obj sampleObject) = pure (.block sampleBlock) :=
  ⟨sampleJson_lawful, sampleObject_means, C43_kinds_partial sampleJson_lawful sampleObject_means⟩

/-- C43: an integer outside the range of int32 (up to the range of int64) is an error. -/
theorem C43_large_integer {X : JsonExt} {d : F64} {i : Int} (h : number64 d = .fin i)
    (h1 : -2 ^ 63 ≤ i) (h2 : i < 2 ^ 63) (h3 : i < -2 ^ 31 ∨ 2 ^ 31 ≤ i) : ∃ n, getProperties X (.num d) = GoE.fail n := by
  have e := toInt64_int h h1 h2
  refine ⟨7, ?_⟩
  rw [getProperties, numberProperty, if_pos (integral_true h h1 h2), e, if_neg (by omega)]

/-- 3000000000 -/
example : number64 0x41E65A0BC0000000 = .fin (3000000000 : Int) ∧
    getProperties sampleJson (.num 0x41E65A0BC0000000) = GoE.fail 7 := by
  refine ⟨by decide +kernel, ?_⟩
  rw [getProperties, numberProperty, if_pos (by decide +kernel), if_neg (by decide +kernel)]

/-- C43 fails for arrays of numbers some of which are integers: `[0.5, 1]` becomes a float array holding an integer,
which is written exactly like the float array `[0.5, 1.4e-45]`. -/
theorem C43_mixed_numbers {X : JsonExt} (h : X.float32 0x3FE0000000000000 = some 0x3F000000) :
    ∃ p, getProperties X (.arr [.num 0x3FE0000000000000, .num 0x3FF0000000000000]) = pure p ∧
      number64 0x3FF0000000000000 = .fin 1 ∧
      p.code = (Property.newFloat32Array [0x3F000000, 1]).code ∧
      p.data = (Property.newFloat32Array [0x3F000000, 1]).data ∧ number32 1 = .fin (1 / 2 ^ 149) := by
  have h1 : numberProperty X 0x3FE0000000000000 = pure (.f32 0x3F000000) := by
    rw [numberProperty, if_neg (by decide +kernel), h]; rfl
  have h2 : numberProperty X 0x3FF0000000000000 = pure (.int32 1) := by
    rw [numberProperty, if_pos (by decide +kernel), if_pos (by decide +kernel)]
    exact congrArg (fun i => pure (Property.int32 i)) (by decide +kernel)
  refine ⟨.array 2 [.f32 0x3F000000, .int32 1], ?_, by decide +kernel, rfl, rfl, by decide +kernel⟩
  rw [getProperties.eq_def]
  simp only [getProperties, getItems, h1, h2, pure_bind]
  rfl

example : sampleJson.float32 0x3FE0000000000000 = some 0x3F000000 := by decide +kernel

/-- C43 fails for texts with a backslash, which are unescaped twice: the two characters backslash and n become a line
feed. -/
theorem C43_backslash {X : JsonExt} (h : X.parseTime [92, 110] = none) :
    getProperties X (.str [92, 110]) = pure (.str [10]) := by
  rw [getProperties, stringProperty, if_neg (by decide), if_neg (by decide), if_neg (by rw [h]; simp)]
  rfl

example : sampleJson.parseTime [92, 110] = none := by decide

/-- C43: texts with a control character (a line feed, a tab) are errors. -/
theorem C43_control {X : JsonExt} {s t : Bytes} {c : UInt8} (hc : c < 32) (h0 : ¬ b!"0x" <+: s ++ c :: t)
    (ht : X.parseTime (s ++ c :: t) = none) (hs : ∀ b ∈ s, b ≠ 92) :
    ∃ n, getProperties X (.str (s ++ c :: t)) = GoE.fail n := by
  have hp : ∀ s : Bytes, (∀ b ∈ s, b ≠ 92) → pieces (s ++ c :: t) = none := by
    intro s hs
    induction s with
    | nil => rw [List.nil_append, pieces.eq_def]; dsimp only; rw [if_pos (.inl hc)]
    | cons b rest ih =>
      rw [List.cons_append, pieces.eq_def]
      dsimp only
      split
      · rfl
      · rw [if_pos (hs b (by simp)), ih (fun b hb => hs b (by simp [hb]))]; rfl
  refine ⟨6, ?_⟩
  rw [getProperties, stringProperty, if_neg (fun h => h0 h.1), if_neg h0, if_neg (by rw [ht]; simp), requote, hp s hs]
  rfl

/-- "a", line feed, "b". -/
example : getProperties sampleJson (.str [97, 10, 98]) = GoE.fail 6 := by
  rw [getProperties, stringProperty, if_neg (by decide), if_neg (by decide), if_neg (by decide)]
  rfl

/-- C43: an empty array crashes the parser. -/
theorem C43_empty_array {X : JsonExt} : getProperties X (.arr []) = GoE.panic .indexOutOfRange := by
  rw [getProperties.eq_def]

/-- C43: an object of two members x and y that are not numbers crashes the parser. -/
theorem C43_text_vector {X : JsonExt} {s t : Bytes} :
    getProperties X (.obj [(b!"x", .str s), (b!"y", .str t)]) = GoE.panic .typeAssertion := by
  rw [getProperties]; rfl

/-- C43: null becomes the nil property, and writing a block that contains it crashes. -/
theorem C43_null {X : JsonExt} {k : Bytes} :
    ∃ p, getProperties X (.obj [(k, .null)]) = pure p ∧ p.data = .error .nilDeref := by
  refine ⟨.block [(k, .nil)], ?_, rfl⟩
  refine object_block (by simp) (fun h => by simpa using h.length_eq) (fun h => by simpa using h.length_eq) ?_
  rw [getMembers, getProperties, getMembers]; rfl

end Rap
