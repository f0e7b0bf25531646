import Verif.Proof.UnmarshalProperty

/-!
# C79: what the UnmarshalProperty methods accept

They read the text `fmt` makes of their argument as JSON. This works for some arguments only.
-/

namespace Rap

/-- An error is returned. -/
def Refuses (r : GoE Unit) : Prop := ∃ n, r = GoE.fail n

/-- No error is returned. -/
def Accepts (r : GoE Unit) : Prop := r = pure ()

/-- C79: `Vector2Property.UnmarshalProperty` and `MetadataProperty.UnmarshalProperty` return an error whatever they are given: they put
quotes around the text, which makes it a string or no JSON. -/
theorem C79_never (X : JsonExt) (p : Property) (hp : (∃ x y, p = .vec2 x y) ∨ ∃ kvs, p = .block kvs) (data : GoData) :
    ∃ r, unmarshalProperty goUnmarshal X p data = some r ∧ Refuses r := by
  rcases hp with ⟨x, y, rfl⟩ | ⟨kvs, rfl⟩
  · refine ⟨_, rfl, 48, ?_⟩
    have : unmarshalFields goUnmarshal false ([34] ++ data.format ++ [34]) = GoE.fail 48 := by
      rw [unmarshalFields]
      change (match jsonUnmarshal (34 :: (data.format ++ [34])) with
        | some (.obj d) => setFields d (0, 0, 0) false
        | some .null => pure (0, 0, 0)
        | _ => GoE.fail 48) = _
      cases hj : jsonUnmarshal (34 :: (data.format ++ [34])) with
      | none => rfl
      | some j =>
        obtain ⟨b, r, s, -, -, rfl⟩ := unmarshal_quoted hj
        rfl
    simp only [unmarshalLike, unmarshalVector2, this]
    rfl
  · refine ⟨_, rfl, 49, ?_⟩
    have : unmarshalBlock goUnmarshal X ([34] ++ data.format ++ [34]) = GoE.fail 49 := by
      rw [unmarshalBlock]
      change (match jsonUnmarshal (34 :: (data.format ++ [34])) with
        | some (.obj d) => unmarshalMetadata X d
        | some .null => unmarshalMetadata X []
        | _ => GoE.fail 49) = _
      cases hj : jsonUnmarshal (34 :: (data.format ++ [34])) with
      | none => rfl
      | some j =>
        obtain ⟨b, r, s, -, -, rfl⟩ := unmarshal_quoted hj
        rfl
    simp only [unmarshalLike, this]
    rfl

/-- The text of an object, which the other types read. -/
example : ∃ r, unmarshalProperty goUnmarshal (goReader goParseTime) (.vec2 0 0) (.str b!"{\"x\":1,\"y\":2}") = some r ∧ Refuses r :=
  C79_never _ _ (.inl ⟨_, _, rfl⟩) _

/-- C79: no type reads a map, be it for a vector or for metadata: all return an error. -/
theorem C79_maps (p : Property) (kvs : List (Bytes × GoData)) (r : GoE Unit)
    (h : unmarshalProperty goUnmarshal (goReader goParseTime) p (.map kvs) = some r) : Refuses r := by
  have hf : (GoData.map kvs).format = 109 :: (b!"ap[" ++ formatMembers kvs ++ [93]) := by rw [GoData.format]; rfl
  have hv : goUnmarshal.value (GoData.map kvs).format = none := by
    rw [hf]; exact unmarshal_map (b!"ap[" ++ formatMembers kvs ++ [93])
  have hq := quoted_refused (c := 109) (.inl rfl) (b!"ap[" ++ formatMembers kvs ++ [93])
  rw [← hf] at hq
  cases p with
  | str => cases h
  | raw => cases h
  | nil => cases h
  | int32 =>
    cases h
    exact ⟨42, by simp only [unmarshalLike, unmarshalInt32, hv]; rfl⟩
  | f32 =>
    cases h
    exact ⟨44, by simp only [unmarshalLike, unmarshalFloat32, hv]; rfl⟩
  | bool =>
    cases h
    exact ⟨45, by simp only [unmarshalLike, unmarshalBool, hv]; rfl⟩
  | vec3 =>
    cases h
    exact ⟨48, by simp only [unmarshalLike, unmarshalVector3, unmarshalFields, hv]; rfl⟩
  | array =>
    cases h
    exact ⟨52, by simp only [unmarshalLike, unmarshalArray, hv]; rfl⟩
  | vec2 x y =>
    obtain ⟨r', h1, h2⟩ := C79_never (goReader goParseTime) (.vec2 x y) (.inl ⟨_, _, rfl⟩) (.map kvs)
    rw [h] at h1
    cases h1
    exact h2
  | block b =>
    obtain ⟨r', h1, h2⟩ := C79_never (goReader goParseTime) (.block b) (.inr ⟨_, rfl⟩) (.map kvs)
    rw [h] at h1
    cases h1
    exact h2
  | byte =>
    cases h
    obtain ⟨n, hn⟩ := hq.1
    exact ⟨n, by simp only [unmarshalLike, hn]; rfl⟩
  | time =>
    cases h
    obtain ⟨n, hn⟩ := hq.2
    exact ⟨n, by simp only [unmarshalLike, hn]; rfl⟩

/-- The map of a vector, given to a vector. -/
example : (GoData.map [(b!"x", .int 1), (b!"y", .int 2), (b!"z", .int 3)]).format = b!"map[x:1 y:2 z:3]" ∧
    ∃ r, unmarshalProperty goUnmarshal (goReader goParseTime) (.vec3 0 0 0)
      (.map [(b!"x", .int 1), (b!"y", .int 2), (b!"z", .int 3)]) = some r := ⟨by decide +kernel, _, rfl⟩

/-- C79: no type reads a slice of two or more integers, not even an array: all return an error. -/
theorem C79_slices (p : Property) (i k : Int) (is : List Int) (r : GoE Unit)
    (h : unmarshalProperty goUnmarshal (goReader goParseTime) p (.slice ((i :: k :: is).map .int)) = some r) : Refuses r := by
  obtain ⟨c, w, hc, hw⟩ : ∃ c w, (c = 45 ∨ (48 ≤ c.toNat ∧ c.toNat ≤ 57)) ∧
      formatItems ((k :: is).map .int) = c :: w := by
    obtain ⟨hne, hall⟩ := decimal_bytes k
    obtain ⟨d, ds, hd⟩ := List.exists_cons_of_ne_nil hne
    cases is with
    | nil => exact ⟨d, ds, hall d (by rw [hd]; simp), by rw [← hd]; rfl⟩
    | cons l is =>
      refine ⟨d, ds ++ [32] ++ formatItems ((l :: is).map .int), hall d (by rw [hd]; simp), ?_⟩
      simp only [List.map_cons, formatItems, GoData.format, hd, List.cons_append]
  have hf : (GoData.slice ((i :: k :: is).map .int)).format = 91 :: (V1.decimal i ++ 32 :: c :: (w ++ [93])) := by
    rw [List.map_cons] at hw
    simp only [GoData.format, List.map_cons, formatItems, hw]
    simp
  have hv : goUnmarshal.value (GoData.slice ((i :: k :: is).map .int)).format = none := by rw [hf]; exact unmarshal_slice i hc _
  have hq := quoted_refused (c := 91) (.inr rfl) (V1.decimal i ++ 32 :: c :: (w ++ [93]))
  rw [← hf] at hq
  cases p with
  | str => cases h
  | raw => cases h
  | nil => cases h
  | int32 =>
    cases h
    exact ⟨42, by simp only [unmarshalLike, unmarshalInt32, hv]; rfl⟩
  | f32 =>
    cases h
    exact ⟨44, by simp only [unmarshalLike, unmarshalFloat32, hv]; rfl⟩
  | bool =>
    cases h
    exact ⟨45, by simp only [unmarshalLike, unmarshalBool, hv]; rfl⟩
  | vec3 =>
    cases h
    exact ⟨48, by simp only [unmarshalLike, unmarshalVector3, unmarshalFields, hv]; rfl⟩
  | array =>
    cases h
    exact ⟨52, by simp only [unmarshalLike, unmarshalArray, hv]; rfl⟩
  | vec2 x y =>
    obtain ⟨r', h1, h2⟩ := C79_never (goReader goParseTime) (.vec2 x y) (.inl ⟨_, _, rfl⟩) (.slice ((i :: k :: is).map .int))
    rw [h] at h1
    cases h1
    exact h2
  | block b =>
    obtain ⟨r', h1, h2⟩ := C79_never (goReader goParseTime) (.block b) (.inr ⟨_, rfl⟩) (.slice ((i :: k :: is).map .int))
    rw [h] at h1
    cases h1
    exact h2
  | byte =>
    cases h
    obtain ⟨n, hn⟩ := hq.1
    exact ⟨n, by simp only [unmarshalLike, hn]; rfl⟩
  | time =>
    cases h
    obtain ⟨n, hn⟩ := hq.2
    exact ⟨n, by simp only [unmarshalLike, hn]; rfl⟩

/-- A slice of three integers, given to an array. -/
example : (GoData.slice ([1, -2, 3].map .int)).format = b!"[1 -2 3]" ∧
    ∃ r, unmarshalProperty goUnmarshal (goReader goParseTime) (.array 1 [.int32 0]) (.slice ([1, -2, 3].map .int)) = some r :=
  ⟨by decide +kernel, _, rfl⟩

/-- C79: with nothing in it, a slice crashes arrays, and a text crashes bytes. -/
theorem C79_empty (X : JsonExt) (c b : UInt8) (ps : List Property) :
    unmarshalProperty goUnmarshal X (.array c ps) (.slice []) = some (GoE.panic .indexOutOfRange) ∧
      unmarshalProperty goUnmarshal X (.byte b) (.str []) = some (GoE.panic .indexOutOfRange) := by
  constructor
  · have h : goUnmarshal.value (GoData.slice []).format = some (.arr []) := by
      have : (GoData.slice []).format = [91, 93] := by decide +kernel
      rw [this]
      change jsonUnmarshal [91, 93] = _
      rw [jsonUnmarshal, jsonTree, scanText, show (10000 : Nat) = 9999 + 1 from rfl, scanValue]
      rfl
    simp only [unmarshalProperty, handedText, Option.map_some, unmarshalLike, unmarshalArray, h]
    rfl
  · have h : goUnmarshal.value ([34] ++ (GoData.str []).format ++ [34]) = some (.str []) := by
      have : [34] ++ (GoData.str []).format ++ [34] = [34, 34] := by decide +kernel
      rw [this]
      change jsonUnmarshal [34, 34] = _
      rw [jsonUnmarshal, jsonTree, scanText, show (10000 : Nat) = 9999 + 1 from rfl, scanValue]
      rfl
    simp only [unmarshalProperty, handedText, Option.map_some, unmarshalLike, unmarshalByte, decodeString, h]
    rfl

/-- The empty slice and the empty text as fmt writes them. -/
example : (GoData.slice []).format = b!"[]" ∧ (GoData.str []).format = [] ∧
    unmarshalProperty goUnmarshal (goReader goParseTime) (.byte 5) (.str []) = some (GoE.panic .indexOutOfRange) :=
  ⟨by decide +kernel, by decide +kernel, (C79_empty (goReader goParseTime) 0 5 []).2⟩

/-- C79: of the integers, exactly those that fit into an int32 are accepted by `Int32Property.UnmarshalProperty`. -/
theorem C79_integers (X : JsonExt) (j : BitVec 32) (i : Int) :
    ∃ r, unmarshalProperty goUnmarshal X (.int32 j) (.int i) = some r ∧ (Accepts r ↔ -2 ^ 31 ≤ i ∧ i < 2 ^ 31) ∧
      (Accepts r ∨ Refuses r) := by
  refine ⟨_, rfl, ?_⟩
  have hf : (GoData.int i).format = V1.decimal i := by rw [GoData.format]
  simp only [unmarshalLike, hf]
  by_cases hi : -2 ^ 31 ≤ i ∧ i < 2 ^ 31
  · have hto : (BitVec.ofInt 32 i).toInt = i := by
      rw [BitVec.toInt_ofInt]
      refine Int.bmod_eq_of_le ?_ ?_ <;> norm_num <;> omega
    obtain ⟨t, h1, h2⟩ := C77_own_type (zone := fun _ => 0) (by simp) (p := .int32 (BitVec.ofInt 32 i)) .int32 .int32
    rw [marshal, hto] at h1
    obtain rfl := GoE.pure_inj.1 h1
    have hacc : unmarshalInt32 goUnmarshal (V1.decimal i) = pure (BitVec.ofInt 32 i) := by
      rw [unmarshalLike, GoE.bind_pure_iff] at h2
      obtain ⟨x, h3, h4⟩ := h2
      have := GoE.pure_inj.1 h4
      cases this
      exact h3
    have : (do
        let a ← (do
          let i ← unmarshalInt32 goUnmarshal (V1.decimal i)
          pure (Property.int32 i))
        pure () : GoE Unit) = pure () := by rw [hacc]; rfl
    exact ⟨⟨fun _ => hi, fun _ => this⟩, .inl this⟩
  · have hrej : ∃ n, unmarshalInt32 goUnmarshal (V1.decimal i) = GoE.fail n := by
      rw [unmarshalInt32]
      change ∃ n, (match jsonUnmarshal (V1.decimal i) with
        | some (.num _) => GoE.get 41 (goInt32 (V1.decimal i))
        | some .null => pure 0
        | _ => GoE.fail 42) = GoE.fail n
      cases hj : jsonUnmarshal (V1.decimal i) with
      | none => exact ⟨_, rfl⟩
      | some v =>
        obtain ⟨d, rfl⟩ := unmarshal_decimal hj
        refine ⟨41, ?_⟩
        have : goInt32 (V1.decimal i) = none := by
          have hlit : literalOf (V1.decimal i) = V1.decimal i := by
            refine literalOf_plain fun c hc => ?_
            have key : ∀ n : Fin 256, (n.val = 45 ∨ (48 ≤ n.val ∧ n.val ≤ 57)) → UInt8.ofNat n ∈ b!"0123456789+-.eE" := by
              decide +kernel
            have := key ⟨c.toNat, c.toNat_lt⟩ (((decimal_bytes i).2 c hc).imp (fun h => by rw [h]; rfl) id)
            simpa using this
          rw [goInt32, hlit]
          cases ha : atoiText (V1.decimal i) with
          | none => rfl
          | some k =>
            rw [atoi_decimal ha, Option.bind_some, if_neg hi]
        change GoE.get 41 (goInt32 (V1.decimal i)) = _
        rw [this]; rfl
    obtain ⟨n, hn⟩ := hrej
    have : (do
        let a ← (do
          let i ← unmarshalInt32 goUnmarshal (V1.decimal i)
          pure (Property.int32 i))
        pure () : GoE Unit) = GoE.fail n := by rw [hn]; rfl
    refine ⟨⟨fun h => ?_, fun h => absurd h hi⟩, .inr ⟨n, this⟩⟩
    rw [Accepts, this] at h
    cases h

/-- Either side of the border. -/
example : (-2 ^ 31 ≤ (2147483647 : Int) ∧ (2147483647 : Int) < 2 ^ 31) ∧ ¬ (-2 ^ 31 ≤ (2147483648 : Int) ∧ (2147483648 : Int) < 2 ^ 31) := by
  decide

/-- C79: given a byte, `ByteProperty.UnmarshalProperty` takes its decimal digits for hexadecimal ones: it accepts exactly those with two
digits. -/
theorem C79_bytes (X : JsonExt) (c : UInt8) (b : UInt8) :
    ∃ r, unmarshalProperty goUnmarshal X (.byte c) (.int b.toNat) = some r ∧ (Accepts r ↔ 10 ≤ b.toNat ∧ b.toNat ≤ 99) ∧
      (Accepts r ∨ Refuses r) := by
  have key : ∀ n : Fin 256, ((unmarshalByte goUnmarshal ([34] ++ V1.decimal (n.val : Int) ++ [34])).run =
        .ok (.error (.parse 46)) ∧ ¬ (10 ≤ n.val ∧ n.val ≤ 99)) ∨
      ((10 ≤ n.val ∧ n.val ≤ 99) ∧
        (unmarshalByte goUnmarshal ([34] ++ V1.decimal (n.val : Int) ++ [34])).run =
          .ok (.ok (UInt8.ofNat (16 * (n.val / 10) + n.val % 10)))) := by
    decide +kernel
  refine ⟨_, rfl, ?_⟩
  have hf : (GoData.int b.toNat).format = V1.decimal b.toNat := by rw [GoData.format]
  simp only [unmarshalLike, hf]
  rcases key ⟨b.toNat, b.toNat_lt⟩ with ⟨h, hb⟩ | ⟨hb, h⟩
  · have h' : unmarshalByte goUnmarshal ([34] ++ V1.decimal (b.toNat : Int) ++ [34]) = GoE.fail 46 := GoE.run_inj h
    rw [h']
    exact ⟨⟨fun h => (by cases h), fun h => absurd h hb⟩, .inr ⟨46, rfl⟩⟩
  · have h' : unmarshalByte goUnmarshal ([34] ++ V1.decimal (b.toNat : Int) ++ [34]) =
      pure (UInt8.ofNat (16 * (b.toNat / 10) + b.toNat % 10)) := GoE.run_inj h
    rw [h']
    exact ⟨⟨fun _ => hb, fun _ => rfl⟩, .inl rfl⟩

/-- 42 is accepted (as 0x42), 7 and 200 are not. -/
example : ∃ r r' r'', unmarshalProperty goUnmarshal (goReader goParseTime) (.byte 0) (.int 42) = some r ∧ Accepts r ∧
    unmarshalProperty goUnmarshal (goReader goParseTime) (.byte 0) (.int 7) = some r' ∧ ¬ Accepts r' ∧
    unmarshalProperty goUnmarshal (goReader goParseTime) (.byte 0) (.int 200) = some r'' ∧ ¬ Accepts r'' := by
  obtain ⟨r, h, ha, -⟩ := C79_bytes (goReader goParseTime) 0 42
  obtain ⟨r', h', ha', -⟩ := C79_bytes (goReader goParseTime) 0 7
  obtain ⟨r'', h'', ha'', -⟩ := C79_bytes (goReader goParseTime) 0 200
  exact ⟨r, r', r'', h, ha.2 (by decide), h', fun a => absurd (ha'.1 a) (by decide), h'', fun a => absurd (ha''.1 a) (by decide)⟩

section Own

variable {zone : Int → Int}

/-- C79: the text its own type writes as JSON is accepted, by bytes and times without its quotes, by vectors of two coordinates and by
metadata not at all (`C79_never`). -/
theorem C79_own_text (hz : ∀ s, |zone s| < 1440) {p : Property} (h : Recoverable (goReader goParseTime) p) (hn : NestsProp 10000 p) :
    match p with
    | .int32 _ | .f32 _ | .bool _ | .vec3 _ _ _ | .array _ _ => ∃ t r, marshal (goMarshal (goTime zone)) p = pure t ∧
        unmarshalProperty goUnmarshal (goReader goParseTime) p (.str t) = some r ∧ Accepts r
    | .byte _ | .time _ => ∃ t r, marshal (goMarshal (goTime zone)) p = pure ([34] ++ t ++ [34]) ∧
        unmarshalProperty goUnmarshal (goReader goParseTime) p (.str t) = some r ∧ Accepts r
    | _ => True := by
  obtain ⟨t, h1, h2⟩ := C77_own_type hz h hn
  have hf : ∀ t, (GoData.str t).format = t := fun t => by rw [GoData.format]
  have plain : ∀ t', marshal (goMarshal (goTime zone)) p = pure t → handedText p t' = some t →
      ∃ r, unmarshalProperty goUnmarshal (goReader goParseTime) p (.str t') = some r ∧ Accepts r := by
    intro t' _ h3
    refine ⟨_, by rw [unmarshalProperty, hf, h3]; rfl, ?_⟩
    unfold Accepts
    beta_reduce
    rw [h2]; rfl
  cases p with
  | int32 => obtain ⟨r, g⟩ := plain t h1 rfl; exact ⟨t, r, h1, g⟩
  | f32 => obtain ⟨r, g⟩ := plain t h1 rfl; exact ⟨t, r, h1, g⟩
  | bool => obtain ⟨r, g⟩ := plain t h1 rfl; exact ⟨t, r, h1, g⟩
  | vec3 => obtain ⟨r, g⟩ := plain t h1 rfl; exact ⟨t, r, h1, g⟩
  | array => obtain ⟨r, g⟩ := plain t h1 rfl; exact ⟨t, r, h1, g⟩
  | byte =>
    have h3 := h1
    rw [marshal, MarshalExt.str] at h3
    obtain rfl := GoE.pure_inj.1 h3
    obtain ⟨r, g⟩ := plain _ h1 rfl
    exact ⟨_, r, h1, g⟩
  | time =>
    have h3 := h1
    rw [marshal, MarshalExt.str] at h3
    obtain rfl := GoE.pure_inj.1 h3
    obtain ⟨r, g⟩ := plain _ h1 rfl
    exact ⟨_, r, h1, g⟩
  | _ => trivial

/-- A float32, a byte and a vector. -/
example : Recoverable (goReader goParseTime) (.f32 0x3F800000) ∧ Recoverable (goReader goParseTime) (.byte 7) ∧
    Recoverable (goReader goParseTime) (.vec3 0 0x3FF0000000000000 0) ∧ NestsProp 10000 (.vec3 0 0x3FF0000000000000 0) :=
  ⟨.f32 (q := 1) (by decide +kernel), .byte, .vec3 (p := 0) (q := 1) (r := 0) (by decide +kernel) (by decide +kernel) (by decide +kernel),
    .vec3 (n := 9999)⟩

end Own

end Rap
