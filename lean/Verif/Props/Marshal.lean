import Verif.Proof.Marshal

/-!
# C55: metadata survives JSON
-/

namespace Rap

variable {M : MarshalExt} {X : JsonExt} {N : Bytes → F64 → Prop}

theorem separated_commas : (l : List Bytes) → Separated l (commas l)
  | [] => rfl
  | [_] => rfl
  | _ :: b :: l => ⟨_, separated_commas (b :: l), rfl⟩

theorem rawBytes_array {b : Bytes} (h : b.length ≤ maxAlloc) : rawBytes (bytesArrayToBytes b) = pure b := by
  have := C02_bytes_roundtrip b [] .eof h
  rw [List.append_nil] at this
  rw [rawBytes, this]

theorem nested_pure {t : Bytes} (h : t ≠ []) : nested t = pure t := if_neg h

theorem key_text (hM : M.Lawful X N) {k : Bytes} (h : Utf8 k) : KeyText (M.str k) k :=
  ⟨[], [], M.quote k, by simp [Blank], by simp [Blank], hM.quote k h, by simp [MarshalExt.str]⟩

theorem str_text (hM : M.Lawful X N) {k : Bytes} (h : Utf8 k) : JText N (M.str k) (.str k) := .str (hM.quote k h)

theorem marshal_binary {b : Bytes} (h : b.length ≤ 2 ^ 48) :
    marshal M (.newBinaryArray b) = pure (M.str (b!"0x" ++ hexEncode b)) := by
  rw [Property.newBinaryArray, marshal, if_pos rfl, rawBytes_array h, pure_bind]

theorem marshal_bools {bs : List Bool} (h : bs.length ≤ 2 ^ 48) :
    marshal M (.newBoolArray bs) = pure ([91] ++ commas (bs.map boolText) ++ [93]) := by
  have e : ((fun c : UInt8 => boolText (c &&& 1 == 1)) ∘ fun b : Bool => if b = true then 1 else 0) = boolText := by
    funext b
    cases b <;> rfl
  rw [Property.newBoolArray, marshal, if_neg (by decide), if_pos rfl, rawBytes_array (by rw [List.length_map]; exact h),
    pure_bind, List.map_map, e]

theorem bools_text (bs : List Bool) : List.Forall₂ (JText N) (bs.map boolText) (bs.map .bool) := by
  rw [List.forall₂_map_left_iff, List.forall₂_map_right_iff, List.forall₂_same]
  intro b _
  cases b
  · exact .false
  · exact .true

/-- The text written for a property, the value it is a text of, and the property this value stands for. -/
def Carried (M : MarshalExt) (X : JsonExt) (N : Bytes → F64 → Prop) (p : Property) : Prop :=
  ∃ t j, marshal M p = pure t ∧ t ≠ [] ∧ JText N t j ∧ Means X j p ∧ ∀ b, j = .bool b → p = .bool b

theorem carried_members : (kvs : Block) → (∀ kv ∈ kvs, Carried M X N kv.2) → ∃ (ts : List Bytes) (js : List JVal),
    marshalMembers M kvs = pure ((kvs.zip ts).map fun p => M.str p.1.1 ++ [58] ++ p.2) ∧ ts.length = kvs.length ∧
    List.Forall₂ (JText N) ts js ∧ List.Forall₂ (Means X) js (kvs.map (·.2))
  | [], _ => ⟨[], [], by rw [marshalMembers]; rfl, rfl, .nil, .nil⟩
  | (k, p) :: kvs, h => by
    obtain ⟨t, j, h1, h2, h3, h4, -⟩ := h (k, p) (by simp)
    obtain ⟨ts, js, g1, g2, g3, g4⟩ := carried_members kvs fun kv hkv => h kv (by simp [hkv])
    dsimp only at h1
    refine ⟨t :: ts, j :: js, ?_, by simp [g2], .cons h3 g3, .cons h4 g4⟩
    rw [marshalMembers, h1, pure_bind, nested_pure h2, pure_bind, g1, pure_bind]
    rfl

theorem carried_items : (ps : List Property) → (∀ p ∈ ps, Carried M X N p) → ∃ (ts : List Bytes) (js : List JVal),
    marshalItems M ps = pure ts ∧ List.Forall₂ (JText N) ts js ∧ List.Forall₂ (Means X) js ps ∧
    ∀ b, .bool b ∈ js → .bool b ∈ ps
  | [], _ => ⟨[], [], by rw [marshalItems], .nil, .nil, by simp⟩
  | p :: ps, h => by
    obtain ⟨t, j, h1, h2, h3, h4, h5⟩ := h p (by simp)
    obtain ⟨ts, js, g1, g2, g3, g4⟩ := carried_items ps fun p hp => h p (by simp [hp])
    refine ⟨t :: ts, j :: js, ?_, .cons h3 g2, .cons h4 g3, ?_⟩
    · rw [marshalItems, h1, pure_bind, nested_pure h2, pure_bind, g1, pure_bind]
    · intro b hb
      rcases List.mem_cons.1 hb with hb | hb
      · rw [h5 b hb.symm]; simp
      · exact List.mem_cons_of_mem _ (g4 b hb)

theorem zip_fst {α β : Type} {l : List α} {r : List β} (h : r.length = l.length) : (l.zip r).map Prod.fst = l := by
  rw [List.map_fst_zip (by omega)]

theorem zip_snd {α β : Type} {l : List α} {r : List β} (h : r.length = l.length) : (l.zip r).map Prod.snd = r := by
  rw [List.map_snd_zip (by omega)]

theorem carried_of_portable (hM : M.Lawful X N) {p : Property} (h : Portable X p) : Carried M X N p := by
  induction h with
  | @str s h1 h2 h3 h4 =>
    exact ⟨_, _, by rw [marshal], by simp [MarshalExt.str], str_text hM h1, .text h3 h4 h2, by simp⟩
  | @int32 i =>
    obtain ⟨d, h1, h2⟩ := hM.integer _ i.toInt (decimal_spec _) (by have := i.toInt_lt; have := i.le_toInt; omega)
    refine ⟨_, .num d, by rw [marshal], (hM.number_text _ _ h1).1, .num h1, ?_, by simp⟩
    have := Means.int (X := X) h2 (by have := i.le_toInt; omega) (by have := i.toInt_lt; omega)
    rwa [BitVec.ofInt_toInt] at this
  | @f32 f q h1 h2 =>
    obtain ⟨t, d, r, g1, g2, g3, g4, g5⟩ := hM.float32 f q h1
    refine ⟨t, .num d, by rw [marshal, g1]; rfl, (hM.number_text _ _ g2).1, .num g2, .float g3 ?_ g4, by simp⟩
    intro i hi
    obtain ⟨i', hi'⟩ := g5.1 ⟨i, hi⟩
    exact h2 i' hi'
  | @bool b =>
    cases b
    · exact ⟨_, _, by rw [marshal]; rfl, by decide, .false, .bool, by simp⟩
    · exact ⟨_, _, by rw [marshal]; rfl, by decide, .true, .bool, by simp⟩
  | @byte b =>
    exact ⟨_, _, by rw [marshal], by simp [MarshalExt.str], str_text hM (utf8_ascii _ (hexEncode_ascii _)),
      .byte (hexText_encode [b]), by simp⟩
  | @vec2 x y p q h1 h2 =>
    obtain ⟨tx, g1, g2⟩ := hM.float64 x p h1
    obtain ⟨ty, g3, g4⟩ := hM.float64 y q h2
    refine ⟨_, .obj [(b!"x", .num x), (b!"y", .num y)],
      by rw [marshal, g1, g3]; rfl, by simp, ?_, .vec2 (List.Perm.refl _), by simp⟩
    have hk : ∀ c : UInt8, 32 ≤ c → c ≠ 34 → c ≠ 92 → KeyText [34, c, 34] [c] := fun c h1 h2 h3 =>
      ⟨[], [], [c], by simp [Blank], by simp [Blank], .plain h1 h2 h3 .nil, rfl⟩
    have := JText.obj (N := N) (ms := [([34, 120, 34], tx), ([34, 121, 34], ty)])
      (d := [(b!"x", .num x), (b!"y", .num y)]) (by simp) (separated_commas _)
      (.cons (hk _ (by decide) (by decide) (by decide)) (.cons (hk _ (by decide) (by decide) (by decide)) .nil))
      (.cons (.num g2) (.cons (.num g4) .nil))
    simpa [commas] using this
  | @vec3 x y z p q r h1 h2 h3 =>
    obtain ⟨tx, g1, g2⟩ := hM.float64 x p h1
    obtain ⟨ty, g3, g4⟩ := hM.float64 y q h2
    obtain ⟨tz, g5, g6⟩ := hM.float64 z r h3
    refine ⟨_, .obj [(b!"x", .num x), (b!"y", .num y), (b!"z", .num z)],
      by rw [marshal, g1, g3, g5]; rfl, by simp, ?_, .vec3 (List.Perm.refl _), by simp⟩
    have hk : ∀ c : UInt8, 32 ≤ c → c ≠ 34 → c ≠ 92 → KeyText [34, c, 34] [c] := fun c h1 h2 h3 =>
      ⟨[], [], [c], by simp [Blank], by simp [Blank], .plain h1 h2 h3 .nil, rfl⟩
    have := JText.obj (N := N) (ms := [([34, 120, 34], tx), ([34, 121, 34], ty), ([34, 122, 34], tz)])
      (d := [(b!"x", .num x), (b!"y", .num y), (b!"z", .num z)]) (by simp) (separated_commas _)
      (.cons (hk _ (by decide) (by decide) (by decide)) (.cons (hk _ (by decide) (by decide) (by decide))
        (.cons (hk _ (by decide) (by decide) (by decide)) .nil)))
      (.cons (.num g2) (.cons (.num g4) (.cons (.num g6) .nil)))
    simpa [commas] using this
  | @block kvs h1 h2 h3 h4 _ ih =>
    obtain ⟨ts, js, g1, g2, g3, g4⟩ := carried_members kvs ih
    have hjs : js.length = kvs.length := by simpa using g4.length_eq
    have hkeys : ((kvs.map (·.1)).zip js).map Prod.fst = kvs.map (·.1) := zip_fst (by simp [hjs])
    have hvals : ((kvs.map (·.1)).zip js).map Prod.snd = js := zip_snd (by simp [hjs])
    refine ⟨_, .obj ((kvs.map (·.1)).zip js), by rw [marshal, g1, pure_bind], by simp, ?_, ?_, by simp⟩
    · cases kvs with
      | nil =>
        have := JText.obj0 (N := N) (w := []) (by simp [Blank])
        simpa [commas] using this
      | cons kv kvs =>
        have hs := separated_commas ((((kv :: kvs).zip ts).map fun p => (M.str p.1.1, p.2)).map fun m => m.1 ++ [58] ++ m.2)
        refine JText.obj (ms := ((kv :: kvs).zip ts).map fun p => (M.str p.1.1, p.2)) (u := _) ?_ ?_ ?_ ?_
        · cases js with
          | nil => simp at hjs
          | cons j js => simp
        · rw [List.map_map] at hs ⊢
          exact hs
        · rw [hkeys, List.map_map]
          have : ((fun x : Bytes × Bytes => x.1) ∘ fun p : (Bytes × Property) × Bytes => (M.str p.1.1, p.2)) =
            (fun kv : Bytes × Property => M.str kv.1) ∘ Prod.fst := rfl
          rw [this, ← List.map_map, zip_fst g2, List.forall₂_map_left_iff, List.forall₂_map_right_iff,
            List.forall₂_same]
          exact fun kv hkv => key_text hM (h4 kv hkv)
        · rw [hvals, List.map_map]
          have : ((fun x : Bytes × Bytes => x.2) ∘ fun p : (Bytes × Property) × Bytes => (M.str p.1.1, p.2)) =
            Prod.snd := rfl
          rw [this, zip_snd g2]
          exact g3
    · refine .block (by rw [hkeys]; exact h1) (by rw [hkeys]; exact h2) (by rw [hkeys]; exact h3) hkeys ?_
      rw [hvals]; exact g4
  | @time t h1 h2 =>
    obtain ⟨g1, g2, g3, g4⟩ := hM.time (t * 1000)
    refine ⟨_, .str (M.time (t * 1000)), by rw [marshal], by simp [MarshalExt.str], str_text hM g2, .time g3 ?_, by simp⟩
    rw [g4, Option.some.injEq]
    have e : (t * 1000).toInt = t.toInt * 1000 := by
      rw [BitVec.toInt_mul, show (1000 : BitVec 64).toInt = 1000 by decide, Int.bmod_def]
      split <;> omega
    rw [e, Int.mul_ediv_cancel _ (by decide), BitVec.ofInt_toInt]
  | @array props c h1 _ h3 h4 ih =>
    obtain ⟨ts, js, g1, g2, g3, g4⟩ := carried_items props ih
    have hjs : js ≠ [] := by rintro rfl; cases g3; exact h1 rfl
    refine ⟨_, .arr js, by rw [marshal, g1, pure_bind], by simp, .arr hjs (separated_commas ts) g2,
      .array hjs (fun b hb => h4 b (g4 b hb)) g3 h3, by simp⟩
  | @binary b h1 h2 =>
    exact ⟨_, _, marshal_binary h2, by simp [MarshalExt.str], str_text hM (utf8_ascii _ (hexEncode_ascii b)),
      .binary (hexText_encode b) h1, by simp⟩
  | @bools bs h1 h2 =>
    exact ⟨_, .arr (bs.map .bool), marshal_bools h2, by simp,
      .arr (by simpa using h1) (separated_commas _) (bools_text bs), .bools h1, by simp⟩

/-- C55: a JSON text has one value. -/
theorem C55_one_value (hM : M.Lawful X N) {t : Bytes} {j j' : JVal} (h : JText N t j) (h' : JText N t j') : j = j' :=
  jtext_unique hM.numbers h h'

/-- `[1,-7]` after a blank. -/
example : JText sampleNumber ([32] ++ ([91] ++ ([49] ++ [44] ++ [45, 55]) ++ [93]) ++ [])
    (.arr [.num (F64.ofInt 1), .num (F64.ofInt (-7))]) := by
  refine .pad (by simp [Blank]) (by simp [Blank]) (.arr (ts := [[49], [45, 55]]) (by simp) ⟨_, rfl, rfl⟩
    (.cons (.num (.inl ⟨1, ?_, by decide, rfl⟩)) (.cons (.num (.inl ⟨-7, ?_, by decide, rfl⟩)) .nil)))
  · exact .inl ⟨by decide, by simp, by decide, by decide, by decide⟩
  · exact .inr ⟨by decide, _, rfl, by simp, by decide, by decide, by decide⟩

/-- C55: metadata that JSON can carry is written as a JSON text, whose value is read as the same metadata. -/
theorem C55_roundtrip_partial (hX : X.Lawful) (hM : M.Lawful X N) {p : Property} (h : Portable X p) :
    ∃ t, marshal M p = pure t ∧ (∃ j, JText N t j) ∧ ∀ j, JText N t j → getProperties X j = pure p := by
  obtain ⟨t, j, h1, -, h3, h4, -⟩ := carried_of_portable hM h
  exact ⟨t, h1, ⟨j, h3⟩, fun j' h' => by rw [← C55_one_value hM h3 h']; exact C43_kinds_partial hX h4⟩

/-- Text, integers, floats, vectors, bytes, times, booleans and blocks. -/
def portableBlock : Block :=
  [(b!"who", .str b!"me"), (b!"n", .int32 (-7)), (b!"f", .array 2 [.f32 0x3F000000, .f32 0x3E800000]),
   (b!"p", .vec2 0x3FF0000000000000 0x4000000000000000), (b!"b", .byte 31), (b!"t", .time 1000000),
   (b!"l", .newBoolArray [true, false]), (b!"d", .newBinaryArray [1, 2, 3]), (b!"o", .block [(b!"x", .bool true)])]

theorem portableBlock_portable : Portable sampleReader (.block portableBlock) := by
  have hhalf : ∀ (q : ℚ) (n : Nat), 1 < n → q * n = 1 → ∀ i : Int, q ≠ i := by
    rintro q n h1 h2 i rfl
    have h3 : i * n = 1 := by exact_mod_cast h2
    have := Int.eq_one_or_neg_one_of_mul_eq_one' h3
    omega
  refine .block (by decide) (by decide) (by decide) ?_ ?_
  · have : ∀ kv ∈ portableBlock, ∀ c ∈ kv.1, c < 128 := by
      intro kv hkv
      simp only [portableBlock, List.mem_cons, List.not_mem_nil, or_false] at hkv
      rcases hkv with rfl | rfl | rfl | rfl | rfl | rfl | rfl | rfl | rfl <;> decide
    exact fun kv hkv => utf8_ascii _ (this kv hkv)
  · intro kv hkv
    simp only [portableBlock, List.mem_cons, List.not_mem_nil, or_false] at hkv
    rcases hkv with rfl | rfl | rfl | rfl | rfl | rfl | rfl | rfl | rfl
    · exact .str (utf8_ascii _ (by decide)) (by simp only [PlainText]; decide) (by decide) (by decide)
    · exact .int32
    · refine .array (by simp) ?_ ?_ (by simp)
      · intro p hp
        simp only [List.mem_cons, List.not_mem_nil, or_false] at hp
        rcases hp with rfl | rfl
        · exact .f32 (q := 1 / 2) (by decide +kernel) (hhalf _ 2 (by decide) (by norm_num))
        · exact .f32 (q := 1 / 4) (by decide +kernel) (hhalf _ 4 (by decide) (by norm_num))
      · intro p hp
        simp only [List.mem_cons, List.not_mem_nil, or_false] at hp
        rcases hp with rfl | rfl <;> rfl
    · exact .vec2 (p := 1) (q := 2) (by decide +kernel) (by decide +kernel)
    · exact .byte
    · exact .time (by decide) (by decide)
    · exact .bools (by simp) (by decide)
    · exact .binary (by decide) (by decide)
    · refine .block (by simp) (by decide) (by decide) ?_ ?_
      · simp only [List.mem_cons, List.not_mem_nil, or_false, forall_eq]
        exact utf8_ascii _ (by decide)
      · simp only [List.mem_cons, List.not_mem_nil, or_false, forall_eq]
        exact .bool

/-- The sample survives. -/
example : ∃ t, marshal sampleMarshal (.block portableBlock) = pure t ∧ (∃ j, JText sampleNumber t j) ∧
    ∀ j, JText sampleNumber t j → getProperties sampleReader j = pure (.block portableBlock) :=
  C55_roundtrip_partial sampleReader_lawful sampleMarshal_lawful portableBlock_portable

/-! ## What can be written -/

theorem key_text_any (hM : M.Lawful X N) (k : Bytes) : ∃ k', KeyText (M.str k) k' :=
  let ⟨k', h⟩ := hM.quote_any k
  ⟨k', [], [], M.quote k, by simp [Blank], by simp [Blank], h, by simp [MarshalExt.str]⟩

theorem str_text_any (hM : M.Lawful X N) (k : Bytes) : ∃ k', JText N (M.str k) (.str k') :=
  let ⟨k', h⟩ := hM.quote_any k
  ⟨k', .str h⟩

/-- Some JSON text is written. -/
def Written (M : MarshalExt) (N : Bytes → F64 → Prop) (p : Property) : Prop :=
  ∃ t j, marshal M p = pure t ∧ t ≠ [] ∧ JText N t j

theorem written_members (hM : M.Lawful X N) : (kvs : Block) → (∀ kv ∈ kvs, Written M N kv.2) →
    ∃ (ms : List (Bytes × Bytes)) (d : List (Bytes × JVal)),
    marshalMembers M kvs = pure (ms.map fun m => m.1 ++ [58] ++ m.2) ∧ ms.length = kvs.length ∧
    List.Forall₂ KeyText (ms.map (·.1)) (d.map (·.1)) ∧ List.Forall₂ (JText N) (ms.map (·.2)) (d.map (·.2))
  | [], _ => ⟨[], [], by rw [marshalMembers]; rfl, rfl, .nil, .nil⟩
  | (k, p) :: kvs, h => by
    obtain ⟨t, j, h1, h2, h3⟩ := h (k, p) (by simp)
    obtain ⟨ms, d, g1, g2, g3, g4⟩ := written_members hM kvs fun kv hkv => h kv (by simp [hkv])
    obtain ⟨k', hk⟩ := key_text_any hM k
    dsimp only at h1
    refine ⟨(M.str k, t) :: ms, (k', j) :: d, ?_, by simp [g2], .cons hk g3, .cons h3 g4⟩
    rw [marshalMembers, h1, pure_bind, nested_pure h2, pure_bind, g1, pure_bind]
    rfl

theorem written_items : (ps : List Property) → (∀ p ∈ ps, Written M N p) → ∃ (ts : List Bytes) (js : List JVal),
    marshalItems M ps = pure ts ∧ List.Forall₂ (JText N) ts js ∧ ts.length = ps.length
  | [], _ => ⟨[], [], by rw [marshalItems], .nil, rfl⟩
  | p :: ps, h => by
    obtain ⟨t, j, h1, h2, h3⟩ := h p (by simp)
    obtain ⟨ts, js, g1, g2, g3⟩ := written_items ps fun p hp => h p (by simp [hp])
    refine ⟨t :: ts, j :: js, ?_, .cons h3 g2, by simp [g3]⟩
    rw [marshalItems, h1, pure_bind, nested_pure h2, pure_bind, g1, pure_bind]

theorem array_text {ts : List Bytes} {js : List JVal} (h : List.Forall₂ (JText N) ts js) :
    JText N ([91] ++ commas ts ++ [93]) (.arr js) := by
  cases js with
  | nil =>
    cases h
    exact .arr0 (w := []) (by simp [Blank])
  | cons j js => exact .arr (by simp) (separated_commas ts) h

theorem object_text {ms : List (Bytes × Bytes)} {d : List (Bytes × JVal)}
    (h1 : List.Forall₂ KeyText (ms.map (·.1)) (d.map (·.1)))
    (h2 : List.Forall₂ (JText N) (ms.map (·.2)) (d.map (·.2))) :
    JText N ([123] ++ commas (ms.map fun m => m.1 ++ [58] ++ m.2) ++ [125]) (.obj d) := by
  cases d with
  | nil =>
    have := h1.length_eq
    cases ms with
    | nil => exact .obj0 (w := []) (by simp [Blank])
    | cons m ms => simp at this
  | cons kv d => exact .obj (by simp) (separated_commas _) h1 h2

theorem written_of_writable (hM : M.Lawful X N) {p : Property} (h : Writable p) : Written M N p := by
  induction h with
  | @str s =>
    obtain ⟨s', hs⟩ := str_text_any hM s
    exact ⟨_, _, by rw [marshal], by simp [MarshalExt.str], hs⟩
  | @int32 i =>
    obtain ⟨d, h1, h2⟩ := hM.integer _ i.toInt (decimal_spec _) (by have := i.toInt_lt; have := i.le_toInt; omega)
    exact ⟨_, .num d, by rw [marshal], (hM.number_text _ _ h1).1, .num h1⟩
  | @f32 f q h1 =>
    obtain ⟨t, d, r, g1, g2, -⟩ := hM.float32 f q h1
    exact ⟨t, .num d, by rw [marshal, g1]; rfl, (hM.number_text _ _ g2).1, .num g2⟩
  | @bool b =>
    cases b
    · exact ⟨_, _, by rw [marshal]; rfl, by decide, .false⟩
    · exact ⟨_, _, by rw [marshal]; rfl, by decide, .true⟩
  | @byte b =>
    obtain ⟨s', hs⟩ := str_text_any hM (b!"0x" ++ hexEncode [b])
    exact ⟨_, _, by rw [marshal], by simp [MarshalExt.str], hs⟩
  | vec2 h1 h2 =>
    have := carried_of_portable hM (.vec2 h1 h2)
    obtain ⟨t, j, g1, g2, g3, -⟩ := this
    exact ⟨t, j, g1, g2, g3⟩
  | vec3 h1 h2 h3 =>
    have := carried_of_portable hM (.vec3 h1 h2 h3)
    obtain ⟨t, j, g1, g2, g3, -⟩ := this
    exact ⟨t, j, g1, g2, g3⟩
  | @block kvs _ ih =>
    obtain ⟨ms, d, g1, -, g3, g4⟩ := written_members hM kvs ih
    exact ⟨_, .obj d, by rw [marshal, g1, pure_bind], by simp, object_text g3 g4⟩
  | @time t =>
    obtain ⟨s', hs⟩ := str_text_any hM (M.time (t * 1000))
    exact ⟨_, _, by rw [marshal], by simp [MarshalExt.str], hs⟩
  | @array props c _ ih =>
    obtain ⟨ts, js, g1, g2, -⟩ := written_items props ih
    exact ⟨_, .arr js, by rw [marshal, g1, pure_bind], by simp, array_text g2⟩
  | @binary b h2 =>
    obtain ⟨s', hs⟩ := str_text_any hM (b!"0x" ++ hexEncode b)
    exact ⟨_, _, marshal_binary h2, by simp [MarshalExt.str], hs⟩
  | @bools bs h2 => exact ⟨_, .arr (bs.map .bool), marshal_bools h2, by simp, array_text (bools_text bs)⟩
  | nil => exact ⟨_, _, by rw [marshal], by decide, .null⟩

/-- C55: metadata whose numbers are finite is written, as a JSON text. -/
theorem C55_written (hM : M.Lawful X N) {p : Property} (h : Writable p) :
    ∃ t j, marshal M p = pure t ∧ JText N t j := by
  obtain ⟨t, j, h1, -, h3⟩ := written_of_writable hM h
  exact ⟨t, j, h1, h3⟩

/-- Empty arrays, missing values and whole float32s are written. -/
example : Writable (.block [(b!"a", .array 0 []), (b!"n", .nil), (b!"f", .f32 0x3F800000)]) := by
  refine .block ?_
  simp only [List.mem_cons, List.not_mem_nil, or_false, forall_eq_or_imp, forall_eq]
  exact ⟨.array (by simp), .nil, .f32 (q := 1) (by decide +kernel)⟩

theorem nested_iff {t u : Bytes} (h : nested t = pure u) : t ≠ [] ∧ u = t := by
  rw [nested] at h
  split at h
  · exact absurd h GoE.fail_ne
  · next ht => exact ⟨ht, (GoE.pure_inj.1 h).symm⟩

mutual
theorem json_of_marshal (hM : M.Lawful X N) : (p : Property) → ∀ t, marshal M p = pure t → t ≠ [] → ∃ j, JText N t j
  | .str s, t, h, _ => by
    rw [marshal] at h
    obtain ⟨s', hs⟩ := str_text_any hM s
    exact GoE.pure_inj.1 h ▸ ⟨_, hs⟩
  | .int32 i, t, h, _ => by
    rw [marshal] at h
    obtain ⟨d, h1, h2⟩ := hM.integer _ i.toInt (decimal_spec _) (by have := i.toInt_lt; have := i.le_toInt; omega)
    exact GoE.pure_inj.1 h ▸ ⟨_, .num h1⟩
  | .f32 f, t, h, _ => by
    rw [marshal, GoE.get_pure] at h
    by_cases hf : ∃ q, number32 f = .fin q
    · obtain ⟨q, hq⟩ := hf
      obtain ⟨t', d, r, g1, g2, -⟩ := hM.float32 f q hq
      rw [h, Option.some.injEq] at g1
      exact ⟨_, .num (g1 ▸ g2)⟩
    · rw [hM.float32_none f fun q hq => hf ⟨q, hq⟩] at h
      simp at h
  | .bool b, t, h, _ => by
    rw [marshal] at h
    cases b
    · exact GoE.pure_inj.1 h ▸ ⟨_, .false⟩
    · exact GoE.pure_inj.1 h ▸ ⟨_, .true⟩
  | .byte b, t, h, _ => by
    rw [marshal] at h
    obtain ⟨s', hs⟩ := str_text_any hM (b!"0x" ++ hexEncode [b])
    exact GoE.pure_inj.1 h ▸ ⟨_, hs⟩
  | .vec2 x y, t, h, _ => by
    have hf : ∀ x t, M.float64 x = some t → ∃ q, number64 x = .fin q := by
      intro x t hx
      by_contra hn
      rw [hM.float64_none x fun q hq => hn ⟨q, hq⟩] at hx
      simp at hx
    have h0 := h
    rw [marshal, GoE.bind_pure_iff] at h
    obtain ⟨tx, h1, h⟩ := h
    rw [GoE.bind_pure_iff] at h
    obtain ⟨ty, h2, -⟩ := h
    rw [GoE.get_pure] at h1 h2
    obtain ⟨p, hp⟩ := hf _ _ h1
    obtain ⟨q, hq⟩ := hf _ _ h2
    obtain ⟨t', j, g1, g2, g3, -⟩ := carried_of_portable hM (.vec2 hp hq)
    rw [h0] at g1
    exact ⟨j, GoE.pure_inj.1 g1 ▸ g3⟩
  | .vec3 x y z, t, h, _ => by
    have hf : ∀ x t, M.float64 x = some t → ∃ q, number64 x = .fin q := by
      intro x t hx
      by_contra hn
      rw [hM.float64_none x fun q hq => hn ⟨q, hq⟩] at hx
      simp at hx
    have h0 := h
    rw [marshal, GoE.bind_pure_iff] at h
    obtain ⟨tx, h1, h⟩ := h
    rw [GoE.bind_pure_iff] at h
    obtain ⟨ty, h2, h⟩ := h
    rw [GoE.bind_pure_iff] at h
    obtain ⟨tz, h3, -⟩ := h
    rw [GoE.get_pure] at h1 h2 h3
    obtain ⟨p, hp⟩ := hf _ _ h1
    obtain ⟨q, hq⟩ := hf _ _ h2
    obtain ⟨r, hr⟩ := hf _ _ h3
    obtain ⟨t', j, g1, g2, g3, -⟩ := carried_of_portable hM (.vec3 hp hq hr)
    rw [h0] at g1
    exact ⟨j, GoE.pure_inj.1 g1 ▸ g3⟩
  | .block kvs, t, h, _ => by
    rw [marshal, GoE.bind_pure_iff] at h
    obtain ⟨ts, h1, h⟩ := h
    obtain ⟨ms, d, rfl, g3, g4⟩ := json_of_members hM kvs ts h1
    exact GoE.pure_inj.1 h ▸ ⟨_, object_text g3 g4⟩
  | .time t', t, h, _ => by
    rw [marshal] at h
    obtain ⟨s', hs⟩ := str_text_any hM (M.time (t' * 1000))
    exact GoE.pure_inj.1 h ▸ ⟨_, hs⟩
  | .array c props, t, h, _ => by
    rw [marshal, GoE.bind_pure_iff] at h
    obtain ⟨ts, h1, h⟩ := h
    obtain ⟨js, g⟩ := json_of_items hM props ts h1
    exact GoE.pure_inj.1 h ▸ ⟨_, array_text g⟩
  | .raw base data, t, h, ht => by
    rw [marshal] at h
    split at h
    · rw [GoE.bind_pure_iff] at h
      obtain ⟨b, -, h⟩ := h
      obtain ⟨s', hs⟩ := str_text_any hM (b!"0x" ++ hexEncode b)
      exact GoE.pure_inj.1 h ▸ ⟨_, hs⟩
    · split at h
      · rw [GoE.bind_pure_iff] at h
        obtain ⟨b, -, h⟩ := h
        have e : b.map (fun c => boolText (c &&& 1 == 1)) = (b.map fun c => (c &&& 1 == 1)).map boolText := by
          rw [List.map_map]; rfl
        rw [e] at h
        exact GoE.pure_inj.1 h ▸ ⟨_, array_text (bools_text _)⟩
      · exact absurd (GoE.pure_inj.1 h).symm ht
  | .nil, t, h, _ => by
    rw [marshal] at h
    exact GoE.pure_inj.1 h ▸ ⟨_, .null⟩

theorem json_of_members (hM : M.Lawful X N) : (kvs : List (Bytes × Property)) → ∀ ts, marshalMembers M kvs = pure ts →
    ∃ (ms : List (Bytes × Bytes)) (d : List (Bytes × JVal)), ts = (ms.map fun m => m.1 ++ [58] ++ m.2) ∧
    List.Forall₂ KeyText (ms.map (·.1)) (d.map (·.1)) ∧ List.Forall₂ (JText N) (ms.map (·.2)) (d.map (·.2))
  | [], ts, h => by
    rw [marshalMembers] at h
    exact ⟨[], [], (GoE.pure_inj.1 h).symm, .nil, .nil⟩
  | (k, p) :: kvs, ts, h => by
    rw [marshalMembers, GoE.bind_pure_iff] at h
    obtain ⟨t, h1, h⟩ := h
    rw [GoE.bind_pure_iff] at h
    obtain ⟨t', h2, h⟩ := h
    obtain ⟨ht, rfl⟩ := nested_iff h2
    rw [GoE.bind_pure_iff] at h
    obtain ⟨us, h3, h⟩ := h
    obtain ⟨j, hj⟩ := json_of_marshal hM p _ h1 ht
    obtain ⟨ms, d, rfl, g3, g4⟩ := json_of_members hM kvs us h3
    obtain ⟨k', hk⟩ := key_text_any hM k
    exact ⟨(M.str k, _) :: ms, (k', j) :: d, (GoE.pure_inj.1 h).symm, .cons hk g3, .cons hj g4⟩

theorem json_of_items (hM : M.Lawful X N) : (ps : List Property) → ∀ ts, marshalItems M ps = pure ts →
    ∃ js, List.Forall₂ (JText N) ts js
  | [], ts, h => by
    rw [marshalItems] at h
    exact GoE.pure_inj.1 h ▸ ⟨[], .nil⟩
  | p :: ps, ts, h => by
    rw [marshalItems, GoE.bind_pure_iff] at h
    obtain ⟨t, h1, h⟩ := h
    rw [GoE.bind_pure_iff] at h
    obtain ⟨t', h2, h⟩ := h
    obtain ⟨ht, rfl⟩ := nested_iff h2
    rw [GoE.bind_pure_iff] at h
    obtain ⟨us, h3, h⟩ := h
    obtain ⟨j, hj⟩ := json_of_marshal hM p _ h1 ht
    obtain ⟨js, g⟩ := json_of_items hM ps us h3
    exact GoE.pure_inj.1 h ▸ ⟨j :: js, .cons hj g⟩
end

/-- C55: whatever is written for a block of metadata is a JSON text. -/
theorem C55_json (hM : M.Lawful X N) {md : Block} {t : Bytes} (h : marshal M (.block md) = pure t) : ∃ j, JText N t j := by
  refine json_of_marshal hM _ t h ?_
  rw [marshal, GoE.bind_pure_iff] at h
  obtain ⟨ts, -, h⟩ := h
  rw [← GoE.pure_inj.1 h]
  simp

/-- A block with a byte. -/
example : ∃ t, marshal sampleMarshal (.block [(b!"b", .byte 31)]) = pure t :=
  ⟨_, by rw [marshal, marshalMembers, marshalMembers, marshal]; rfl⟩

/-- C55: an infinity or NaN anywhere among the coordinates of a vector, or as a float32, is an error, which the block around
it passes on. -/
theorem C55_not_finite (hM : M.Lawful X N) {f : F32} {x y : F64} (hf : ∀ q, number32 f ≠ .fin q)
    (hx : ∀ q, number64 x ≠ .fin q) (k : Bytes) :
    (∃ n, marshal M (.f32 f) = GoE.fail n) ∧ (∃ n, marshal M (.vec2 x y) = GoE.fail n) ∧
    (∃ n, marshal M (.block [(k, .f32 f)]) = GoE.fail n) ∧
    (∃ n, marshal M (.array 6 [.vec2 x y]) = GoE.fail n) := by
  have h1 := hM.float32_none f hf
  have h2 := hM.float64_none x hx
  refine ⟨⟨21, by rw [marshal, h1]; rfl⟩, ⟨22, by rw [marshal, h2]; rfl⟩, ⟨21, ?_⟩, ⟨22, ?_⟩⟩
  · rw [marshal, marshalMembers, marshal, h1]; rfl
  · rw [marshal, marshalItems, marshal, h2]; rfl

/-- NaN and infinity. -/
example : (∀ q, number32 0x7FC00000 ≠ .fin q) ∧ (∀ q, number64 0x7FF0000000000000 ≠ .fin q) := by
  have h1 : number32 0x7FC00000 = .nan := by decide +kernel
  have h2 : number64 0x7FF0000000000000 = .pinf := by decide +kernel
  exact ⟨fun q => by rw [h1]; simp, fun q => by rw [h2]; simp⟩

/-! ## What JSON does not carry -/

/-- C55: an integral float32 (up to 2^24) is read as an int32. -/
theorem C55_integral_float (hM : M.Lawful X N) {f : F32} {i : Int} (h : number32 f = .fin i) (hi : i.natAbs ≤ 2 ^ 24) :
    ∃ t d, marshal M (.f32 f) = pure t ∧ JText N t (.num d) ∧
      getProperties X (.num d) = pure (.int32 (BitVec.ofInt 32 i)) := by
  obtain ⟨t, d, h1, h2, h3⟩ := hM.float32_exact f i h hi
  refine ⟨t, d, by rw [marshal, h1]; rfl, .num h2, ?_⟩
  rw [getProperties]
  exact number_int h3 (by omega) (by omega)

/-- 3.0 -/
example : number32 0x40400000 = .fin (3 : Int) ∧ (3 : Int).natAbs ≤ 2 ^ 24 := ⟨by decide +kernel, by decide⟩

/-- C55: a byte string of length one and a byte have the same text. -/
theorem C55_one_byte (b : UInt8) : marshal M (.newBinaryArray [b]) = marshal M (.byte b) := by
  rw [marshal_binary (by simp), marshal]

/-- C55: empty arrays, and empty lists of booleans, are written as `[]`, which cannot be read: the reader panics. -/
theorem C55_empty_array (c : UInt8) : marshal M (.array c []) = pure b!"[]" ∧ marshal M (.newBoolArray []) = pure b!"[]" ∧
    JText N b!"[]" (.arr []) ∧ getProperties X (.arr []) = GoE.panic .indexOutOfRange := by
  refine ⟨by rw [marshal, marshalItems]; rfl, ?_, .arr0 (w := []) (by simp [Blank]), C43_empty_array⟩
  rw [marshal_bools (by simp)]
  rfl

/-- C55: a time is read as written exactly if it is within 292 years of 1970 (a 64 bit count of nanoseconds). -/
theorem C55_times (hX : X.Lawful) (hM : M.Lawful X N) (t : BitVec 64) :
    ∃ s, marshal M (.time t) = pure (M.str s) ∧ JText N (M.str s) (.str s) ∧
      ∃ t', getProperties X (.str s) = pure (.time t') ∧
        (t' = t ↔ -2 ^ 63 ≤ t.toInt * 1000 ∧ t.toInt * 1000 < 2 ^ 63) := by
  obtain ⟨g1, g2, g3, g4⟩ := hM.time (t * 1000)
  refine ⟨M.time (t * 1000), by rw [marshal], str_text hM g2, _, C43_kinds_partial hX (.time g3 g4), ?_⟩
  have h1 := t.toInt_lt
  have h2 := t.le_toInt
  constructor
  · intro h
    have h3 := congrArg BitVec.toInt h
    rw [BitVec.toInt_ofInt, BitVec.toInt_mul, show (1000 : BitVec 64).toInt = 1000 by decide] at h3
    rw [Int.bmod_def, Int.bmod_def] at h3
    split at h3 <;> split at h3 <;> omega
  · rintro ⟨h3, h4⟩
    have e : (t * 1000).toInt = t.toInt * 1000 := by
      rw [BitVec.toInt_mul, show (1000 : BitVec 64).toInt = 1000 by decide, Int.bmod_def]
      split <;> omega
    rw [e, Int.mul_ediv_cancel _ (by decide), BitVec.ofInt_toInt]

/-- The year 2262 is the last. -/
example : (9223372036854775 : BitVec 64).toInt * 1000 < 2 ^ 63 ∧ ¬ (9223372036854776 : BitVec 64).toInt * 1000 < 2 ^ 63 := by
  decide

/-- C55: a block of two texts named x and y is written, but reading it panics. -/
theorem C55_text_vector (hM : M.Lawful X N) {s t : Bytes} (hs : Utf8 s) (ht : Utf8 t) :
    ∃ text, marshal M (.block [(b!"x", .str s), (b!"y", .str t)]) = pure text ∧
      JText N text (.obj [(b!"x", .str s), (b!"y", .str t)]) ∧
      getProperties X (.obj [(b!"x", .str s), (b!"y", .str t)]) = GoE.panic .typeAssertion := by
  refine ⟨_, ?_, object_text (ms := [(M.str b!"x", M.str s), (M.str b!"y", M.str t)]) ?_ ?_, C43_text_vector⟩
  · have : ∀ s, M.str s ≠ [] := by simp [MarshalExt.str]
    simp only [marshal, marshalMembers, nested_pure (this _), pure_bind]
    rfl
  · exact .cons (key_text hM (utf8_ascii _ (by decide))) (.cons (key_text hM (utf8_ascii _ (by decide))) .nil)
  · exact .cons (str_text hM hs) (.cons (str_text hM ht) .nil)

example : Utf8 b!"left" ∧ Utf8 b!"right" := ⟨utf8_ascii _ (by decide), utf8_ascii _ (by decide)⟩

/-- C55: a text with a control character is written, but cannot be read. -/
theorem C55_control (hM : M.Lawful X N) {s t : Bytes} {c : UInt8} (hc : c < 32) (hs : Utf8 (s ++ c :: t))
    (h0 : ¬ b!"0x" <+: s ++ c :: t) (ht : X.parseTime (s ++ c :: t) = none) (h92 : ∀ b ∈ s, b ≠ 92) :
    ∃ text n, marshal M (.str (s ++ c :: t)) = pure text ∧ JText N text (.str (s ++ c :: t)) ∧
      getProperties X (.str (s ++ c :: t)) = GoE.fail n := by
  obtain ⟨n, hn⟩ := C43_control hc h0 ht h92
  exact ⟨_, n, by rw [marshal], str_text hM hs, hn⟩

/-- "a", line feed, "b". -/
example : Utf8 ([97] ++ 10 :: [98]) ∧ ¬ b!"0x" <+: [97] ++ 10 :: [98] ∧ sampleReader.parseTime ([97] ++ 10 :: [98]) = none :=
  ⟨utf8_ascii _ (by decide), by decide, by decide⟩

end Rap
