import Verif.Proof.JsonOwn

/-!
# C77: metadata the library writes as JSON is read by Go's own reader

C55 and C58 speak of any reader that reads every JSON text as the grammar says. Go's reader (C75) refuses texts nested more than
10000 deep, replaces bytes that are not UTF-8 and keeps one of several members of the same name. None of this shows on what the
library writes.
-/

namespace Rap

section Own

variable {zone : Int → Int}

/-- What C55, C56 and C58 assume of the writer holds with the numbers of Go's reader. -/
theorem go_lawful (hz : ∀ s, |zone s| < 1440) : (goMarshal (goTime zone)).Lawful (goReader goParseTime) GoNumberText :=
  goMarshal_lawful_go (time_law hz)

/-- C77: metadata JSON can carry, nested at most 10000 deep, is written, and what Go reads from the text is the same metadata. -/
theorem C77_metadata (hz : ∀ s, |zone s| < 1440) {p : Property} (h : Portable (goReader goParseTime) p) (hn : NestsProp 10000 p) :
    ∃ t j, marshal (goMarshal (goTime zone)) p = pure t ∧ jsonUnmarshal t = some j ∧ getProperties (goReader goParseTime) j = pure p := by
  obtain ⟨t, j, h1, -, h3, h4, -⟩ := carried_of_portable (go_lawful hz) h
  exact ⟨t, j, h1, unmarshal_text h3 (marshal_utf8 _ p t h1) (means_proper h4) (means_nests h4 _ hn), C43_kinds_partial (C70_lawful hz).2 h4⟩

/-- Two levels -/
theorem spoken_nests : NestsProp 10000 (.block spokenBlock) := by
  refine .block (n := 9999) ?_
  simp only [spokenBlock, List.mem_cons, List.not_mem_nil, or_false, forall_eq_or_imp, forall_eq]
  exact ⟨.str, .int32, .f32, .vec2 (n := 9998), .binary, .time⟩

/-- A text, a number, a float32, a vector, a byte string and a time (`spokenBlock`, which is portable: see C70), in UTC. -/
example : ∃ t j,
    marshal (goMarshal (goTime fun _ => 0)) (.block spokenBlock) = pure t ∧ jsonUnmarshal t = some j ∧
      getProperties (goReader goParseTime) j = pure (.block spokenBlock) :=
  C77_metadata (by simp) spoken_portable spoken_nests

/-- C77: a value its own type can read, nested at most 10000 deep, is written as a text that its type, with Go's reader, reads as that
value. -/
theorem C77_own_type (hz : ∀ s, |zone s| < 1440) {p : Property} (h : Recoverable (goReader goParseTime) p) (hn : NestsProp 10000 p) :
    ∃ t, marshal (goMarshal (goTime zone)) p = pure t ∧ unmarshalLike goUnmarshal (goReader goParseTime) p t = pure p := by
  have hU := wideUnmarshal_lawful (go_lawful hz)
  obtain ⟨t, h1, h2⟩ := C58_back_partial (C70_lawful hz).2 (go_lawful hz) hU h
  obtain ⟨t', j, g1, g2, g3, g4⟩ := recoverable_text (go_lawful hz) h hn
  rw [h1] at g1
  obtain rfl := GoE.pure_inj.1 g1
  refine ⟨t, h1, ?_⟩
  rw [← h2]
  refine unmarshalLike_congr (U := goUnmarshal) (U' := wideUnmarshal) _ ?_ rfl rfl p
  rw [(hU.value _ _).2 g2]
  exact unmarshal_text g2 (marshal_utf8 _ p t h1) g3 g4

/-- A text that looks like a byte, a whole float32 and the smallest integer, which only their own types read back. -/
example : Recoverable (goReader goParseTime) (.str b!"0x07") ∧ Recoverable (goReader goParseTime) (.f32 0x3F800000) ∧
    Recoverable (goReader goParseTime) (.int32 0x80000000) ∧ NestsProp 10000 (.str b!"0x07") ∧ NestsProp 10000 (.f32 0x3F800000) ∧
    NestsProp 10000 (.int32 0x80000000) :=
  ⟨.str (utf8_ascii _ (by decide)), .f32 (q := 1) (by decide +kernel), .int32, .str, .f32, .int32⟩

/-- C77: whatever is written for a block of metadata nested at most 10000 deep, portable or not, Go's reader accepts as an object. -/
theorem C77_accepted (hz : ∀ s, |zone s| < 1440) {md : Block} {t : Bytes} (h : marshal (goMarshal (goTime zone)) (.block md) = pure t)
    (hn : NestsProp 10000 (.block md)) : ∃ d, jsonUnmarshal t = some (.obj d) := by
  have h' := h
  rw [marshal, GoE.bind_pure_iff] at h'
  obtain ⟨ts, h1, h2⟩ := h'
  obtain rfl := GoE.pure_inj.1 h2
  cases hn with
  | @block n _ hn =>
    obtain ⟨ms, d, rfl, g3, g4, g5⟩ := deep_of_members (go_lawful hz) md ts _ h1 hn
    have ht := object_text g3 g4
    have : jsonTree _ = some (.obj d) := jsonTree_iff.2 ⟨_, (coerced_utf8 (marshal_utf8 _ _ _ h)).2 rfl, ht, .obj g5⟩
    rw [jsonUnmarshal, this, Option.map_some, JVal.asMaps]
    exact ⟨_, rfl⟩

/-- A block whose names are not UTF-8, with an empty array and a missing value, which is not portable. -/
example : marshal (goMarshal (goTime fun _ => 0)) (.block [([255], .array 0 []), ([254], .nil)]) = pure b!"{\"\\ufffd\":[],\"\\ufffd\":null}" ∧
    NestsProp 10000 (.block [([255], .array 0 []), ([254], .nil)]) := by
  refine ⟨GoE.run_inj (by decide +kernel), .block (n := 9999) ?_⟩
  simp only [List.mem_cons, List.not_mem_nil, or_false, forall_eq_or_imp, forall_eq]
  exact ⟨.array (n := 9998) (by simp), .nil⟩

/-- Numbers are read as int32s and float32s wherever they were written from one. -/
example : goInt32 b!" -7 " = some (-7) ∧ goInt32 b!"2147483648" = none ∧ goInt32 b!"1.0" = none := by decide +kernel

end Own

end Rap
