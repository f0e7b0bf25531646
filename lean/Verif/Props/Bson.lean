import Verif.Proof.Bson

/-!
# C80: metadata written as BSON
-/

namespace Rap

theorem BsonDoc.unique {t : Bytes} {d d' : List (Bytes × BVal)} (h : BsonDoc t d) (h' : BsonDoc t d') : d = d' := by
  obtain ⟨n, body, e, h1, -, hn⟩ := h
  obtain ⟨n', body', e', h1', -, hn'⟩ := h'
  have hl := hn.1.trans hn'.1.symm
  obtain ⟨rfl, e2⟩ := List.append_inj (e.symm.trans e') hl
  rw [List.append_cancel_right e2] at h1
  exact bson_unique h1 h1'

/-- The bytes of the metadata are the BSON document of that metadata. -/
theorem C80_document {kvs : Block} (h : BsonReady (.block kvs)) (hz : zeroFree (.block kvs) = true)
    (hr : bsonRoom (.block kvs) < 2 ^ 31) :
    ∃ t d, bsonBlock kvs = pure t ∧ BsonDoc t d ∧ BsonMeans (.block kvs) (.doc d) := by
  rw [bsonRoom] at hr
  rw [zeroFree] at hz
  have h' : (∀ kv ∈ kvs, Utf8 kv.1) ∧ ∀ kv ∈ kvs, BsonReady kv.2 := by cases h with | block a b => exact ⟨a, b⟩
  obtain ⟨body, d, h1, h2, h3, h4, h5⟩ := bson_members kvs h'.1 h'.2 hz (by omega)
  have hl : (leBytes 4 (body.length + 5) ++ (body ++ [0])).length = body.length + 5 := by
    simp only [List.length_append, leBytes_length, List.length_cons, List.length_nil]; omega
  refine ⟨leBytes 4 (body.length + 5) ++ (body ++ [0]), d, ?_,
    ⟨leBytes 4 (body.length + 5), body, rfl, h3, by omega, ?_⟩, .block h4 h5⟩
  · rw [bsonBlock, h1, pure_bind, bson_document (by omega), List.append_assoc]
  · rw [hl]
    exact little_leBytes (by omega)

/-- A key with a zero anywhere in the metadata, or a document of 2 GiB: nothing is written. -/
theorem C80_refused {kvs : Block} {t : Bytes} (h : bsonBlock kvs = pure t) :
    zeroFree (.block kvs) = true ∧ t.length < 2 ^ 31 := by
  obtain ⟨body, h1, h2⟩ := GoE.bind_pure_iff.1 h
  exact ⟨by rw [zeroFree]; exact members_zeroFree kvs body h1, document_size h2⟩

/-- A document has one reading, so blocks written as the same bytes stand for the same BSON values. -/
theorem C80_same {kvs kvs' : Block} (h : BsonReady (.block kvs)) (h' : BsonReady (.block kvs'))
    (hz : zeroFree (.block kvs) = true) (hz' : zeroFree (.block kvs') = true)
    (hr : bsonRoom (.block kvs) < 2 ^ 31) (hr' : bsonRoom (.block kvs') < 2 ^ 31)
    (e : bsonBlock kvs = bsonBlock kvs') :
    ∃ d, BsonMeans (.block kvs) (.doc d) ∧ BsonMeans (.block kvs') (.doc d) ∧
      ∀ t, bsonBlock kvs = pure t → ∀ d', BsonDoc t d' → d' = d := by
  obtain ⟨t, d, h1, h2, h3⟩ := C80_document h hz hr
  obtain ⟨t', d', h1', h2', h3'⟩ := C80_document h' hz' hr'
  have ht : t = t' := GoE.pure_inj.1 (h1.symm.trans (e.trans h1'))
  subst ht
  rw [h2'.unique h2] at h3'
  refine ⟨d, h3, h3', fun t' ht' d'' hd'' => ?_⟩
  rw [← GoE.pure_inj.1 (h1.symm.trans ht')] at hd''
  exact hd''.unique h2

/-- Two computations that succeed with the same bytes. -/
def sameOk (x y : GoE Bytes) : Bool :=
  match x.run, y.run with
  | .ok (.ok a), .ok (.ok b) => decide (a = b)
  | _, _ => false

theorem goE_eq : {x y : GoE Bytes} → sameOk x y = true → x = y
  | .ok (.ok _), .ok (.ok _), h => congrArg (pure : Bytes → GoE Bytes) (of_decide_eq_true h)
  | .error _, .error _, h => nomatch (show false = true from h)
  | .error _, .ok (.error _), h => nomatch (show false = true from h)
  | .error _, .ok (.ok _), h => nomatch (show false = true from h)
  | .ok (.error _), .error _, h => nomatch (show false = true from h)
  | .ok (.error _), .ok (.error _), h => nomatch (show false = true from h)
  | .ok (.error _), .ok (.ok _), h => nomatch (show false = true from h)
  | .ok (.ok _), .error _, h => nomatch (show false = true from h)
  | .ok (.ok _), .ok (.error _), h => nomatch (show false = true from h)

/-- The types of the properties are not kept: a byte and an integer, a vector and a block of two floats, the two
kinds of arrays of booleans, and times within a millisecond of each other are written alike. -/
theorem C80_types_lost :
    bsonBlock [(b!"a", .byte 7)] = bsonBlock [(b!"a", .int32 7)] ∧
    bsonBlock [(b!"a", .vec2 0x3FF0000000000000 0x4000000000000000)] =
      bsonBlock [(b!"a", .block [(b!"x", .f32 0x3F800000), (b!"y", .f32 0x40000000)])] ∧
    bsonBlock [(b!"a", .newBoolArray [true])] = bsonBlock [(b!"a", .array 0 [.bool true])] ∧
    bsonBlock [(b!"a", .time 1000)] = bsonBlock [(b!"a", .time 1999)] ∧
    bsonBlock [(b!"a", .time (-1))] = bsonBlock [(b!"a", .time (-1000))] := by
  refine ⟨goE_eq ?_, goE_eq ?_, goE_eq ?_, goE_eq ?_, goE_eq ?_⟩ <;> decide +kernel

/-- Metadata of several types. -/
def bsonSample : Block :=
  [(b!"n", .str b!"hi"), (b!"b", .byte 200), (b!"v", .vec2 0x3FF0000000000000 0), (b!"s", .array 0 [.int32 (-1), .nil]),
    (b!"r", .newBinaryArray [1, 2]), (b!"f", .newBoolArray [true, false]), (b!"t", .time 1500),
    (b!"m", .block [(b!"k", .f32 0x3F800000)])]

theorem bsonSample_ready : BsonReady (.block bsonSample) := by
  have hu : ∀ kv ∈ bsonSample, Utf8 kv.1 := by
    intro kv hkv
    simp only [bsonSample, List.mem_cons, List.not_mem_nil, or_false] at hkv
    rcases hkv with rfl | rfl | rfl | rfl | rfl | rfl | rfl | rfl
    · exact ⟨['n'], by decide⟩
    · exact ⟨['b'], by decide⟩
    · exact ⟨['v'], by decide⟩
    · exact ⟨['s'], by decide⟩
    · exact ⟨['r'], by decide⟩
    · exact ⟨['f'], by decide⟩
    · exact ⟨['t'], by decide⟩
    · exact ⟨['m'], by decide⟩
  refine .block hu ?_
  intro kv hkv
  simp only [bsonSample, List.mem_cons, List.not_mem_nil, or_false] at hkv
  rcases hkv with rfl | rfl | rfl | rfl | rfl | rfl | rfl | rfl
  · exact .str ⟨['h', 'i'], by decide⟩
  · exact .byte
  · exact .vec2
  · refine .array fun p hp => ?_
    simp only [List.mem_cons, List.not_mem_nil, or_false] at hp
    rcases hp with rfl | rfl
    · exact .int32
    · exact .nil
  · exact .binary (by decide)
  · exact .bools (by decide)
  · exact .time (by decide) (by decide)
  · refine .block (fun kv hkv => ?_) (fun kv hkv => ?_) <;> rw [List.mem_singleton] at hkv <;> subst hkv
    · exact ⟨['k'], by decide⟩
    · exact .f32

/-- The sample is written, and these are the bytes of a smaller one. -/
example : (∃ t d, bsonBlock bsonSample = pure t ∧ BsonDoc t d ∧ BsonMeans (.block bsonSample) (.doc d)) ∧
    bsonBlock [(b!"n", .str b!"hi"), (b!"s", .array 0 [.bool true, .nil])] =
      pure [30, 0, 0, 0, 2, 110, 0, 3, 0, 0, 0, 104, 105, 0, 4, 115, 0, 12, 0, 0, 0, 8, 48, 0, 1, 10, 49, 0, 0, 0] := by
  refine ⟨C80_document bsonSample_ready (by decide +kernel) (by decide +kernel), goE_eq ?_⟩
  decide +kernel

/-- An array inside a block inside a block: a zero in the key of the innermost block. -/
example : zeroFree (.block bsonSample) = true ∧ ∃ t, bsonBlock bsonSample = pure t :=
  ⟨(C80_refused (C80_document bsonSample_ready (by decide +kernel) (by decide +kernel)).choose_spec.choose_spec.1).1,
    (C80_document bsonSample_ready (by decide +kernel) (by decide +kernel)).imp fun _ h => h.choose_spec.1⟩

example : ¬ ∃ t, bsonBlock [(b!"m", .array 7 [.block [([65, 0], .bool true)]])] = pure t :=
  fun ⟨_, h⟩ => absurd (C80_refused h).1 (by decide +kernel)

/-- Blocks that differ but are written alike. -/
example : BsonReady (.block [(b!"a", .byte 7)]) ∧ BsonReady (.block [(b!"a", .int32 7)]) ∧
    bsonBlock [(b!"a", .byte 7)] = bsonBlock [(b!"a", .int32 7)] := by
  have hu : Utf8 b!"a" := ⟨['a'], by decide⟩
  refine ⟨.block (fun kv h => ?_) (fun kv h => ?_), .block (fun kv h => ?_) (fun kv h => ?_), C80_types_lost.1⟩ <;>
    rw [List.mem_singleton] at h <;> subst h
  · exact hu
  · exact .byte
  · exact hu
  · exact .int32

end Rap
