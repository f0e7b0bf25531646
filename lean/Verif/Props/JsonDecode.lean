import Verif.Proof.JsonAlike
import Verif.Proof.JsonNumberGo
import Verif.Proof.JsonMaps
import Verif.Props.Json
import Verif.Props.GoJson

/-!
# C75: JSON documents are read as RFC 8259 says
-/

namespace Rap

open FloatText

theorem modestNumbers_short {t : Bytes} (h : t.length ≤ 2000) : ModestNumbers t := by
  intro u hu _ neg q e _
  exact .inr (hu.length_le.trans h)

/-- C75: bytes are accepted exactly if the UTF-8 text made of them is a JSON text with at most 10000 arrays and objects inside each
other, and the result is what the grammar says. -/
theorem C75_texts {t : Bytes} (hm : ∀ u, Coerced t u → ModestNumbers u) (j : JVal) :
    jsonTree t = some j ↔ ∃ u, Coerced t u ∧ JText JsonNumber u j ∧ Nests 10000 j := by
  rw [jsonTree_iff]
  constructor
  · rintro ⟨u, h1, h2, h3⟩
    exact ⟨u, h1, (jtext_go (hm u h1)).1 h2, h3⟩
  · rintro ⟨u, h1, h2, h3⟩
    exact ⟨u, h1, (jtext_go (hm u h1)).2 h2, h3⟩

/-- C75: the same for UTF-8 texts. -/
theorem C75_utf8 {t : Bytes} (hu : Utf8 t) (hm : ModestNumbers t) (j : JVal) :
    jsonTree t = some j ↔ JText JsonNumber t j ∧ Nests 10000 j := by
  rw [C75_texts (fun u h => by rw [(coerced_utf8 hu).1 h]; exact hm)]
  constructor
  · rintro ⟨u, h1, h2⟩
    rw [(coerced_utf8 hu).1 h1] at h2
    exact h2
  · exact fun h => ⟨t, (coerced_utf8 hu).2 rfl, h⟩

/-- C75: there is exactly one UTF-8 text made of given bytes. -/
theorem C75_one_text (t : Bytes) : ∃ u, Coerced t u ∧ ∀ u', Coerced t u' → u' = u :=
  ⟨_, coerced_iff.2 rfl, fun _ h => coerced_iff.1 h⟩

/-- C75: of members with equal names the last one counts; the result has distinct names, and texts with distinct names are not changed. -/
theorem C75_members (t : Bytes) (v : JVal) (h : jsonUnmarshal t = some v) :
    v.Proper ∧ ∃ j, jsonTree t = some j ∧ LastOnly j v ∧ (j.Proper → v = j) := by
  obtain ⟨j, h1, rfl⟩ := Option.map_eq_some_iff.1 h
  exact ⟨asMaps_proper _ j (Nat.lt_succ_self _), j, h1, asMaps_lastOnly _ j (Nat.lt_succ_self _),
    asMaps_of_proper _ j (Nat.lt_succ_self _)⟩

/-- C75: a recording parsed from bytes is the one described by the JSON text they are. -/
theorem C75_recording {X : JsonExt} (hX : X.Lawful) {t : Bytes} {r : Rec} (hm : ∀ u, Coerced t u → ModestNumbers u)
    (h : fromJSONText X t = pure r) : ∃ u j v, Coerced t u ∧ JText JsonNumber u j ∧ LastOnly j v ∧ Describes (parserReading X) v r := by
  rw [fromJSONText] at h
  split at h
  · next v hv =>
    obtain ⟨-, j, h1, h2, -⟩ := C75_members t v hv
    obtain ⟨u, h3, h4, -⟩ := (C75_texts hm j).1 h1
    exact ⟨u, j, v, h3, h4, h2, C50_parsed hX h⟩
  · cases h

/-- C75: every JSON text of the documented form is accepted and gives the recording it describes. -/
theorem C75_accepted {X : JsonExt} (hX : X.Lawful) {t : Bytes} {j : JVal} {r : Rec} (hu : Utf8 t) (hm : ModestNumbers t)
    (ht : JText JsonNumber t j) (hn : Nests 10000 j) (hp : j.Proper) (h : Describes (documentReading X) j r) :
    fromJSONText X t = pure r := by
  have h1 := (C75_utf8 hu hm j).2 ⟨ht, hn⟩
  rw [fromJSONText, jsonUnmarshal, h1, Option.map_some, asMaps_of_proper _ j (Nat.lt_succ_self _) hp]
  exact C50_accepted hX hp h

/-- C75: everything else is refused, also documents that are nested too deeply. -/
theorem C75_refused {X : JsonExt} {t : Bytes} (hm : ∀ u, Coerced t u → ModestNumbers u)
    (h : ∀ u j, Coerced t u → JText JsonNumber u j → ¬ Nests 10000 j) : fromJSONText X t = GoE.fail 60 := by
  have : jsonTree t = none := by
    cases hj : jsonTree t with
    | none => rfl
    | some j =>
      obtain ⟨u, h1, h2, h3⟩ := (C75_texts hm j).1 hj
      exact absurd h3 (h u j h1 h2)
  rw [fromJSONText, jsonUnmarshal, this]
  rfl

/-- C75: without the bound on long numbers the claim is false: a text of the number one is read as zero. -/
theorem C75_long_refuted : ∃ t, NumberText t false 1 ∧ jsonTree t = some (.num 0) := by
  have hd : Digits (List.replicate 199999 48 ++ [49]) := by
    intro c hc
    rcases List.mem_append.1 hc with h | h
    · rw [List.eq_of_mem_replicate h]; decide
    · rw [List.mem_singleton.1 h]; decide
  have hl : (List.replicate 199999 (48 : UInt8) ++ [49]).length = 200000 := by
    rw [List.length_append, List.length_replicate]; rfl
  have ht : NumberText longOne false 1 := by
    refine ⟨[48], 46 :: (List.replicate 199999 48 ++ [49]), [101, 50, 48, 48, 48, 48, 48], List.replicate 199999 48 ++ [49], 0, 200000,
      ?_, ⟨by decide, by decide, by decide, fun _ => rfl⟩, .inr ⟨(fun h => by rw [h] at hl; cases hl), hd, rfl⟩,
      .inr ⟨101, [], [50, 48, 48, 48, 48, 48], .inl rfl, by decide, by unfold Digits; decide, rfl, .inl ⟨.inl rfl, by decide⟩⟩, ?_⟩
    · rw [longOne, if_neg Bool.false_ne_true, List.nil_append, List.append_assoc]
    · have hv : digitsValue ([48] ++ (List.replicate 199999 48 ++ [49])) = 1 := by
        rw [← value_digits (digits_append (by unfold Digits; decide) hd), ← List.append_assoc]
        exact value_zeros 200000
      rw [hv, hl, Nat.cast_one, one_mul]
      exact (zpow_zero (10 : ℚ)).symm
  have hg : GoNumberText longOne 0 := by
    rw [GoNumberText, goNumber, if_pos (validNumber_iff.2 ⟨_, _, ht⟩)]
    exact longOne_read.2
  refine ⟨_, ht, jsonTree_iff.2 ⟨longOne, (coerced_utf8 (utf8_ascii _ ?_)).2 rfl, .num hg, .num⟩⟩
  intro c hc
  rcases List.mem_append.1 hc with h | h
  · rcases List.mem_append.1 h with h | h
    · rw [List.mem_singleton.1 h]; decide
    · rcases List.mem_cons.1 h with h | h
      · rw [h]; decide
      · exact UInt8.lt_iff_toNat_lt.2 (lt_of_le_of_lt (hd c h).2 (by decide))
  · exact (show ∀ c ∈ ([101, 50, 48, 48, 48, 48, 48] : Bytes), c < 128 by decide) c h

/-! ## Examples -/

/-- Whether two values are the same, for computing with examples. -/
def sameValue : Nat → JVal → JVal → Bool
  | 0, _, _ => false
  | _ + 1, .null, .null => true
  | _ + 1, .bool a, .bool b => a == b
  | _ + 1, .num a, .num b => a == b
  | _ + 1, .str a, .str b => a == b
  | n + 1, .arr a, .arr b => a.length == b.length && (a.zip b).all fun p => sameValue n p.1 p.2
  | n + 1, .obj a, .obj b => a.length == b.length && (a.zip b).all fun p => p.1.1 == p.2.1 && sameValue n p.1.2 p.2.2
  | _ + 1, _, _ => false

theorem eq_of_zip {α : Type} {f : α × α → Bool} (hf : ∀ p, f p = true → p.1 = p.2) : ∀ {a b : List α}, a.length = b.length →
    (a.zip b).all f = true → a = b
  | [], [], _, _ => rfl
  | x :: a, y :: b, hl, h => by
    rw [List.zip_cons_cons, List.all_cons, Bool.and_eq_true] at h
    rw [show x = y from hf _ h.1, eq_of_zip hf (Nat.succ.inj hl) h.2]

theorem sameValue_eq : ∀ n {a b}, sameValue n a b = true → a = b := by
  intro n
  induction n with
  | zero => intro a b h; cases h
  | succ n ih =>
    intro a b h
    cases a <;> cases b <;> simp only [sameValue, Bool.and_eq_true, beq_iff_eq, Bool.false_eq_true] at h
    · rfl
    · rw [h]
    · rw [h]
    · rw [h]
    · rw [eq_of_zip (fun p hp => ih hp) h.1 h.2]
    · rw [eq_of_zip (fun p hp => ?_) h.1 h.2]
      simp only [Bool.and_eq_true, beq_iff_eq] at hp
      exact Prod.ext hp.1 (ih hp.2)

theorem same_of_read {o : Option JVal} {j : JVal} (h : o.any (sameValue 100 j) = true) : o = some j := by
  cases o with
  | none => cases h
  | some v => rw [sameValue_eq _ h]

/-- `{"a":1, "b":[null,true],"a":"x"}`; the last byte of the name b is followed by one that is no UTF-8. -/
def oddText : Bytes := b!"{\"a\":1, \"b" ++ [0xFF] ++ b!"\":[null,true] ,\"a\":\"x\\u00e9\"}"

example : ∀ u, Coerced oddText u → ModestNumbers u := by
  intro u hu
  rw [coerced_iff] at hu
  refine modestNumbers_short ?_
  rw [hu]
  decide +kernel

example : jsonTree oddText = some (.obj [(b!"a", .num 0x3FF0000000000000), (b!"b" ++ [0xEF, 0xBF, 0xBD], .arr [.null, .bool true]),
    (b!"a", .str (b!"x" ++ [0xC3, 0xA9]))]) :=
  same_of_read (by decide +kernel)

example : jsonUnmarshal oddText = some (.obj [(b!"b" ++ [0xEF, 0xBF, 0xBD], .arr [.null, .bool true]),
    (b!"a", .str (b!"x" ++ [0xC3, 0xA9]))]) :=
  same_of_read (by decide +kernel)

/-- Trailing commas, superfluous zeros, missing digits, control characters, two values. -/
example : [b!"[1,]", b!"01", b!"1.", b!".5", b!"+1", b!"\"\t\"", b!"1 2", b!"nul", b!"{\"a\" 1}", b!"1e999", b!""].all
    (fun t => (jsonTree t).isNone) = true := by decide +kernel

example : fromJSONText sampleJson b!"[1,]" = GoE.fail 60 := by
  have hm : ∀ u, Coerced b!"[1,]" u → ModestNumbers u := fun u hu =>
    modestNumbers_short (by rw [coerced_iff.1 hu]; decide +kernel)
  refine C75_refused hm fun u j h1 h2 h3 => ?_
  have h := (C75_texts hm j).2 ⟨u, h1, h2, h3⟩
  rw [show jsonTree b!"[1,]" = none from Option.isNone_iff_eq_none.1 (by decide +kernel)] at h
  cases h

/-- Arrays that are nested too deeply are no recordings either: the bound matters. -/
example : ¬ Nests 1 (.arr [.arr []]) := by
  rintro (_ | _ | _ | _ | h)
  have h1 := h _ (.head _)
  cases h1

/-- The document `rootDocument` as a text. -/
def rootText : Bytes := b!"{ \"id\": \"r\", \"name\": \"ro\\u006ft\", \"metadata\": {\"n\":-7,\"f\":[0.5,25E-2],\"p\":{\"y\":2,\"x\":1},\"b\":\"0x1f\",\"t\":\"1970-01-01T00:00:01Z\",\"l\":[true , false]},\n\"recordings\":[{\"id\":\"c\",\"name\":\"child\",\"collections\":[{\"name\":\"p\",\"type\":\"recolude.position\",\"captures\":[{\"time\":1.0,\"data\":{\"z\":0.5,\"x\":1,\"y\":2}}]}]}],\"references\":[{\"name\":\"a\",\"uri\":\"u\",\"size\":2}],\"collections\":[{\"name\":\"e\",\"type\":\"recolude.event\",\"captures\":[{\"time\":20e-1,\"data\":{\"name\":\"go\"}}]}]}\n"

example : Utf8 rootText ∧ ModestNumbers rootText ∧ JText JsonNumber rootText (.obj rootDocument) ∧ Nests 10000 (.obj rootDocument) ∧
    (JVal.obj rootDocument).Proper ∧ fromJSONText sampleJson rootText = pure rootRecording ∧
    (∃ u j v, Coerced rootText u ∧ JText JsonNumber u j ∧ LastOnly j v ∧ Describes (parserReading sampleJson) v rootRecording) := by
  have hu : Utf8 rootText := utf8_ascii _ (by decide +kernel)
  have hm : ModestNumbers rootText := modestNumbers_short (by decide +kernel)
  have hj : jsonTree rootText = some (.obj rootDocument) := same_of_read (by decide +kernel)
  obtain ⟨h1, h2⟩ := (C75_utf8 hu hm _).1 hj
  have hp : (JVal.obj rootDocument).Proper := by
    simp only [rootDocument, childDocument, sampleObject, JVal.Proper, properMembers, properItems, List.map_cons,
      List.map_nil, and_true, true_and]
    decide
  have h := C75_accepted sampleJson_lawful hu hm h1 h2 hp rootDocument_describes
  exact ⟨hu, hm, h1, h2, hp, h, C75_recording sampleJson_lawful (fun u hc => by rw [(coerced_utf8 hu).1 hc]; exact hm) h⟩

end Rap
