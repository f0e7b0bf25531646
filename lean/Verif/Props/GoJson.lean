import Verif.Props.ToJson
import Verif.Props.Commands
import Verif.Proof.GoTime

/-!
# C70: the functions of the standard library

`MarshalExt.Lawful` and `JsonExt.Lawful`, which C42, C43, C50, C52, C55, C56 and C58 assume of encoding/json, strconv, time and
fmt, hold of models of their documented behaviour. Left is the time zone: its offset is a number of minutes below 24 hours.
-/

namespace Rap

/-- C70: a finite double is written as a JSON number that is read as this double, and as no other. -/
theorem C70_doubles {x : F64} {q : ℚ} (h : number64 x = .fin q) :
    ∃ t, jsonFloat b64 x.fp = some t ∧ JsonNumber t x ∧ ∀ d, JsonNumber t d → d = x := by
  obtain ⟨t, h1, h2⟩ := jsonFloat64 ((F64.finite_number x).2 ⟨_, h⟩)
  exact ⟨t, h1, h2, fun d hd => jsonNumber_unique hd h2⟩

/-- 1e+23: of the two neighbours with two digits, the one that identifies it -/
example : jsonFloat b64 (F64.fp 0x44B52D02C7E14AF6) = some b!"1e+23" ∧ number64 0x44B52D02C7E14AF6 = .fin 99999999999999991611392 := by
  decide +kernel

/-- C70: a finite float32 is written as a JSON number; of the double it is read as, strconv makes the same float32. -/
theorem C70_singles {x : F32} {q : ℚ} (h : number32 x = .fin q) :
    ∃ (t : Bytes) (d : F64), jsonFloat b32 x.fp = some t ∧ JsonNumber t d ∧ readSingle d = some x := by
  obtain ⟨t, d, -, h1, h2, -, h4, -⟩ := single_law h
  exact ⟨t, d, h1, h2, h4⟩

/-- 0.1 as a float32 -/
example : jsonFloat b32 (F32.fp 0x3DCCCCCD) = some b!"0.1" ∧ readSingle 0x3FB999999999999A = some 0x3DCCCCCD ∧
    number32 0x3DCCCCCD = .fin (13421773 / 2 ^ 27) := by
  decide +kernel

/-- C70: a text in UTF-8 is escaped without loss; of other bytes a JSON string is made, too. -/
theorem C70_strings (s : Bytes) : (Utf8 s → Unescapes (quoteGo s.length s) s) ∧ ∃ s', Unescapes (quoteGo s.length s) s' := by
  refine ⟨?_, quoteGo_any _ s (Nat.le_refl _)⟩
  rintro ⟨cs, rfl⟩
  exact quoteGo_utf8 cs _ (Nat.le_refl _)

/-- A quote, `é`, a line feed and `<`; and a byte that is not UTF-8. -/
example : quoteGo 5 [34, 195, 169, 10, 60] = b!"\\\"" ++ [195, 169] ++ b!"\\n\\u003c" ∧ Utf8 [34, 195, 169, 10, 60] ∧
    quoteGo 1 [255] = b!"\\ufffd" :=
  ⟨by decide +kernel, ⟨['"', 'é', '\n', '<'], by decide +kernel⟩, by decide +kernel⟩

/-- C70: a time is written as an RFC 3339 text of this time, to the nanosecond. -/
theorem C70_times_written {zone : Int → Int} (hz : ∀ s, |zone s| < 1440) (n : BitVec 64) :
    TimeText (goTime zone n) ((n.toInt : ℚ) / 10 ^ 9) := goTime_text hz n

/-- C70: an RFC 3339 text is read as its time, in whole microseconds. -/
theorem C70_times_read {t : Bytes} {v : ℚ} (h : TimeText t v) : goParseTime t = some (BitVec.ofInt 64 ⌊v * 1000000⌋) := parse_text h

/-- A time in 2023 in New York, and the earliest one. -/
example : goTime (fun _ => -300) 1700000000123456000 = b!"2023-11-14T17:13:20.123456-05:00" ∧
    goParseTime b!"2023-11-14T17:13:20.123456-05:00" = some 1700000000123456 ∧
    goTime (fun _ => 0) (BitVec.ofInt 64 (-2 ^ 63)) = b!"1677-09-21T00:12:43.145224192Z" ∧ ∀ s : Int, |(fun _ => -300) s| < (1440 : Int) :=
  ⟨by decide +kernel, by decide +kernel, by decide +kernel, by simp⟩

/-- C70: every day has one date of the Gregorian calendar, and every date is one day. -/
theorem C70_calendar (k : Int) (d : Date) : DayOf k d ↔ d.Valid ∧ d = ⟨(civil k).1, (civil k).2.1, (civil k).2.2⟩ := by
  rw [dayOf_iff]
  refine and_congr_right fun hv => ⟨fun h => ?_, fun h => ?_⟩
  · exact Date.number_inj hv (civil_spec k).1 (by rw [h]; exact (civil_spec k).2.symm)
  · rw [h]; exact (civil_spec k).2

/-- The last leap day. -/
example : civil 19782 = (2024, 2, 29) ∧ (Date.mk 2024 2 29).Valid ∧ DayOf 19782 ⟨2024, 2, 29⟩ := by
  have h : (Date.mk 2024 2 29).Valid := ⟨by decide, by decide, by decide, by decide⟩
  exact ⟨by decide +kernel, h, dayOf_iff.2 ⟨h, by decide +kernel⟩⟩

/-- C70: what the properties about JSON assume of the standard library holds of these models. -/
theorem C70_lawful {zone : Int → Int} (hz : ∀ s, |zone s| < 1440) :
    (goMarshal (goTime zone)).Lawful (goReader goParseTime) JsonNumber ∧ (goReader goParseTime).Lawful :=
  ⟨goMarshal_lawful (time_law hz), goReader_lawful fun _ _ h => parse_plain h⟩

/-- UTC -/
example : (goMarshal (goTime fun _ => 0)).Lawful (goReader goParseTime) JsonNumber ∧ (goReader goParseTime).Lawful :=
  C70_lawful (by simp)

/-- C70: metadata that JSON can carry, written as JSON, is a JSON text, and any reader of JSON makes the same metadata of it. -/
theorem C70_roundtrip {zone : Int → Int} (hz : ∀ s, |zone s| < 1440) {p : Property} (h : Portable (goReader goParseTime) p) :
    ∃ t, marshal (goMarshal (goTime zone)) p = pure t ∧ (∃ j, JText JsonNumber t j) ∧
      ∀ j, JText JsonNumber t j → getProperties (goReader goParseTime) j = pure p :=
  C55_roundtrip_partial (C70_lawful hz).2 (C70_lawful hz).1 h

/-- A block with a text, a number, a float, a vector, a byte string and a time. -/
def spokenBlock : Block :=
  [(b!"who", .str b!"me"), (b!"n", .int32 (-7)), (b!"f", .f32 0x3DCCCCCD), (b!"p", .vec2 0x3FF0000000000000 0x3FB999999999999A),
   (b!"d", .newBinaryArray [1, 2, 3]), (b!"t", .time 1000000)]

theorem spoken_portable : Portable (goReader goParseTime) (.block spokenBlock) := by
  refine .block (by decide) (by decide) (by decide) ?_ ?_
  · have : ∀ kv ∈ spokenBlock, ∀ c ∈ kv.1, c < 128 := by
      intro kv hkv
      simp only [spokenBlock, List.mem_cons, List.not_mem_nil, or_false] at hkv
      rcases hkv with rfl | rfl | rfl | rfl | rfl | rfl <;> decide
    exact fun kv hkv => utf8_ascii _ (this kv hkv)
  · intro kv hkv
    simp only [spokenBlock, List.mem_cons, List.not_mem_nil, or_false] at hkv
    rcases hkv with rfl | rfl | rfl | rfl | rfl | rfl
    · exact .str (utf8_ascii _ (by decide)) (by simp only [PlainText]; decide) (by decide) (by decide +kernel)
    · exact .int32
    · refine .f32 (q := 13421773 / 2 ^ 27) (by decide +kernel) fun i hi => ?_
      have h1 : (13421773 : ℚ) = i * 2 ^ 27 := by rw [← hi]; norm_num
      have h2 : (13421773 : Int) = i * 2 ^ 27 := by exact_mod_cast h1
      omega
    · exact .vec2 (p := 1) (q := 3602879701896397 / 2 ^ 55) (by decide +kernel) (by decide +kernel)
    · exact .binary (by decide) (by decide)
    · exact .time (by decide) (by decide)

example : Portable (goReader goParseTime) (.block spokenBlock) := spoken_portable

end Rap
