import Verif.Props.JsonMetadata
import Verif.Proof.JsonText

/-!
# C43: what texts become
-/

namespace Rap

/-- C43: a text that is neither hexadecimal nor a time is read as the inside of a JSON string once more: it becomes the
text with its escapes resolved, and is an error if it is not the inside of a JSON string. -/
theorem C43_texts {X : JsonExt} {s : Bytes} (h0 : ¬ b!"0x" <+: s) (ht : X.parseTime s = none) :
    (∀ t, Unescapes s t → getProperties X (.str s) = pure (.str t)) ∧
    ((∀ t, ¬ Unescapes s t) → ∃ n, getProperties X (.str s) = GoE.fail n) := by
  rw [getProperties, stringProperty, if_neg (fun h => h0 h.1), if_neg h0, if_neg (by rw [ht]; simp)]
  constructor
  · intro t h
    rw [requote_iff.2 h]; rfl
  · intro h
    cases hr : requote s with
    | none => exact ⟨6, rfl⟩
    | some t => exact absurd (requote_iff.1 hr) (h t)

/-- Backslash, u, 00e9, n: an e with acute accent and an n. -/
example : ¬ b!"0x" <+: [92, 117, 48, 48, 101, 57, 110] ∧ sampleJson.parseTime [92, 117, 48, 48, 101, 57, 110] = none ∧
    Unescapes [92, 117, 48, 48, 101, 57, 110] [195, 169, 110] := by
  refine ⟨by decide, by decide, ?_⟩
  have h : Hex4 [48, 48, 101, 57] 0xe9 :=
    ⟨48, 48, 101, 57, 0, 0, 14, 9, rfl, .inl rfl, .inl rfl, .inl rfl, .inl rfl, rfl⟩
  exact .unicode (u := 0xe9) h (by omega) (.plain (by decide) (by decide) (by decide) .nil)

/-- A text gives one result only: the rules for the inside of a string do not overlap. -/
theorem C43_texts_unique {s t t' : Bytes} (h : Unescapes s t) (h' : Unescapes s t') : t = t' := by
  have := requote_iff.2 h
  rw [requote_iff.2 h', Option.some.injEq] at this
  exact this.symm

theorem hexText_decode : (text : Bytes) → (bytes : Bytes) → hexDecode text = some bytes → HexText text bytes
  | [], bytes, h => by rw [hexDecode, Option.some.injEq] at h; rw [← h]; exact .nil
  | [_], bytes, h => by rw [hexDecode] at h; cases h
  | a :: b :: rest, bytes, h => by
    rw [hexDecode] at h
    cases ha : hexDigit a with
    | none => rw [ha] at h; cases h
    | some x =>
      cases hb : hexDigit b with
      | none => rw [ha, hb] at h; cases h
      | some y =>
        cases hr : hexDecode rest with
        | none => rw [ha, hb, hr] at h; cases h
        | some r =>
          rw [ha, hb, hr] at h
          cases h
          exact .cons (isHex_hexDigit ha) (isHex_hexDigit hb) (hexText_decode rest r hr)

theorem head_pieces {a b : UInt8} {t : Bytes} (h : requote [48, 120, a, b] = some t) :
    t = [48, 120, a, b] ∨ ∃ c, t = [48, 120, c] := by
  obtain ⟨ps, hp, rfl⟩ := Option.map_eq_some_iff.1 h
  rw [pieces_head (.plain (by decide) (by decide) (by decide)),
    pieces_head (.plain (by decide) (by decide) (by decide))] at hp
  obtain ⟨qs, hq, rfl⟩ := Option.map_eq_some_iff.1 hp
  obtain ⟨rs, hr, rfl⟩ := Option.map_eq_some_iff.1 hq
  rcases pieces_some hr with ⟨h, _⟩ | ⟨p, ps', s', rfl, hd, hp'⟩
  · cases h
  · generalize hs : [a, b] = s at hd
    cases hd with
    | plain h1 h2 h3 =>
      cases hs
      rcases pieces_some hp' with ⟨h, _⟩ | ⟨p, ps'', s'', rfl, hd', hp''⟩
      · cases h
      · generalize hs : [b] = s at hd'
        cases hd' with
        | plain => cases hs; rw [pieces.eq_def] at hp''; cases hp''; exact .inl rfl
        | short => cases hs
        | unit hh =>
          obtain ⟨_, _, _, _, _, _, _, _, rfl, -⟩ := hh
          cases hs
    | short hm =>
      cases hs
      rw [pieces.eq_def] at hp'
      cases hp'
      exact .inr ⟨_, rfl⟩
    | unit hh =>
      obtain ⟨_, _, _, _, _, _, _, _, rfl, -⟩ := hh
      cases hs

/-- C43: a text that starts with 0x and goes on with anything but pairs of hexadecimal digits is an error. -/
theorem C43_bad_hex {X : JsonExt} {text : Bytes} (h : ∀ bytes, ¬ HexText text bytes) :
    ∃ n, getProperties X (.str (b!"0x" ++ text)) = GoE.fail n := by
  have hd : hexDecode text = none := by
    cases hd : hexDecode text with
    | none => rfl
    | some b => exact absurd (hexText_decode _ _ hd) (h b)
  rw [getProperties, stringProperty]
  by_cases h4 : (b!"0x" ++ text).length = 4
  · rw [if_pos ⟨prefix_0x _, h4⟩]
    match text, h4 with
    | [a, b], _ =>
      cases hr : requote (b!"0x" ++ [a, b]) with
      | none => exact ⟨1, rfl⟩
      | some t =>
        refine ⟨2, ?_⟩
        rcases head_pieces hr with rfl | ⟨c, rfl⟩
        · simp only [GoE.get, pure_bind]
          rw [if_pos ⟨[a, b], rfl⟩, show List.drop 2 [48, 120, a, b] = [a, b] from rfl, hd]
          rfl
        · simp only [GoE.get, pure_bind]
          rw [if_pos ⟨[c], rfl⟩]
          rfl
  · rw [if_neg (fun h => h4 h.2), if_pos (prefix_0x _), show (b!"0x" ++ text).drop 2 = text from rfl, hd]
    exact ⟨3, rfl⟩

/-- "0xfg" is not hexadecimal. -/
example : ∀ bytes, ¬ HexText b!"fg" bytes := by
  intro bytes h
  have := hexDecode_text h
  cases this

end Rap
