import Verif.Proof.JsonScan
import Verif.Proof.GoQuote

/-!
# Bytes that are no UTF-8 are replaced before anything else
-/

namespace Rap

open String (utf8EncodeChar)

theorem enc_cases (c : Char) : (∃ b : UInt8, b.toNat < 128 ∧ utf8EncodeChar c = [b]) ∨
    (utf8EncodeChar c ≠ [] ∧ ∀ b ∈ utf8EncodeChar c, 128 ≤ b.toNat) := by
  obtain ⟨hs, he⟩ := char_scalar c
  rw [he, encodeRune]
  have hlt : c.toNat < 0x110000 := by rcases hs with h | h <;> omega
  split
  · refine .inl ⟨_, ?_, rfl⟩
    rw [u8_toNat (by omega)]; omega
  · right
    split
    · refine ⟨by simp, fun b hb => ?_⟩
      simp only [List.mem_cons, List.not_mem_nil, or_false] at hb
      rcases hb with rfl | rfl <;> rw [u8_toNat (by omega)] <;> omega
    · split
      · refine ⟨by simp, fun b hb => ?_⟩
        simp only [List.mem_cons, List.not_mem_nil, or_false] at hb
        rcases hb with rfl | rfl | rfl <;> rw [u8_toNat (by omega)] <;> omega
      · refine ⟨by simp, fun b hb => ?_⟩
        simp only [List.mem_cons, List.not_mem_nil, or_false] at hb
        rcases hb with rfl | rfl | rfl | rfl <;> rw [u8_toNat (by omega)] <;> omega

theorem enc_ascii (b : UInt8) (h : b.toNat < 128) : ∃ c, utf8EncodeChar c = [b] := by
  refine ⟨Char.ofNat b.toNat, ?_⟩
  have := encodeRune_utf8 (u := b.toNat) (.inl (by omega))
  rw [utf8] at this
  rw [← this, encodeRune, if_pos (by omega)]
  simp

theorem utf8_fffd : utf8 0xFFFD = [0xEF, 0xBF, 0xBD] := by decide +kernel

theorem decodeRune_none_iff {s : Bytes} : decodeRune s = none ↔ ∀ c r, s ≠ utf8EncodeChar c ++ r := by
  constructor
  · rintro h c r rfl
    obtain ⟨hs, he⟩ := char_scalar c
    rw [he, decodeRune_encode hs] at h
    cases h
  · intro h
    cases hd : decodeRune s with
    | none => rfl
    | some p =>
      obtain ⟨h1, h2, -, -⟩ := decodeRune_inv (n := p.1) (r := p.2) hd
      refine absurd ?_ (h (Char.ofNat p.2) (s.drop p.1))
      rw [show utf8EncodeChar (Char.ofNat p.2) = utf8 p.2 from rfl, ← encodeRune_utf8 h1, ← h2, List.take_append_drop]

theorem coerce_coerced : ∀ (n : Nat) (s : Bytes), s.length ≤ n → Coerced s (coerceUtf8 n s)
  | 0, s, h => by
    have : s = [] := by simpa using h
    subst this
    exact .nil
  | n + 1, [], _ => .nil
  | n + 1, b :: s, h => by
    rw [coerceUtf8]
    · split
      · next k r hd =>
        obtain ⟨h1, h2, h3, h4⟩ := decodeRune_inv hd
        have e : (b :: s).take k = utf8EncodeChar (Char.ofNat r) := by
          rw [h2, encodeRune_utf8 h1]; rfl
        have ih := coerce_coerced n ((b :: s).drop k) (by rw [List.length_drop]; omega)
        have := Coerced.char (c := Char.ofNat r) ih
        rw [← e, List.take_append_drop] at this
        exact this
      · next hd =>
        have ih := coerce_coerced n s (by simpa using h)
        have := Coerced.bad (decodeRune_none_iff.1 hd) ih
        rw [utf8_fffd] at this
        exact this
    · simp

theorem coerced_eq {s t : Bytes} (h : Coerced s t) : ∀ n, s.length ≤ n → t = coerceUtf8 n s := by
  induction h with
  | nil => intro n _; cases n <;> rfl
  | @char c s t _ ih =>
    intro n hn
    obtain ⟨hs, he⟩ := char_scalar c
    have hd : decodeRune (utf8EncodeChar c ++ s) = some ((utf8EncodeChar c).length, c.toNat) := by
      rw [he, decodeRune_encode hs]
    have hl := (encodeRune_length c.toNat).1
    rw [← he] at hl
    rw [List.length_append] at hn
    cases n with
    | zero => omega
    | succ n =>
      rw [coerceUtf8, hd]
      · simp only [List.take_left, List.drop_left]
        rw [← ih n (by omega)]
      · intro h
        rw [List.append_eq_nil_iff] at h
        rw [h.1] at hl
        simp at hl
  | @bad b s t hb _ ih =>
    intro n hn
    cases n with
    | zero => simp at hn
    | succ n =>
      rw [coerceUtf8, decodeRune_none_iff.2 hb]
      · simp only [List.drop_succ_cons, List.drop_zero]
        rw [utf8_fffd, ← ih n (by simpa using hn)]
      · simp

theorem coerced_iff {s t : Bytes} : Coerced s t ↔ t = coerceUtf8 s.length s :=
  ⟨fun h => coerced_eq h _ le_rfl, fun h => h ▸ coerce_coerced _ _ le_rfl⟩

theorem coerced_utf8 {s t : Bytes} (hs : Utf8 s) : Coerced s t ↔ t = s := by
  have : Coerced s s := by
    obtain ⟨cs, rfl⟩ := hs
    induction cs with
    | nil => exact .nil
    | cons c cs ih => exact .char ih
  rw [coerced_iff, ← coerced_iff.1 this]

theorem unquote_coerced {s t : Bytes} (h : Coerced s t) : unquote s = requote t := by
  rw [unquote, ← coerced_iff.1 h]

/-! ## ASCII stays -/

theorem coerced_ascii {a : UInt8} {s u : Bytes} (ha : a.toNat < 128) (h : Coerced (a :: s) u) : ∃ u', u = a :: u' ∧ Coerced s u' := by
  generalize hx : a :: s = x at h
  cases h with
  | nil => cases hx
  | @char c s' t h =>
    rcases enc_cases c with ⟨b, hb, e⟩ | ⟨e1, e2⟩
    · rw [e] at hx ⊢
      simp only [List.cons_append, List.nil_append, List.cons.injEq] at hx
      obtain ⟨rfl, rfl⟩ := hx
      exact ⟨t, rfl, h⟩
    · obtain ⟨b, r, e⟩ := List.exists_cons_of_ne_nil e1
      rw [e, List.cons_append, List.cons.injEq] at hx
      have := e2 b (by rw [e]; simp)
      rw [← hx.1] at this
      omega
  | bad hb h =>
    cases hx
    obtain ⟨c, hc⟩ := enc_ascii a ha
    exact absurd (by rw [hc]; rfl) (hb c s)

theorem coerced_ascii' {a : UInt8} {s u : Bytes} (ha : a.toNat < 128) (h : Coerced s (a :: u)) : ∃ s', s = a :: s' ∧ Coerced s' u := by
  generalize hx : a :: u = x at h
  cases h with
  | nil => cases hx
  | @char c s' t h =>
    rcases enc_cases c with ⟨b, hb, e⟩ | ⟨e1, e2⟩
    · rw [e] at hx ⊢
      simp only [List.cons_append, List.nil_append, List.cons.injEq] at hx
      obtain ⟨rfl, rfl⟩ := hx
      exact ⟨s', rfl, h⟩
    · obtain ⟨b, r, e⟩ := List.exists_cons_of_ne_nil e1
      rw [e, List.cons_append, List.cons.injEq] at hx
      have := e2 b (by rw [e]; simp)
      rw [← hx.1] at this
      omega
  | bad hb h =>
    rw [utf8_fffd, List.cons_append, List.cons.injEq] at hx
    rw [hx.1] at ha
    exact absurd ha (by decide)

theorem coerced_cons {a : UInt8} {s u : Bytes} (ha : a.toNat < 128) (h : Coerced s u) : Coerced (a :: s) (a :: u) := by
  obtain ⟨c, hc⟩ := enc_ascii a ha
  have := Coerced.char (c := c) h
  rwa [hc] at this

/-- Other bytes become other bytes. -/
theorem coerced_high {a : UInt8} {s u : Bytes} (ha : 128 ≤ a.toNat) (h : Coerced (a :: s) u) :
    ∃ p s' p' u', a :: s = p ++ s' ∧ u = p' ++ u' ∧ p ≠ [] ∧ p' ≠ [] ∧ (∀ b ∈ p, 128 ≤ b.toNat) ∧ (∀ b ∈ p', 128 ≤ b.toNat) ∧
      Coerced s' u' ∧ ∀ b b' x, s' = b ++ x → Coerced b b' → Coerced (p ++ b) (p' ++ b') := by
  generalize hx : a :: s = x at h
  cases h with
  | nil => cases hx
  | @char c s' t h =>
    rcases enc_cases c with ⟨b, hb, e⟩ | ⟨e1, e2⟩
    · rw [e] at hx
      simp only [List.cons_append, List.nil_append, List.cons.injEq] at hx
      rw [hx.1] at ha
      omega
    · exact ⟨_, s', _, t, rfl, rfl, e1, e1, e2, e2, h, fun b b' x _ hb => .char hb⟩
  | @bad a' s' t hb h =>
    cases hx
    refine ⟨[a], s, _, t, rfl, rfl, by simp, by rw [utf8_fffd]; simp, by simpa using ha, by rw [utf8_fffd]; decide, h, ?_⟩
    intro b b' x hs hbb
    refine .bad (fun c r e => ?_) hbb
    refine hb c (r ++ x) ?_
    rw [hs, ← List.append_assoc, ← e]; rfl

/-- Either ASCII on both sides, or not on either, or the end. -/
theorem coerced_head {s u : Bytes} (h : Coerced s u) : (s = [] ∧ u = []) ∨
    (∃ a s' u', a.toNat < 128 ∧ s = a :: s' ∧ u = a :: u' ∧ Coerced s' u') ∨
    (∃ a b s' u', 128 ≤ a.toNat ∧ 128 ≤ b.toNat ∧ s = a :: s' ∧ u = b :: u') := by
  cases s with
  | nil => exact .inl ⟨rfl, by cases u with | nil => rfl | cons a u => have := coerced_iff.1 h; cases this⟩
  | cons a s =>
    right
    by_cases ha : a.toNat < 128
    · obtain ⟨u', rfl, h'⟩ := coerced_ascii ha h
      exact .inl ⟨a, s, u', ha, rfl, rfl, h'⟩
    · obtain ⟨p, s', p', u', -, rfl, -, hp', -, h5, -, -⟩ := coerced_high (by omega) h
      obtain ⟨b, r, rfl⟩ := List.exists_cons_of_ne_nil hp'
      exact .inr ⟨a, b, s, r ++ u', by omega, h5 b (by simp), rfl, rfl⟩

theorem coerced_dropWhile {f : UInt8 → Bool} (hf : ∀ a, f a = true → a.toNat < 128) : ∀ {s u : Bytes}, Coerced s u →
    s.takeWhile f = u.takeWhile f ∧ Coerced (s.dropWhile f) (u.dropWhile f)
  | [], u, h => by
    rcases coerced_head h with ⟨-, rfl⟩ | ⟨a, s', u', -, h1, -⟩ | ⟨a, b, s', u', -, -, h1, -⟩
    · exact ⟨rfl, .nil⟩
    · cases h1
    · cases h1
  | a :: s, u, h => by
    rcases coerced_head h with ⟨h1, -⟩ | ⟨a, s', u', ha, h1, rfl, h'⟩ | ⟨a, b, s', u', ha, hb, h1, rfl⟩
    · cases h1
    · cases h1
      obtain ⟨i1, i2⟩ := coerced_dropWhile hf h'
      by_cases hfa : f a = true
      · rw [List.takeWhile_cons_of_pos hfa, List.takeWhile_cons_of_pos hfa, List.dropWhile_cons_of_pos hfa,
          List.dropWhile_cons_of_pos hfa, i1]
        exact ⟨rfl, i2⟩
      · rw [List.takeWhile_cons_of_neg hfa, List.takeWhile_cons_of_neg hfa, List.dropWhile_cons_of_neg hfa,
          List.dropWhile_cons_of_neg hfa]
        exact ⟨rfl, h⟩
    · cases h1
      have n1 : ¬ f a = true := fun h => by have := hf _ h; omega
      have n2 : ¬ f b = true := fun h => by have := hf _ h; omega
      rw [List.takeWhile_cons_of_neg n1, List.takeWhile_cons_of_neg n2, List.dropWhile_cons_of_neg n1,
        List.dropWhile_cons_of_neg n2]
      exact ⟨rfl, h⟩

theorem isJsonSpace_ascii (a : UInt8) (h : isJsonSpace a = true) : a.toNat < 128 := by
  rcases isJsonSpace_iff.1 h with rfl | rfl | rfl | rfl <;> decide

theorem isNumberByte_ascii (a : UInt8) (h : isNumberByte a = true) : a.toNat < 128 := by
  simp only [isNumberByte, Bool.or_eq_true, beq_iff_eq, isDigitByte_iff] at h
  rcases h with ((((h | rfl) | rfl) | rfl) | rfl) | rfl
  · omega
  all_goals decide

theorem coerced_skip {s u : Bytes} (h : Coerced s u) : Coerced (skipSpace s) (skipSpace u) :=
  (coerced_dropWhile isJsonSpace_ascii h).2

end Rap
