import Verif.Proof.Marshal
import Verif.Model.GoJson

/-!
# Strings through encoding/json
-/

namespace Rap

/-- A code point that is not a surrogate. -/
def Scalar (r : Nat) : Prop := r < 0xD800 ∨ 0xE000 ≤ r ∧ r < 0x110000

theorem u8_toNat {n : Nat} (h : n < 256) : (n.toUInt8).toNat = n := by
  simp [Nat.toUInt8, UInt8.toNat_ofNat', Nat.mod_eq_of_lt h]

theorem u8_eq {a : UInt8} {n : Nat} (h : n = a.toNat) : n.toUInt8 = a := by
  rw [h]; simp [Nat.toUInt8]

theorem encodeRune_1 {r : Nat} (h : r < 0x80) : encodeRune r = [r.toUInt8] := by rw [encodeRune, if_pos h]

theorem encodeRune_2 {r : Nat} (h : 0x80 ≤ r) (h' : r < 0x800) :
    encodeRune r = [(0xC0 + r / 64).toUInt8, (0x80 + r % 64).toUInt8] := by
  rw [encodeRune, if_neg (by omega), if_pos h']

theorem encodeRune_3 {r : Nat} (h : 0x800 ≤ r) (h' : r < 0x10000) :
    encodeRune r = [(0xE0 + r / 4096).toUInt8, (0x80 + r / 64 % 64).toUInt8, (0x80 + r % 64).toUInt8] := by
  rw [encodeRune, if_neg (by omega), if_neg (by omega), if_pos h']

theorem encodeRune_4 {r : Nat} (h : 0x10000 ≤ r) :
    encodeRune r = [(0xF0 + r / 262144).toUInt8, (0x80 + r / 4096 % 64).toUInt8, (0x80 + r / 64 % 64).toUInt8,
      (0x80 + r % 64).toUInt8] := by
  rw [encodeRune, if_neg (by omega), if_neg (by omega), if_neg (by omega)]

theorem rune_inv {a b c d : UInt8} {n r : Nat} (h : decodeRune.rune a b c d = some (n, r)) :
    Scalar r ∧ encodeRune r = [a, b, c, d].take n ∧ 1 ≤ n ∧ (b = 0 → n = 1) ∧ (c = 0 → n ≤ 2) ∧ (d = 0 → n ≤ 3) ∧ n ≤ 4 := by
  rw [decodeRune.rune] at h
  dsimp only at h
  have ha := a.toNat_lt
  have z : ∀ {x : UInt8}, x = 0 → x.toNat = 0 := fun e => by rw [e]; rfl
  by_cases h1 : a.toNat < 0x80
  · rw [if_pos h1] at h
    cases h
    refine ⟨.inl (by omega), ?_, by omega, by omega, by omega, by omega, by omega⟩
    rw [encodeRune_1 h1, u8_eq rfl]; rfl
  rw [if_neg h1] at h
  by_cases h2 : a.toNat < 0xC2
  · rw [if_pos h2] at h; cases h
  rw [if_neg h2] at h
  by_cases h3 : a.toNat < 0xE0
  · rw [if_pos h3] at h
    split at h
    · next hc =>
      simp only [Bool.and_eq_true, decide_eq_true_eq] at hc
      cases h
      refine ⟨.inl (by omega), ?_, by omega, fun e => ?_, by omega, by omega, by omega⟩
      · rw [encodeRune_2 (by omega) (by omega), u8_eq (a := a) (by omega), u8_eq (a := b) (by omega)]; rfl
      · have := z e; omega
    · cases h
  rw [if_neg h3] at h
  by_cases h4 : a.toNat < 0xF0
  · rw [if_pos h4] at h
    split at h
    · next hc =>
      simp only [Bool.and_eq_true, Bool.not_eq_true', Bool.and_eq_false_iff, decide_eq_true_eq, decide_eq_false_iff_not] at hc
      cases h
      refine ⟨by unfold Scalar; omega, ?_, by omega, fun e => ?_, fun e => ?_, by omega, by omega⟩
      · rw [encodeRune_3 (by omega) (by omega), u8_eq (a := a) (by omega), u8_eq (a := b) (by omega),
          u8_eq (a := c) (by omega)]; rfl
      · have := z e; omega
      · have := z e; omega
    · cases h
  rw [if_neg h4] at h
  by_cases h5 : a.toNat < 0xF5
  · rw [if_pos h5] at h
    split at h
    · next hc =>
      simp only [Bool.and_eq_true, decide_eq_true_eq] at hc
      cases h
      refine ⟨by unfold Scalar; omega, ?_, by omega, fun e => ?_, fun e => ?_, fun e => ?_, by omega⟩
      · rw [encodeRune_4 (by omega), u8_eq (a := a) (by omega), u8_eq (a := b) (by omega),
          u8_eq (a := c) (by omega), u8_eq (a := d) (by omega)]; rfl
      · have := z e; omega
      · have := z e; omega
      · have := z e; omega
    · cases h
  · rw [if_neg h5] at h; cases h

theorem rune_of {a b c d : UInt8} {r n : Nat} (hr : Scalar r) (h : encodeRune r = [a, b, c, d].take n) (hn : n = (encodeRune r).length) :
    decodeRune.rune a b c d = some (n, r) := by
  unfold Scalar at hr
  rw [decodeRune.rune]
  dsimp only
  by_cases h1 : r < 0x80
  · rw [encodeRune_1 h1] at h hn
    subst hn
    cases h
    rw [u8_toNat (by omega), if_pos h1]; rfl
  by_cases h2 : r < 0x800
  · rw [encodeRune_2 (by omega) h2] at h hn
    subst hn
    cases h
    have e1 := u8_toNat (n := 0xC0 + r / 64) (by omega)
    have e2 := u8_toNat (n := 0x80 + r % 64) (by omega)
    rw [if_neg (by omega), if_neg (by omega), if_pos (by omega), if_pos]
    · exact congrArg some (Prod.ext rfl (by simp only; omega))
    · simp only [Bool.and_eq_true, decide_eq_true_eq]; omega
  by_cases h3 : r < 0x10000
  · rw [encodeRune_3 (by omega) h3] at h hn
    subst hn
    cases h
    have e1 := u8_toNat (n := 0xE0 + r / 4096) (by omega)
    have e2 := u8_toNat (n := 0x80 + r / 64 % 64) (by omega)
    have e3 := u8_toNat (n := 0x80 + r % 64) (by omega)
    rw [if_neg (by omega), if_neg (by omega), if_neg (by omega), if_pos (by omega), if_pos]
    · exact congrArg some (Prod.ext rfl (by simp only; omega))
    · simp only [Bool.and_eq_true, Bool.not_eq_true', Bool.and_eq_false_iff, decide_eq_true_eq, decide_eq_false_iff_not]; omega
  · rw [encodeRune_4 (by omega)] at h hn
    subst hn
    cases h
    have e1 := u8_toNat (n := 0xF0 + r / 262144) (by omega)
    have e2 := u8_toNat (n := 0x80 + r / 4096 % 64) (by omega)
    have e3 := u8_toNat (n := 0x80 + r / 64 % 64) (by omega)
    have e4 := u8_toNat (n := 0x80 + r % 64) (by omega)
    rw [if_neg (by omega), if_neg (by omega), if_neg (by omega), if_neg (by omega), if_pos (by omega), if_pos]
    · exact congrArg some (Prod.ext rfl (by simp only; omega))
    · simp only [Bool.and_eq_true, decide_eq_true_eq]; omega

/-- What is decoded are the first bytes. -/
theorem decodeRune_inv {s : Bytes} {n r : Nat} (h : decodeRune s = some (n, r)) :
    Scalar r ∧ s.take n = encodeRune r ∧ 1 ≤ n ∧ n ≤ s.length := by
  match s, h with
  | a :: b :: c :: d :: l, h =>
    obtain ⟨h1, h2, h3, -, -, -, h7⟩ := rune_inv h
    refine ⟨h1, ?_, h3, by simp only [List.length_cons]; omega⟩
    rw [h2, show a :: b :: c :: d :: l = [a, b, c, d] ++ l from rfl, List.take_append_of_le_length h7]
  | [a, b, c], h =>
    obtain ⟨h1, h2, h3, -, -, h6, -⟩ := rune_inv h
    have h6 := h6 rfl
    refine ⟨h1, ?_, h3, h6⟩
    rw [h2, show [a, b, c, 0] = [a, b, c] ++ [0] from rfl, List.take_append_of_le_length h6]
  | [a, b], h =>
    obtain ⟨h1, h2, h3, -, h5, -⟩ := rune_inv h
    have h5 := h5 rfl
    refine ⟨h1, ?_, h3, h5⟩
    rw [h2, show [a, b, 0, 0] = [a, b] ++ [0, 0] from rfl, List.take_append_of_le_length h5]
  | [a], h =>
    obtain ⟨h1, h2, h3, h4, -⟩ := rune_inv h
    have h4 := h4 rfl
    refine ⟨h1, ?_, h3, h4.le⟩
    rw [h2, h4]; rfl
  | [], h => cases h

theorem encodeRune_length (r : Nat) : 1 ≤ (encodeRune r).length ∧ (encodeRune r).length ≤ 4 := by
  rw [encodeRune]; split <;> [skip; split <;> [skip; split]] <;> simp

/-- A sequence is decoded. -/
theorem decodeRune_encode {r : Nat} (hr : Scalar r) (l : Bytes) : decodeRune (encodeRune r ++ l) = some ((encodeRune r).length, r) := by
  obtain ⟨e1, e2⟩ := encodeRune_length r
  generalize hs : encodeRune r ++ l = s
  have ht : s.take (encodeRune r).length = encodeRune r := by rw [← hs]; simp
  have hl : (encodeRune r).length ≤ s.length := by rw [← hs]; simp
  match s, ht, hl with
  | a :: b :: c :: d :: l', ht, _ =>
    refine rune_of hr ?_ rfl
    rw [show a :: b :: c :: d :: l' = [a, b, c, d] ++ l' from rfl, List.take_append_of_le_length e2] at ht
    exact ht.symm
  | [a, b, c], ht, hl =>
    refine rune_of hr ?_ rfl
    rw [show [a, b, c, 0] = [a, b, c] ++ [0] from rfl, List.take_append_of_le_length hl]
    exact ht.symm
  | [a, b], ht, hl =>
    refine rune_of hr ?_ rfl
    rw [show [a, b, 0, 0] = [a, b] ++ [0, 0] from rfl, List.take_append_of_le_length hl]
    exact ht.symm
  | [a], ht, hl =>
    refine rune_of hr ?_ rfl
    rw [show [a, 0, 0, 0] = [a] ++ [0, 0, 0] from rfl, List.take_append_of_le_length hl]
    exact ht.symm
  | [], _, hl => exact absurd hl (by rw [List.length_nil]; omega)

/-- Bytes from 128 on need no escapes. -/
theorem unescapes_high {s t : Bytes} (h : Unescapes s t) : (b : Bytes) → (∀ c ∈ b, 128 ≤ c.toNat) → Unescapes (b ++ s) (b ++ t)
  | [], _ => h
  | c :: b, hb => by
    have hc : 128 ≤ c.toNat := hb c (by simp)
    refine .plain ?_ ?_ ?_ (unescapes_high h b fun d hd => hb d (by simp [hd]))
    · show (32 : UInt8).toNat ≤ c.toNat
      exact Nat.le_trans (by decide) hc
    · rintro rfl; revert hc; decide
    · rintro rfl; revert hc; decide

theorem encodeRune_high {r : Nat} (hr : Scalar r) (h : 128 ≤ r) : ∀ c ∈ encodeRune r, 128 ≤ c.toNat := by
  unfold Scalar at hr
  intro c hc
  by_cases h2 : r < 0x800
  · rw [encodeRune_2 h h2] at hc
    simp only [List.mem_cons, List.not_mem_nil, or_false] at hc
    rcases hc with rfl | rfl <;> rw [u8_toNat (by omega)] <;> omega
  · by_cases h3 : r < 0x10000
    · rw [encodeRune_3 (by omega) h3] at hc
      simp only [List.mem_cons, List.not_mem_nil, or_false] at hc
      rcases hc with rfl | rfl | rfl <;> rw [u8_toNat (by omega)] <;> omega
    · rw [encodeRune_4 (by omega)] at hc
      simp only [List.mem_cons, List.not_mem_nil, or_false] at hc
      rcases hc with rfl | rfl | rfl | rfl <;> rw [u8_toNat (by omega)] <;> omega

/-- An escaped character stands for the character. -/
theorem unescapes_rune {r : Nat} (hr : Scalar r) {s t : Bytes} (h : Unescapes s t) :
    Unescapes (escapeRune r (encodeRune r) ++ s) (encodeRune r ++ t) := by
  have hex : ∀ n : Fin 16, b!"0123456789abcdef"[n.val]? = some (hexChar n.val) := by decide
  have hr' := hr
  unfold Scalar at hr'
  rw [escapeRune]
  by_cases h1 : r = 34 ∨ r = 92
  · rw [if_pos h1]
    rcases h1 with rfl | rfl
    · exact .short (e := 34) (c := 34) (by decide) h
    · exact .short (e := 92) (c := 92) (by decide) h
  rw [if_neg h1]
  by_cases h2 : r = 8
  · rw [if_pos h2]; subst h2; exact .short (e := 98) (c := 8) (by decide) h
  rw [if_neg h2]
  by_cases h3 : r = 12
  · rw [if_pos h3]; subst h3; exact .short (e := 102) (c := 12) (by decide) h
  rw [if_neg h3]
  by_cases h4 : r = 10
  · rw [if_pos h4]; subst h4; exact .short (e := 110) (c := 10) (by decide) h
  rw [if_neg h4]
  by_cases h5 : r = 13
  · rw [if_pos h5]; subst h5; exact .short (e := 114) (c := 13) (by decide) h
  rw [if_neg h5]
  by_cases h6 : r = 9
  · rw [if_pos h6]; subst h6; exact .short (e := 116) (c := 9) (by decide) h
  rw [if_neg h6]
  by_cases h7 : r < 32 ∨ r = 60 ∨ r = 62 ∨ r = 38
  · rw [if_pos h7, encodeRune_utf8 hr]
    have h4 : Hex4 [48, 48, hexChar (r / 16), hexChar (r % 16)] r :=
      ⟨_, _, _, _, 0, 0, r / 16, r % 16, rfl, .inl rfl, .inl rfl, .inl (hex ⟨r / 16, by omega⟩),
        .inl (hex ⟨r % 16, by omega⟩), by omega⟩
    exact Unescapes.unicode h4 (.inl (by omega)) h
  rw [if_neg h7]
  by_cases h8 : r = 0x2028 ∨ r = 0x2029
  · rw [if_pos h8, encodeRune_utf8 hr]
    have h4 : Hex4 [50, 48, 50, hexChar (r % 16)] r :=
      ⟨_, _, _, _, 2, 0, 2, r % 16, rfl, .inl rfl, .inl rfl, .inl rfl, .inl (hex ⟨r % 16, by omega⟩), by omega⟩
    exact Unescapes.unicode h4 (.inl (by omega)) h
  rw [if_neg h8]
  by_cases h9 : r < 128
  · rw [encodeRune_1 h9]
    have e : (r.toUInt8).toNat = r := u8_toNat (by omega)
    refine .plain ?_ ?_ ?_ h
    · show (32 : UInt8).toNat ≤ (r.toUInt8).toNat
      rw [e]; show 32 ≤ r; omega
    · intro hc; rw [hc] at e; exact h1 (.inl e.symm)
    · intro hc; rw [hc] at e; exact h1 (.inr e.symm)
  · exact unescapes_high h _ (encodeRune_high hr (by omega))

theorem unescapes_invalid {s t : Bytes} (h : Unescapes s t) : Unescapes (b!"\\ufffd" ++ s) (utf8 0xFFFD ++ t) :=
  .unicode (h := b!"fffd") ⟨_, _, _, _, 15, 15, 15, 13, rfl, .inl rfl, .inl rfl, .inl rfl, .inl rfl, rfl⟩ (.inr (by decide)) h

theorem quoteGo_nil (fuel : Nat) : quoteGo fuel [] = [] := by
  cases fuel <;> rfl

theorem quoteGo_some {fuel n r : Nat} {s : Bytes} (h : decodeRune s = some (n, r)) :
    quoteGo (fuel + 1) s = escapeRune r (s.take n) ++ quoteGo fuel (s.drop n) := by
  cases s with
  | nil => cases h
  | cons a s => rw [quoteGo]; · simp only [h]
                · simp

theorem quoteGo_none {fuel : Nat} {s : Bytes} (hs : s ≠ []) (h : decodeRune s = none) :
    quoteGo (fuel + 1) s = b!"\\ufffd" ++ quoteGo fuel (s.drop 1) := by
  cases s with
  | nil => exact absurd rfl hs
  | cons a s => rw [quoteGo]; · simp only [h]
                · simp

theorem quoteGo_any : (fuel : Nat) → (s : Bytes) → s.length ≤ fuel → ∃ t, Unescapes (quoteGo fuel s) t
  | 0, s, _ => ⟨[], by rw [quoteGo]; exact .nil⟩
  | fuel + 1, s, hs => by
    by_cases h0 : s = []
    · rw [h0, quoteGo_nil]; exact ⟨[], .nil⟩
    cases h : decodeRune s with
    | none =>
      rw [quoteGo_none h0 h]
      obtain ⟨t, ht⟩ := quoteGo_any fuel (s.drop 1) (by rw [List.length_drop]; omega)
      exact ⟨_, unescapes_invalid ht⟩
    | some p =>
      obtain ⟨n, r⟩ := p
      obtain ⟨h1, h2, h3, h4⟩ := decodeRune_inv h
      rw [quoteGo_some h, h2]
      obtain ⟨t, ht⟩ := quoteGo_any fuel (s.drop n) (by rw [List.length_drop]; omega)
      exact ⟨_, unescapes_rune h1 ht⟩

theorem char_scalar (c : Char) : Scalar c.toNat ∧ String.utf8EncodeChar c = encodeRune c.toNat := by
  have h : Scalar c.toNat := by
    rcases c.valid with h | h
    · exact .inl h
    · exact .inr ⟨by have := h.1; simp only [Char.toNat]; omega, h.2⟩
  refine ⟨h, ?_⟩
  rw [encodeRune_utf8 h, utf8, Char.ofNat_toNat]

theorem quoteGo_utf8 : (cs : List Char) → (fuel : Nat) → (cs.flatMap String.utf8EncodeChar).length ≤ fuel →
    Unescapes (quoteGo fuel (cs.flatMap String.utf8EncodeChar)) (cs.flatMap String.utf8EncodeChar)
  | [], fuel, _ => by rw [List.flatMap_nil, quoteGo_nil]; exact .nil
  | c :: cs, fuel, hl => by
    obtain ⟨h1, h2⟩ := char_scalar c
    rw [List.flatMap_cons, h2] at hl ⊢
    have h3 := encodeRune_length c.toNat
    rw [List.length_append] at hl
    obtain ⟨fuel, rfl⟩ : ∃ k, fuel = k + 1 := ⟨fuel - 1, by omega⟩
    rw [quoteGo_some (decodeRune_encode h1 _), List.take_left, List.drop_left]
    exact unescapes_rune h1 (quoteGo_utf8 cs fuel (by omega))

end Rap
