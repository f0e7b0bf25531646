import Verif.Proof.JsonCoerce

/-!
# Pieces of UTF-8 texts
-/

namespace Rap

open String (utf8EncodeChar)

theorem Utf8.nil : Utf8 [] := ⟨[], rfl⟩

theorem Utf8.append {a b : Bytes} (ha : Utf8 a) (hb : Utf8 b) : Utf8 (a ++ b) := by
  obtain ⟨cs, rfl⟩ := ha
  obtain ⟨ds, rfl⟩ := hb
  exact ⟨cs ++ ds, List.flatMap_append.symm⟩

theorem Utf8.char (c : Char) : Utf8 (utf8EncodeChar c) := ⟨[c], by simp⟩

theorem Utf8.ascii {a : UInt8} {s : Bytes} (ha : a.toNat < 128) (hs : Utf8 s) : Utf8 (a :: s) := by
  obtain ⟨c, hc⟩ := enc_ascii a ha
  have := (Utf8.char c).append hs
  rwa [hc] at this

theorem Utf8.cases {s : Bytes} (h : Utf8 s) : s = [] ∨ ∃ c r, s = utf8EncodeChar c ++ r ∧ Utf8 r := by
  obtain ⟨cs, rfl⟩ := h
  cases cs with
  | nil => exact .inl rfl
  | cons c cs => exact .inr ⟨c, _, List.flatMap_cons, cs, rfl⟩

/-- An ASCII character is a character of its own. -/
theorem Utf8.split (n : Nat) : ∀ {a b : Bytes} {c : UInt8}, a.length ≤ n → c.toNat < 128 → Utf8 (a ++ c :: b) → Utf8 a ∧ Utf8 b := by
  induction n with
  | zero =>
    intro a b c hl hc h
    obtain rfl : a = [] := by simpa using hl
    refine ⟨.nil, ?_⟩
    rcases h.cases with h | ⟨d, r, h1, h2⟩
    · cases h
    · rcases enc_cases d with ⟨x, -, hx⟩ | ⟨hx, hx'⟩
      · rw [hx] at h1
        cases h1
        exact h2
      · cases he : utf8EncodeChar d with
        | nil => exact absurd he hx
        | cons y l =>
          rw [he] at h1 hx'
          cases h1
          exact absurd hc (not_lt.2 (hx' _ (.head _)))
  | succ n ih =>
    intro a b c hl hc h
    cases a with
    | nil => exact ih (a := []) (Nat.zero_le _) hc h
    | cons x a =>
      rcases h.cases with h | ⟨d, r, h1, h2⟩
      · cases h
      · have hne : utf8EncodeChar d ≠ [] := by
          rcases enc_cases d with ⟨x, -, hx⟩ | ⟨hx, -⟩
          · rw [hx]; simp
          · exact hx
        rcases List.append_eq_append_iff.1 h1 with ⟨m, h3, h4⟩ | ⟨m, h3, h4⟩
        · -- the character reaches beyond `x :: a`
          cases m with
          | nil =>
            rw [List.append_nil] at h3
            rw [List.nil_append] at h4
            rw [← h4] at h2
            exact ⟨h3 ▸ Utf8.char d, (ih (a := []) (Nat.zero_le _) hc h2).2⟩
          | cons y m =>
            rw [List.cons_append] at h4
            cases h4
            rcases enc_cases d with ⟨z, -, hz⟩ | ⟨-, hz⟩
            · rw [hz, List.cons_append, List.cons.injEq] at h3
              exact absurd h3.2 (by simp)
            · exact absurd hc (not_lt.2 (hz c (by rw [h3]; simp)))
        · rw [h4] at h2
          have hl' : m.length ≤ n := by
            have h5 := congrArg List.length h3
            have h6 : 0 < (utf8EncodeChar d).length := List.length_pos_iff.2 hne
            rw [List.length_append] at h5
            omega
          obtain ⟨g1, g2⟩ := ih hl' hc h2
          exact ⟨by rw [h3]; exact (Utf8.char d).append g1, g2⟩

theorem Utf8.parts {a b : Bytes} {c : UInt8} (hc : c.toNat < 128) (h : Utf8 (a ++ c :: b)) : Utf8 a ∧ Utf8 b :=
  Utf8.split _ (Nat.le_refl _) hc h

theorem Utf8.tail {b : Bytes} {c : UInt8} (hc : c.toNat < 128) (h : Utf8 (c :: b)) : Utf8 b := (Utf8.parts (a := []) hc h).2

theorem Utf8.drop {w b : Bytes} (hw : ∀ c ∈ w, c.toNat < 128) (h : Utf8 (w ++ b)) : Utf8 b := by
  induction w with
  | nil => exact h
  | cons c w ih => exact ih (fun x hx => hw x (.tail _ hx)) (h.tail (hw c (.head _)))

theorem Utf8.take {w b : Bytes} (hw : ∀ c ∈ w, c.toNat < 128) (h : Utf8 (b ++ w)) : Utf8 b := by
  cases w with
  | nil => rwa [List.append_nil] at h
  | cons c w => exact (Utf8.parts (hw c (.head _)) h).1

theorem Utf8.lead {w b : Bytes} (hw : ∀ c ∈ w, c.toNat < 128) (h : Utf8 b) : Utf8 (w ++ b) := by
  induction w with
  | nil => exact h
  | cons c w ih => exact Utf8.ascii (hw c (.head _)) (ih fun x hx => hw x (.tail _ hx))

theorem Coerced.utf8 {s t : Bytes} (h : Coerced s t) : Utf8 t := by
  induction h with
  | nil => exact .nil
  | char _ ih => exact (Utf8.char _).append ih
  | bad _ _ ih => exact (Utf8.char _).append ih

theorem isHex_ascii {c : UInt8} {x : Nat} (h : IsHex c x) : c.toNat < 128 := by
  rcases h with h | h
  · exact (show ∀ c ∈ b!"0123456789abcdef", c.toNat < 128 by decide) c (List.mem_of_getElem? h)
  · exact (show ∀ c ∈ b!"0123456789ABCDEF", c.toNat < 128 by decide) c (List.mem_of_getElem? h)

theorem hex4_ascii {h : Bytes} {u : Nat} (hh : Hex4 h u) : ∀ c ∈ h, c.toNat < 128 := by
  obtain ⟨a, b, c, d, x, y, z, w, rfl, h1, h2, h3, h4, -⟩ := hh
  intro e he
  simp only [List.mem_cons, List.not_mem_nil, or_false] at he
  rcases he with rfl | rfl | rfl | rfl
  · exact isHex_ascii h1
  · exact isHex_ascii h2
  · exact isHex_ascii h3
  · exact isHex_ascii h4

theorem unescapes_beyond {p s r : Bytes} (hp : ∀ b ∈ p, 128 ≤ b.toNat) (h : Unescapes (p ++ s) r) :
    ∃ r', r = p ++ r' ∧ Unescapes s r' := by
  induction p generalizing r with
  | nil => exact ⟨r, rfl, h⟩
  | cons b p ih =>
    have hb := hp b (.head _)
    have h92 : b ≠ 92 := by rintro rfl; exact absurd hb (by decide)
    rw [List.cons_append] at h
    generalize hu : b :: (p ++ s) = u at h
    cases h with
    | nil => cases hu
    | plain h1 h2 h3 h4 =>
      cases hu
      obtain ⟨r', rfl, h5⟩ := ih (fun x hx => hp x (.tail _ hx)) h4
      exact ⟨r', rfl, h5⟩
    | short => exact absurd (List.cons.inj hu).1 h92
    | unicode => exact absurd (List.cons.inj hu).1 h92
    | pair => exact absurd (List.cons.inj hu).1 h92
    | low => exact absurd (List.cons.inj hu).1 h92
    | high => exact absurd (List.cons.inj hu).1 h92

/-- Escapes in UTF-8 texts stand for UTF-8 texts. -/
theorem Utf8.unescaped (n : Nat) : ∀ {s r : Bytes}, s.length ≤ n → Utf8 s → Unescapes s r → Utf8 r := by
  induction n with
  | zero =>
    intro s r hl _ h
    obtain rfl : s = [] := by simpa using hl
    cases h
    exact .nil
  | succ n ih =>
    intro s r hl hs h
    rcases hs.cases with rfl | ⟨d, s', rfl, hs'⟩
    · cases h
      exact .nil
    · have hne : utf8EncodeChar d ≠ [] := by
        rcases enc_cases d with ⟨x, -, hx⟩ | ⟨hx, -⟩
        · rw [hx]; simp
        · exact hx
      have h6 : 0 < (utf8EncodeChar d).length := List.length_pos_iff.2 hne
      rw [List.length_append] at hl
      rcases enc_cases d with ⟨a, ha, hx⟩ | ⟨-, hx⟩
      · rw [hx, List.singleton_append] at h
        rw [hx, List.length_singleton] at hl
        generalize hu : a :: s' = u at h
        cases h with
        | nil => cases hu
        | plain h1 h2 h3 h4 =>
          cases hu
          exact .ascii ha (ih (by omega) hs' h4)
        | @short e c s t h1 h2 =>
          cases hu
          have hec : e.toNat < 128 ∧ c.toNat < 128 :=
            (show ∀ p ∈ shortEscapes, p.1.toNat < 128 ∧ p.2.toNat < 128 by decide) _ h1
          have hl' := hl; rw [List.length_cons] at hl'
          exact .ascii hec.2 (ih (by omega) (hs'.tail hec.1) h2)
        | @unicode h s t u h1 h2 h3 =>
          cases hu
          have hl' : 1 + (117 :: (h ++ s)).length ≤ n + 1 := hl
          simp only [List.length_cons, List.length_append] at hl'
          exact (Utf8.char _).append (ih (by omega) ((hs'.tail (by decide)).drop (hex4_ascii h1)) h3)
        | @pair h h' s t u v h1 h2 _ _ _ _ h3 =>
          cases hu
          have hl' : 1 + (117 :: (h ++ (92 :: 117 :: (h' ++ s)))).length ≤ n + 1 := hl
          simp only [List.length_cons, List.length_append] at hl'
          refine (Utf8.char _).append (ih (by omega) ?_ h3)
          have g1 := (hs'.tail (by decide)).drop (hex4_ascii h1)
          exact ((g1.tail (by decide)).tail (by decide)).drop (hex4_ascii h2)
        | @low h s t u h1 _ _ h3 =>
          cases hu
          have hl' : 1 + (117 :: (h ++ s)).length ≤ n + 1 := hl
          simp only [List.length_cons, List.length_append] at hl'
          exact (Utf8.char _).append (ih (by omega) ((hs'.tail (by decide)).drop (hex4_ascii h1)) h3)
        | @high h s t u h1 _ _ _ h3 =>
          cases hu
          have hl' : 1 + (117 :: (h ++ s)).length ≤ n + 1 := hl
          simp only [List.length_cons, List.length_append] at hl'
          exact (Utf8.char _).append (ih (by omega) ((hs'.tail (by decide)).drop (hex4_ascii h1)) h3)
      · obtain ⟨r', rfl, h5⟩ := unescapes_beyond hx h
        exact (Utf8.char _).append (ih (by omega) hs' h5)

/-! ## What is written is UTF-8 -/

theorem escapeRune_utf8 {r : Nat} (hr : Scalar r) : Utf8 (escapeRune r (encodeRune r)) := by
  have hc : Utf8 (encodeRune r) := by rw [encodeRune_utf8 hr]; exact Utf8.char _
  have hx : ∀ n, n < 16 → (hexChar n).toNat < 128 := by decide
  unfold escapeRune
  split_ifs
  · exact .ascii (by decide) hc
  · exact .ascii (by decide) (.ascii (by decide) .nil)
  · exact .ascii (by decide) (.ascii (by decide) .nil)
  · exact .ascii (by decide) (.ascii (by decide) .nil)
  · exact .ascii (by decide) (.ascii (by decide) .nil)
  · exact .ascii (by decide) (.ascii (by decide) .nil)
  · refine Utf8.lead (by decide) (.ascii (hx _ ?_) (.ascii (hx _ ?_) .nil)) <;> omega
  · refine Utf8.lead (by decide) (.ascii (hx _ ?_) .nil); omega
  · exact hc

theorem quoteGo_is_utf8 : ∀ (fuel : Nat) (s : Bytes), Utf8 (quoteGo fuel s)
  | 0, s => by rw [quoteGo]; exact .nil
  | fuel + 1, s => by
    by_cases h0 : s = []
    · rw [h0, quoteGo_nil]; exact .nil
    · cases hd : decodeRune s with
      | none =>
        rw [quoteGo_none h0 hd]
        exact Utf8.lead (by decide) (quoteGo_is_utf8 fuel _)
      | some p =>
        obtain ⟨h1, h2, -, -⟩ := decodeRune_inv (n := p.1) (r := p.2) hd
        rw [quoteGo_some (n := p.1) (r := p.2) hd, h2]
        exact (escapeRune_utf8 h1).append (quoteGo_is_utf8 fuel _)

end Rap
