import Verif.Proof.Json

/-!
# Reading the text of a JSON string
-/

namespace Rap

theorem isHex_hexDigit {c : UInt8} {n : Nat} (h : hexDigit c = some n) : IsHex c n := by
  have every : ∀ k : Fin 256, ∀ n : Fin 16, hexDigit (UInt8.ofNat k) = some n.val →
      b!"0123456789abcdef"[n.val]? = some (UInt8.ofNat k) ∨ b!"0123456789ABCDEF"[n.val]? = some (UInt8.ofNat k) := by
    decide +kernel
  have small : ∀ k : Fin 256, (hexDigit (UInt8.ofNat k)).all (· < 16) = true := by decide +kernel
  have hc : UInt8.ofNat c.toNat = c := by simp
  have hs := small ⟨c.toNat, c.toNat_lt⟩
  simp only [hc, h, Option.all_some, decide_eq_true_eq] at hs
  have := every ⟨c.toNat, c.toNat_lt⟩ ⟨n, hs⟩
  simp only [hc] at this
  exact this h

theorem hex4_digits {a b c d : UInt8} {x y z w : Nat} (ha : hexDigit a = some x) (hb : hexDigit b = some y)
    (hc : hexDigit c = some z) (hd : hexDigit d = some w) : Hex4 [a, b, c, d] (((x * 16 + y) * 16 + z) * 16 + w) :=
  ⟨a, b, c, d, x, y, z, w, rfl, isHex_hexDigit ha, isHex_hexDigit hb, isHex_hexDigit hc, isHex_hexDigit hd, by omega⟩

theorem hex4_lt {h : Bytes} {u : Nat} (hh : Hex4 h u) : u < 65536 := by
  obtain ⟨a, b, c, d, x, y, z, w, -, ha, hb, hc, hd, rfl⟩ := hh
  have := (hexDigit_isHex ha).2.1
  have := (hexDigit_isHex hb).2.1
  have := (hexDigit_isHex hc).2.1
  have := (hexDigit_isHex hd).2.1
  omega

/-- The first piece of a text and what follows it. -/
inductive Head : Bytes → Piece → Bytes → Prop
  | plain {c : UInt8} {s : Bytes} : 32 ≤ c → c ≠ 34 → c ≠ 92 → Head (c :: s) (.byte c) s
  | short {e c : UInt8} {s : Bytes} : (e, c) ∈ shortEscapes → Head (92 :: e :: s) (.byte c) s
  | unit {h s : Bytes} {u : Nat} : Hex4 h u → Head (92 :: 117 :: h ++ s) (.unit u) s

theorem pieces_head {s s' : Bytes} {p : Piece} (h : Head s p s') : pieces s = (pieces s').map (p :: ·) := by
  cases h with
  | @plain c s h1 h2 h3 =>
    rw [pieces.eq_def]; dsimp only
    rw [if_neg (by rintro (h | h); exacts [absurd h (UInt8.not_lt.2 h1), h2 h]), if_pos h3]
  | @short e c s hm =>
    simp only [shortEscapes, List.mem_cons, List.not_mem_nil, or_false, Prod.mk.injEq] at hm
    rcases hm with ⟨rfl, rfl⟩ | ⟨rfl, rfl⟩ | ⟨rfl, rfl⟩ | ⟨rfl, rfl⟩ | ⟨rfl, rfl⟩ | ⟨rfl, rfl⟩ | ⟨rfl, rfl⟩ | ⟨rfl, rfl⟩ <;>
      rw [pieces.eq_def] <;> rfl
  | @unit h s u hh =>
    obtain ⟨a, b, c, d, x, y, z, w, rfl, ha, hb, hc, hd, rfl⟩ := hh
    rw [pieces.eq_def]
    simp only [List.cons_append, List.nil_append, (hexDigit_isHex ha).1, (hexDigit_isHex hb).1,
      (hexDigit_isHex hc).1, (hexDigit_isHex hd).1]
    rw [if_neg (by decide), if_neg (by decide)]
    have : ((x * 16 + y) * 16 + z) * 16 + w = 4096 * x + 256 * y + 16 * z + w := by omega
    rw [this]

theorem pieces_some {s : Bytes} {ps : List Piece} (h : pieces s = some ps) :
    (s = [] ∧ ps = []) ∨ ∃ p ps' s', ps = p :: ps' ∧ Head s p s' ∧ pieces s' = some ps' := by
  rw [pieces.eq_def] at h
  match s with
  | [] => exact .inl ⟨rfl, by simpa using h.symm⟩
  | b :: rest =>
    right
    dsimp only at h
    split at h
    · cases h
    · next h1 =>
      have h32 : 32 ≤ b := UInt8.not_lt.1 fun h => h1 (.inl h)
      have h34 : b ≠ 34 := fun h => h1 (.inr h)
      split at h
      · next h92 =>
        obtain ⟨ps', hp, rfl⟩ := Option.map_eq_some_iff.1 h
        exact ⟨_, _, _, rfl, .plain h32 h34 h92, hp⟩
      · next h92 =>
        have : b = 92 := by simpa using h92
        subst this
        split at h
        all_goals first
          | (obtain ⟨ps', hp, rfl⟩ := Option.map_eq_some_iff.1 h
             exact ⟨_, _, _, rfl, .short (by decide), hp⟩)
          | skip
        · split at h
          · next x0 x1 x2 x3 e0 e1 e2 e3 =>
            obtain ⟨ps', hp, rfl⟩ := Option.map_eq_some_iff.1 h
            exact ⟨_, _, _, rfl, .unit (hex4_digits e0 e1 e2 e3), hp⟩
          · cases h
        · cases h

theorem encodeRune_utf8 {u : Nat} (h : u < 0xD800 ∨ 0xE000 ≤ u ∧ u < 0x110000) : encodeRune u = utf8 u := by
  have hv : (Char.ofNat u).val.toNat = u := by
    have : u.isValidChar := by rcases h with h | h <;> [exact .inl h; exact .inr ⟨by omega, h.2⟩]
    rw [Char.ofNat, dif_pos this]
    rfl
  rw [encodeRune, utf8, String.utf8EncodeChar]
  simp only [hv]
  by_cases h1 : u < 0x80
  · rw [if_pos h1, if_pos (by omega)]
    try rfl
  · rw [if_neg h1, if_neg (show ¬ u ≤ 127 by omega)]
    by_cases h2 : u < 0x800
    · rw [if_pos h2, if_pos (show u ≤ 2047 by omega)]
      have : u / 64 % 32 + 192 = 0xC0 + u / 64 := by omega
      rw [this, Nat.add_comm (u % 64)]
      try rfl
    · rw [if_neg h2, if_neg (show ¬ u ≤ 2047 by omega)]
      by_cases h3 : u < 0x10000
      · rw [if_pos h3, if_pos (show u ≤ 65535 by omega)]
        have : u / 4096 % 16 + 224 = 0xE0 + u / 4096 := by omega
        rw [this, Nat.add_comm (u / 64 % 64), Nat.add_comm (u % 64)]
        try rfl
      · rw [if_neg h3, if_neg (show ¬ u ≤ 65535 by omega)]
        have : u / 262144 % 8 + 240 = 0xF0 + u / 262144 := by omega
        rw [this, Nat.add_comm (u / 4096 % 64), Nat.add_comm (u / 64 % 64), Nat.add_comm (u % 64)]
        try rfl

theorem unescapes_pieces {s t : Bytes} (h : Unescapes s t) : ∃ ps, pieces s = some ps ∧ joinPieces ps = t := by
  induction h with
  | nil => exact ⟨[], rfl, rfl⟩
  | plain h1 h2 h3 _ ih =>
    obtain ⟨ps, hp, rfl⟩ := ih
    exact ⟨_, by rw [pieces_head (.plain h1 h2 h3), hp]; rfl, rfl⟩
  | short hm _ ih =>
    obtain ⟨ps, hp, rfl⟩ := ih
    exact ⟨_, by rw [pieces_head (.short hm), hp]; rfl, rfl⟩
  | @unicode h s t u hh hu _ ih =>
    obtain ⟨ps, hp, rfl⟩ := ih
    refine ⟨_, by rw [pieces_head (.unit hh), hp]; rfl, ?_⟩
    rw [joinPieces.eq_def]; dsimp only
    have := hex4_lt hh
    rw [if_pos hu, encodeRune_utf8 (by omega)]
  | @pair h h' s t u v hh hh' h1 h2 h3 h4 _ ih =>
    obtain ⟨ps, hp, rfl⟩ := ih
    refine ⟨_, by rw [pieces_head (.unit hh), pieces_head (.unit hh'), hp]; rfl, ?_⟩
    rw [joinPieces.eq_def]; dsimp only
    rw [if_neg (by omega), if_pos ⟨h2, h3, h4⟩, encodeRune_utf8 (by omega), Nat.mul_comm]
  | @low h s t u hh h1 h2 _ ih =>
    obtain ⟨ps, hp, rfl⟩ := ih
    refine ⟨_, by rw [pieces_head (.unit hh), hp]; rfl, ?_⟩
    rw [joinPieces.eq_def]; dsimp only
    rw [if_neg (by omega)]
    split
    · rw [if_neg (by omega), encodeRune_utf8 (by omega)]
    · rw [encodeRune_utf8 (by omega)]
  | @high h s t u hh h1 h2 hn _ ih =>
    obtain ⟨ps, hp, rfl⟩ := ih
    refine ⟨_, by rw [pieces_head (.unit hh), hp]; rfl, ?_⟩
    rw [joinPieces.eq_def]; dsimp only
    rw [if_neg (by omega)]
    split
    · rename_i v _ _
      have hv : ¬ (0xDC00 ≤ v ∧ v < 0xE000) := by
        rintro ⟨h3, h4⟩
        rcases pieces_some hp with ⟨_, h⟩ | ⟨p, ps', s', e, hd, _⟩
        · cases h
        · cases e
          cases hd with
          | unit hh' => exact hn _ _ _ hh' h3 h4 rfl
      rw [if_neg (fun h => hv h.2), encodeRune_utf8 (by omega)]
    · rw [encodeRune_utf8 (by omega)]

theorem pieces_unescapes : (ps : List Piece) → (s : Bytes) → pieces s = some ps → Unescapes s (joinPieces ps)
  | [], s, h => by
    rcases pieces_some h with ⟨rfl, _⟩ | ⟨p, ps', s', e, _⟩
    · exact .nil
    · cases e
  | p :: ps, s, h => by
    rcases pieces_some h with ⟨_, h⟩ | ⟨p', ps', s', e, hd, hp⟩
    · cases h
    · cases e
      have ih := pieces_unescapes ps s' hp
      cases hd with
      | plain h1 h2 h3 => exact .plain h1 h2 h3 ih
      | short hm => exact .short hm ih
      | @unit h _ u hh =>
        have hlt := hex4_lt hh
        rw [joinPieces.eq_def]; dsimp only
        by_cases hu : u < 0xD800 ∨ 0xE000 ≤ u
        · rw [if_pos hu, encodeRune_utf8 (by omega)]
          exact .unicode hh hu ih
        · rw [if_neg hu]
          cases ps with
          | nil =>
            rcases pieces_some hp with ⟨rfl, _⟩ | ⟨p, ps', s', e, _⟩
            · dsimp only
              rw [encodeRune_utf8 (by omega)]
              by_cases hl : 0xDC00 ≤ u
              · exact .low hh hl (by omega) ih
              · exact .high hh (by omega) (by omega) (fun h' s' v _ _ _ e => by simp at e) ih
            · cases e
          | cons q ps =>
            rcases pieces_some hp with ⟨_, h⟩ | ⟨q', ps', s'', e, hd', hp'⟩
            · cases h
            · cases e
              cases q with
              | byte b =>
                dsimp only
                rw [encodeRune_utf8 (by omega)]
                by_cases hl : 0xDC00 ≤ u
                · exact .low hh hl (by omega) ih
                · refine .high hh (by omega) (by omega) ?_ ih
                  rintro h' s1 v hv _ _ rfl
                  have := pieces_head (.unit (s := s1) hv)
                  rw [hp] at this
                  obtain ⟨_, _, e⟩ := Option.map_eq_some_iff.1 this.symm
                  cases e
              | unit v =>
                dsimp only
                by_cases hc : u < 0xDC00 ∧ 0xDC00 ≤ v ∧ v < 0xE000
                · rw [if_pos hc, encodeRune_utf8 (by omega), Nat.mul_comm]
                  cases hd' with
                  | unit hh' =>
                    exact .pair hh hh' (by omega) hc.1 hc.2.1 hc.2.2 (pieces_unescapes ps s'' hp')
                · rw [if_neg hc, encodeRune_utf8 (by omega)]
                  by_cases hl : 0xDC00 ≤ u
                  · exact .low hh hl (by omega) ih
                  · refine .high hh (by omega) (by omega) ?_ ih
                    rintro h' s1 w hw h3 h4 rfl
                    have := pieces_head (.unit (s := s1) hw)
                    rw [hp] at this
                    obtain ⟨_, _, e⟩ := Option.map_eq_some_iff.1 this.symm
                    cases e
                    exact hc ⟨by omega, h3, h4⟩

theorem requote_iff {s t : Bytes} : requote s = some t ↔ Unescapes s t := by
  rw [requote, Option.map_eq_some_iff]
  constructor
  · rintro ⟨ps, hp, rfl⟩
    exact pieces_unescapes ps s hp
  · exact unescapes_pieces

end Rap
