import Verif.Proof.JsonGrammar
import Verif.Model.JsonDecode
import Verif.Spec.JsonDecode

/-!
# The decoder reads what the grammar says
-/

namespace Rap

/-- The numbers the decoder reads. -/
def GoNumberText (t : Bytes) (d : F64) : Prop := goNumber t = some d

/-! ## White space, strings and numbers -/

theorem isJsonSpace_iff {c : UInt8} : isJsonSpace c = true ↔ c = 32 ∨ c = 9 ∨ c = 10 ∨ c = 13 := by
  simp [isJsonSpace, or_assoc]

theorem skipSpace_blank {w : Bytes} (h : Blank w) (s : Bytes) : skipSpace (w ++ s) = skipSpace s := by
  induction w with
  | nil => rfl
  | cons c w ih =>
    have hc : isJsonSpace c = true := isJsonSpace_iff.2 (h c (by simp))
    rw [skipSpace, List.cons_append, List.dropWhile_cons_of_pos hc]
    exact ih fun c hc => h c (by simp [hc])

theorem skipSpace_split (s : Bytes) : ∃ w, Blank w ∧ s = w ++ skipSpace s := by
  refine ⟨s.takeWhile isJsonSpace, fun c hc => isJsonSpace_iff.1 ?_, (List.takeWhile_append_dropWhile ..).symm⟩
  exact List.all_eq_true.1 List.all_takeWhile c hc

theorem skipSpace_idem (s : Bytes) : skipSpace (skipSpace s) = skipSpace s := by
  obtain ⟨w, hw, h⟩ := skipSpace_split s
  have e := skipSpace_blank hw (skipSpace s)
  rw [← h] at e
  exact e.symm

theorem skipSpace_other {c : UInt8} (h : isJsonSpace c = false) (s : Bytes) : skipSpace (c :: s) = c :: s := by
  rw [skipSpace, List.dropWhile_cons_of_neg (by simp [h])]

theorem scanString_strEnd : ∀ s, scanString s = strEnd s
  | [] => rfl
  | [c] => by
    rw [scanString.eq_def, strEnd.eq_def]
    split
    · simp_all
    · simp_all
    · simp_all
    · next h => cases h; simp_all [scanString, strEnd]
  | c :: c' :: r => by
    rw [scanString.eq_def, strEnd.eq_def]
    split
    · simp_all
    · simp_all
    · next h => cases h; simp only [scanString_strEnd r]
    · next h h' h'' => cases h''; simp_all [scanString_strEnd (c' :: r)]

theorem scanString_append : ∀ {s b r : Bytes}, scanString s = some (b, r) → s = b ++ 34 :: r
  | [], b, r, h => by cases h
  | [c], b, r, h => by
    rw [scanString.eq_def] at h
    split at h
    · simp_all
    · next h' => cases h'; cases h; rfl
    · simp_all
    · next h' => cases h'; simp [scanString] at h
  | c :: c' :: s, b, r, h => by
    rw [scanString.eq_def] at h
    split at h
    · simp_all
    · next h' => cases h'; cases h; rfl
    · next h' =>
      cases h'
      obtain ⟨⟨b', r'⟩, h1, h2⟩ := Option.map_eq_some_iff.1 h
      cases h2
      rw [scanString_append h1]; rfl
    · next h' =>
      cases h'
      obtain ⟨⟨b', r'⟩, h1, h2⟩ := Option.map_eq_some_iff.1 h
      cases h2
      rw [scanString_append h1]; rfl

theorem validDigits_cons {s : Bytes} (h : validDigits s = true) : s ≠ [] ∧ ∀ c ∈ s, isDigitByte c = true := by
  simpa [validDigits] using h

/-- Numbers start with a digit or a minus. -/
theorem validNumber_head {s : Bytes} (h : validNumber s = true) : ∃ c r, s = c :: r ∧ (c = 45 ∨ isDigitByte c = true) := by
  rw [validNumber.eq_def] at h
  split at h
  · exact ⟨_, _, rfl, .inl rfl⟩
  · rw [validInteger.eq_def] at h
    split at h
    · cases h
    · exact ⟨_, _, rfl, .inr (by decide)⟩
    · simp only [Bool.and_eq_true] at h
      exact ⟨_, _, rfl, .inr h.1⟩

theorem goNumber_valid {t : Bytes} {d : F64} (h : goNumber t = some d) : validNumber t = true := by
  by_contra hv
  rw [goNumber, if_neg hv] at h
  cases h

theorem goNumber_nil : goNumber [] = none := rfl

theorem isNumberByte_digit {c : UInt8} (h : isDigitByte c = true) : isNumberByte c = true := by simp [isNumberByte, h]

theorem isDigitByte_iff {c : UInt8} : isDigitByte c = true ↔ 48 ≤ c.toNat ∧ c.toNat ≤ 57 := by simp [isDigitByte]

theorem validDigits_chars {s : Bytes} (h : validDigits s = true) : ∀ c ∈ s, isNumberByte c = true :=
  fun c hc => isNumberByte_digit ((validDigits_cons h).2 c hc)

theorem validExponent_chars {s : Bytes} (h : validExponent s = true) : ∀ c ∈ s, isNumberByte c = true := by
  cases s with
  | nil => simp
  | cons c r =>
    simp only [validExponent, Bool.and_eq_true, Bool.or_eq_true, beq_iff_eq] at h
    obtain ⟨hc, h⟩ := h
    intro x hx
    rcases List.mem_cons.1 hx with rfl | hx
    · rcases hc with rfl | rfl <;> decide
    · split at h
      · rcases List.mem_cons.1 hx with rfl | hx
        · decide
        · exact validDigits_chars h x hx
      · rcases List.mem_cons.1 hx with rfl | hx
        · decide
        · exact validDigits_chars h x hx
      · exact validDigits_chars h x hx

theorem dropDigits_chars {s : Bytes} (h : ∀ c ∈ s.dropWhile isDigitByte, isNumberByte c = true) : ∀ c ∈ s, isNumberByte c = true := by
  intro c hc
  rw [← List.takeWhile_append_dropWhile (p := isDigitByte) (l := s)] at hc
  rcases List.mem_append.1 hc with hc | hc
  · exact isNumberByte_digit (List.all_eq_true.1 List.all_takeWhile c hc)
  · exact h c hc

theorem validFraction_chars {s : Bytes} (h : validFraction s = true) : ∀ c ∈ s, isNumberByte c = true := by
  rw [validFraction.eq_def] at h
  split at h
  · simp only [Bool.and_eq_true] at h
    intro x hx
    rcases List.mem_cons.1 hx with rfl | hx
    · decide
    rcases List.mem_cons.1 hx with rfl | hx
    · exact isNumberByte_digit h.1
    · exact dropDigits_chars (validExponent_chars h.2) x hx
  · exact validExponent_chars h

theorem validInteger_chars {s : Bytes} (h : validInteger s = true) : ∀ c ∈ s, isNumberByte c = true := by
  rw [validInteger.eq_def] at h
  split at h
  · simp
  · intro x hx
    rcases List.mem_cons.1 hx with rfl | hx
    · decide
    · exact validFraction_chars h x hx
  · simp only [Bool.and_eq_true] at h
    intro x hx
    rcases List.mem_cons.1 hx with rfl | hx
    · exact isNumberByte_digit h.1
    · exact dropDigits_chars (validFraction_chars h.2) x hx

theorem validNumber_chars {s : Bytes} (h : validNumber s = true) : ∀ c ∈ s, isNumberByte c = true := by
  rw [validNumber.eq_def] at h
  split at h
  · intro x hx
    rcases List.mem_cons.1 hx with rfl | hx
    · decide
    · exact validInteger_chars h x hx
  · exact validInteger_chars h

/-! ## What is read is in the grammar -/

theorem literal_sound {s r : Bytes} {j : JVal} (h : scanLiteral requote s = some (j, r)) (n : Nat) :
    ∃ t, s = t ++ r ∧ JText GoNumberText t j ∧ Nests n j := by
  rw [scanLiteral.eq_def] at h
  split at h
  · next r' =>
    simp only [Option.bind_eq_bind, Option.bind_eq_some_iff] at h
    obtain ⟨⟨b, r''⟩, h1, u, h2, h3⟩ := h
    cases h3
    rw [scanString_append h1]
    exact ⟨[34] ++ b ++ [34], by simp, .str (requote_iff.1 h2), .str⟩
  · cases h; exact ⟨b!"null", rfl, .null, .null⟩
  · cases h; exact ⟨b!"true", rfl, .true, .bool⟩
  · cases h; exact ⟨b!"false", rfl, .false, .bool⟩
  · obtain ⟨d, h1, h2⟩ := Option.map_eq_some_iff.1 h
    cases h2
    exact ⟨_, (List.takeWhile_append_dropWhile ..).symm, .num h1, .num⟩

/-- What a reader of values does, as far as soundness goes. -/
def ReadsOnly (n : Nat) (value : Bytes → Option (JVal × Bytes)) : Prop :=
  ∀ s j r, value s = some (j, r) → ∃ t, s = t ++ r ∧ JText GoNumberText t j ∧ Nests n j

theorem blank_nil : Blank [] := by simp [Blank]

theorem elements_sound {n : Nat} {value : Bytes → Option (JVal × Bytes)} (hv : ReadsOnly n value) :
    ∀ (fuel : Nat) (s : Bytes) (vs : List JVal) (r : Bytes), scanElements value fuel s = some (vs, r) →
      ∃ ts u, vs ≠ [] ∧ s = u ++ 93 :: r ∧ Separated ts u ∧ List.Forall₂ (JText GoNumberText) ts vs ∧ ∀ v ∈ vs, Nests n v
  | 0, s, vs, r, h => by cases h
  | fuel + 1, s, vs, r, h => by
    rw [scanElements] at h
    simp only [Option.bind_eq_bind, Option.bind_eq_some_iff] at h
    obtain ⟨⟨v, r1⟩, h1, h⟩ := h
    obtain ⟨t, rfl, ht, hn⟩ := hv _ _ _ h1
    obtain ⟨w, hw, hr1⟩ := skipSpace_split r1
    have hp : JText GoNumberText (t ++ w) v := by simpa using JText.pad blank_nil hw ht
    dsimp only at h
    split at h
    · next r2 h2 =>
      simp only [Option.bind_eq_some_iff] at h
      obtain ⟨⟨vs', r3⟩, h3, h4⟩ := h
      cases h4
      obtain ⟨ts, u, hne, rfl, hs, hf, hns⟩ := elements_sound hv fuel _ _ _ h3
      cases hf with
      | nil => exact absurd rfl hne
      | cons hf1 hf2 =>
        refine ⟨(t ++ w) :: _ :: _, t ++ w ++ [44] ++ u, by simp, ?_, ⟨u, hs, rfl⟩, .cons hp (.cons hf1 hf2), ?_⟩
        · rw [hr1, h2]; simp
        · intro v' hv'
          rcases List.mem_cons.1 hv' with rfl | hv'
          · exact hn
          · exact hns v' hv'
    · next r2 h2 =>
      cases h
      refine ⟨[t ++ w], t ++ w, by simp, ?_, rfl, .cons hp .nil, by simpa using hn⟩
      rw [hr1, h2]; simp
    · cases h

theorem members_sound {n : Nat} {value : Bytes → Option (JVal × Bytes)} (hv : ReadsOnly n value) :
    ∀ (fuel : Nat) (s : Bytes) (d : List (Bytes × JVal)) (r : Bytes), scanMembers requote value fuel s = some (d, r) →
      ∃ (ms : List (Bytes × Bytes)) (u : Bytes), d ≠ [] ∧ s = u ++ 125 :: r ∧ Separated (ms.map fun m => m.1 ++ [58] ++ m.2) u ∧
        List.Forall₂ KeyText (ms.map (·.1)) (d.map (·.1)) ∧ List.Forall₂ (JText GoNumberText) (ms.map (·.2)) (d.map (·.2)) ∧
        ∀ m ∈ d, Nests n m.2
  | 0, s, d, r, h => by cases h
  | fuel + 1, s, d, r, h => by
    rw [scanMembers] at h
    split at h
    case h_2 => cases h
    next r0 h0 =>
    simp only [Option.bind_eq_bind, Option.bind_eq_some_iff] at h
    obtain ⟨⟨b, r1⟩, h1, k, hk, h⟩ := h
    obtain ⟨w, hw, hs⟩ := skipSpace_split s
    obtain ⟨w1, hw1, hr1⟩ := skipSpace_split r1
    dsimp only at h
    split at h
    case h_2 => cases h
    next r2 h2 =>
    simp only [Option.bind_eq_some_iff] at h
    obtain ⟨⟨v, r3⟩, h3, h⟩ := h
    obtain ⟨t, rfl, ht, hn⟩ := hv _ _ _ h3
    obtain ⟨w3, hw3, hr3⟩ := skipSpace_split r3
    have hp : JText GoNumberText (t ++ w3) v := by simpa using JText.pad blank_nil hw3 ht
    have hkt : KeyText (w ++ [34] ++ b ++ [34] ++ w1) k := ⟨w, w1, b, hw, hw1, requote_iff.1 hk, rfl⟩
    rw [h0, scanString_append h1] at hs
    rw [h2] at hr1
    dsimp only at h
    split at h
    · next r4 h4 =>
      simp only [Option.bind_eq_some_iff] at h
      obtain ⟨⟨d', r5⟩, h5, h6⟩ := h
      cases h6
      obtain ⟨ms, u, hne, rfl, hsep, hf, hf', hns⟩ := members_sound hv fuel _ _ _ h5
      cases ms with
      | nil => exact absurd (by simpa using hf) hne
      | cons m ms =>
        refine ⟨(w ++ [34] ++ b ++ [34] ++ w1, t ++ w3) :: m :: ms, (w ++ [34] ++ b ++ [34] ++ w1) ++ [58] ++ (t ++ w3) ++ [44] ++ u,
          by simp, ?_, ⟨u, hsep, rfl⟩, .cons hkt hf, .cons hp hf', ?_⟩
        · rw [hs, hr1, hr3, h4]; simp
        · intro v' hv'
          rcases List.mem_cons.1 hv' with rfl | hv'
          · exact hn
          · exact hns v' hv'
    · next r4 h4 =>
      cases h
      refine ⟨[(w ++ [34] ++ b ++ [34] ++ w1, t ++ w3)], (w ++ [34] ++ b ++ [34] ++ w1) ++ [58] ++ (t ++ w3), by simp, ?_, rfl,
        .cons hkt .nil, .cons hp .nil, by simpa using hn⟩
      rw [hs, hr1, hr3, h4]; simp
    · cases h

theorem value_sound : ∀ n, ReadsOnly n (scanValue requote n)
  | 0, s, j, r, h => by
    obtain ⟨w, hw, hs⟩ := skipSpace_split s
    obtain ⟨t, ht, h1, h2⟩ := literal_sound (show scanLiteral requote (skipSpace s) = some (j, r) from h) 0
    exact ⟨w ++ t, by rw [hs, ht, List.append_assoc], by simpa using JText.pad hw blank_nil h1, h2⟩
  | n + 1, s, j, r, h => by
    obtain ⟨w, hw, hs⟩ := skipSpace_split s
    have lead : ∀ {t : Bytes}, skipSpace s = t ++ r → JText GoNumberText t j → Nests (n + 1) j →
        ∃ t, s = t ++ r ∧ JText GoNumberText t j ∧ Nests (n + 1) j := fun {t} ht h1 h2 =>
      ⟨w ++ t, by rw [hs, ht, List.append_assoc], by simpa using JText.pad hw blank_nil h1, h2⟩
    rw [scanValue] at h
    split at h
    · next r0 h0 =>
      obtain ⟨w1, hw1, hr0⟩ := skipSpace_split r0
      split at h
      · next r1 h1 =>
        cases h
        exact lead (t := [91] ++ w1 ++ [93]) (by rw [h0, hr0, h1]; simp) (.arr0 hw1) (.arr (by simp))
      · obtain ⟨⟨vs, r2⟩, h2, h3⟩ := Option.map_eq_some_iff.1 h
        cases h3
        obtain ⟨ts, u, hne, hu, hsep, hf, hns⟩ := elements_sound (value_sound n) _ _ _ _ h2
        exact lead (t := [91] ++ u ++ [93]) (by rw [h0, hu]; simp) (.arr hne hsep hf) (.arr hns)
    · next r0 h0 =>
      obtain ⟨w1, hw1, hr0⟩ := skipSpace_split r0
      split at h
      · next r1 h1 =>
        cases h
        exact lead (t := [123] ++ w1 ++ [125]) (by rw [h0, hr0, h1]; simp) (.obj0 hw1) (.obj (by simp))
      · obtain ⟨⟨vs, r2⟩, h2, h3⟩ := Option.map_eq_some_iff.1 h
        cases h3
        obtain ⟨ms, u, hne, hu, hsep, hf, hf', hns⟩ := members_sound (value_sound n) _ _ _ _ h2
        exact lead (t := [123] ++ u ++ [125]) (by rw [h0, hu]; simp) (.obj hne hsep hf hf') (.obj hns)
    · obtain ⟨t, ht, h1, h2⟩ := literal_sound h (n + 1)
      exact lead ht h1 h2

theorem text_sound {t : Bytes} {j : JVal} (h : scanText requote t = some j) : JText GoNumberText t j ∧ Nests 10000 j := by
  rw [scanText] at h
  split at h
  · next v r hv =>
    split at h
    · next hr =>
      cases h
      obtain ⟨u, rfl, h1, h2⟩ := value_sound _ _ _ _ hv
      obtain ⟨w, hw, hrw⟩ := skipSpace_split r
      rw [hr, List.append_nil] at hrw
      subst hrw
      exact ⟨by simpa using JText.pad blank_nil hw h1, h2⟩
    · cases h
  · cases h

/-! ## What is in the grammar is read -/

/-- Not in the middle of a number. -/
def NumberEnds (r : Bytes) : Prop := ∀ c ∈ r.head?, isNumberByte c = false

theorem number_span {t r : Bytes} (ht : ∀ c ∈ t, isNumberByte c = true) (hr : NumberEnds r) :
    (t ++ r).takeWhile isNumberByte = t ∧ (t ++ r).dropWhile isNumberByte = r := by
  rw [List.takeWhile_append_of_pos ht, List.dropWhile_append_of_pos ht]
  cases r with
  | nil => simp
  | cons c r =>
    have := hr c (by simp)
    rw [List.takeWhile_cons_of_neg (by simp [this]), List.dropWhile_cons_of_neg (by simp [this])]
    simp

theorem numberEnds_blank {w r : Bytes} (hw : Blank w) (hr : NumberEnds r) : NumberEnds (w ++ r) := by
  cases w with
  | nil => exact hr
  | cons c w =>
    intro c' hc'
    simp only [List.cons_append, List.head?_cons, Option.mem_some_iff] at hc'
    subst hc'
    rcases hw c (by simp) with h | h | h | h <;> subst h <;> decide

theorem numberEnds_cons {c : UInt8} {r : Bytes} (h : isNumberByte c = false) : NumberEnds (c :: r) := by
  intro c' hc'
  simp only [List.head?_cons, Option.mem_some_iff] at hc'
  exact hc' ▸ h

theorem scanValue_skip (q : Bytes → Option Bytes) (n : Nat) (s : Bytes) : scanValue q n (skipSpace s) = scanValue q n s := by
  cases n with
  | zero => rw [scanValue, scanValue, skipSpace_idem]
  | succ n => rw [scanValue, scanValue, skipSpace_idem]

theorem scanValue_blank (q : Bytes → Option Bytes) (n : Nat) {w : Bytes} (hw : Blank w) (s : Bytes) :
    scanValue q n (w ++ s) = scanValue q n s := by
  rw [← scanValue_skip, skipSpace_blank hw, scanValue_skip]

/-- Literals, at every depth. -/
theorem scanValue_literal {q : Bytes → Option Bytes} {c : UInt8} {s : Bytes} (hs : isJsonSpace c = false) (h1 : c ≠ 91) (h2 : c ≠ 123)
    (n : Nat) : scanValue q n (c :: s) = scanLiteral q (c :: s) := by
  cases n with
  | zero => rw [scanValue, skipSpace_other hs]
  | succ n =>
    rw [scanValue, skipSpace_other hs]
    split
    · simp_all
    · simp_all
    · rfl

theorem scanLiteral_number {q : Bytes → Option Bytes} {c : UInt8} (hc : c = 45 ∨ isDigitByte c = true) (s : Bytes) :
    scanLiteral q (c :: s) =
      (goNumber ((c :: s).takeWhile isNumberByte)).map fun d => (.num d, (c :: s).dropWhile isNumberByte) := by
  rw [scanLiteral.eq_def]
  split
  all_goals first | rfl | skip
  all_goals
    next h =>
      simp only [List.cons.injEq] at h
      rw [h.1] at hc
      exact absurd hc (by decide)

theorem scanLiteral_other {q : Bytes → Option Bytes} {c : UInt8} (hc : isNumberByte c = false) (h1 : c ≠ 34) (h2 : c ≠ 110) (h3 : c ≠ 116)
    (h4 : c ≠ 102) (s : Bytes) : scanLiteral q (c :: s) = none := by
  rw [scanLiteral.eq_def]
  split
  all_goals first | (simp_all; done) | skip
  rw [List.takeWhile_cons_of_neg (by simp [hc]), goNumber_nil]
  rfl

theorem numberStart {c : UInt8} (hc : c = 45 ∨ isDigitByte c = true) : isJsonSpace c = false ∧ c ≠ 91 ∧ c ≠ 123 := by
  refine ⟨?_, ?_, ?_⟩
  · rw [Bool.eq_false_iff]
    intro h
    rcases isJsonSpace_iff.1 h with h | h | h | h <;> subst h <;> revert hc <;> decide
  · rintro rfl; revert hc; decide
  · rintro rfl; revert hc; decide

/-- What a reader of values does, as far as completeness goes. -/
def ReadsAll (value : Bytes → Option (JVal × Bytes)) (t : Bytes) (j : JVal) : Prop :=
  ∀ r, NumberEnds r → ∃ r', value (t ++ r) = some (j, r') ∧ skipSpace r' = skipSpace r

theorem elements_complete {value : Bytes → Option (JVal × Bytes)} : ∀ (vs : List JVal) (ts : List Bytes) (u r : Bytes) (fuel : Nat),
    vs ≠ [] → Separated ts u → List.Forall₂ (ReadsAll value) ts vs → (u ++ 93 :: r).length ≤ fuel →
    scanElements value fuel (u ++ 93 :: r) = some (vs, r)
  | [], _, _, _, _, h, _, _, _ => absurd rfl h
  | [v], [t], u, r, 0, _, _, _, hf => by simp at hf
  | [v], [t], u, r, fuel + 1, _, hs, .cons h .nil, hf => by
    cases hs
    obtain ⟨r', h1, h2⟩ := h (93 :: r) (numberEnds_cons (by decide))
    rw [scanElements, h1]
    simp only [Option.bind_eq_bind, Option.bind_some]
    rw [h2, skipSpace_other (by decide)]
    rfl
  | v :: v' :: vs, t :: t' :: ts, u, r, 0, _, _, _, hf => by simp at hf
  | v :: v' :: vs, t :: t' :: ts, u, r, fuel + 1, _, ⟨u', hs, hu⟩, .cons h hrest, hf => by
    subst hu
    rw [List.append_assoc, List.append_assoc] at hf ⊢
    obtain ⟨r', h1, h2⟩ := h ([44] ++ (u' ++ 93 :: r)) (numberEnds_cons (by decide))
    rw [scanElements, h1]
    simp only [Option.bind_eq_bind, Option.bind_some]
    rw [h2, List.cons_append, List.nil_append, skipSpace_other (by decide)]
    simp only
    rw [elements_complete (v' :: vs) (t' :: ts) u' r fuel (by simp) hs hrest (by simp only [List.length_append, List.length_cons] at hf ⊢; omega)]
    rfl

theorem scanString_unescapes {s u : Bytes} (h : Unescapes s u) (r : Bytes) : scanString (s ++ 34 :: r) = some (s, r) := by
  rw [scanString_strEnd, strEnd_unescapes h]

theorem members_complete {value : Bytes → Option (JVal × Bytes)} : ∀ (d : List (Bytes × JVal)) (ms : List (Bytes × Bytes)) (u r : Bytes)
    (fuel : Nat), d ≠ [] → Separated (ms.map fun m => m.1 ++ [58] ++ m.2) u → List.Forall₂ KeyText (ms.map (·.1)) (d.map (·.1)) →
    List.Forall₂ (ReadsAll value) (ms.map (·.2)) (d.map (·.2)) → (u ++ 125 :: r).length ≤ fuel →
    scanMembers requote value fuel (u ++ 125 :: r) = some (d, r)
  | [], _, _, _, _, h, _, _, _, _ => absurd rfl h
  | [(k, v)], [(kt, t)], u, r, 0, _, _, _, _, hf => by simp at hf
  | [(k, v)], [(kt, t)], u, r, fuel + 1, _, hs, .cons hk .nil, .cons h .nil, hf => by
    cases hs
    obtain ⟨w, w', s, hw, hw', hq, rfl⟩ := hk
    obtain ⟨r', h1, h2⟩ := h (125 :: r) (numberEnds_cons (by decide))
    dsimp only at h1 h2 ⊢
    rw [scanMembers]
    simp only [List.append_assoc, List.cons_append, List.nil_append]
    rw [skipSpace_blank hw, skipSpace_other (by decide)]
    simp only [scanString_unescapes hq, requote_iff.2 hq, Option.bind_eq_bind, Option.bind_some]
    rw [skipSpace_blank hw', skipSpace_other (by decide)]
    simp only [h1, Option.bind_some]
    rw [h2, skipSpace_other (by decide)]
    rfl
  | (k, v) :: v' :: vs, (kt, t) :: t' :: ts, u, r, 0, _, _, _, _, hf => by simp at hf
  | (k, v) :: v' :: vs, (kt, t) :: t' :: ts, u, r, fuel + 1, _, ⟨u', hs, hu⟩, .cons hk hks, .cons h hrest, hf => by
    subst hu
    obtain ⟨w, w', s, hw, hw', hq, rfl⟩ := hk
    obtain ⟨r', h1, h2⟩ := h ([44] ++ (u' ++ 125 :: r)) (numberEnds_cons (by decide))
    have ih := members_complete (v' :: vs) (t' :: ts) u' r fuel (by simp) hs hks hrest
      (by simp only [List.length_append, List.length_cons] at hf ⊢; omega)
    dsimp only at h1 h2 ⊢
    rw [scanMembers]
    simp only [List.append_assoc, List.cons_append, List.nil_append] at h1 h2 ⊢
    rw [skipSpace_blank hw, skipSpace_other (by decide)]
    simp only [scanString_unescapes hq, requote_iff.2 hq, Option.bind_eq_bind, Option.bind_some]
    rw [skipSpace_blank hw', skipSpace_other (by decide)]
    simp only [h1, Option.bind_some]
    rw [h2, skipSpace_other (by decide)]
    simp only [ih, Option.bind_some]

/-- No value starts like the end of an array or object. -/
theorem scanValue_end {q : Bytes → Option Bytes} {n : Nat} {s r : Bytes} {c : UInt8} (hc : c = 93 ∨ c = 125) (h : skipSpace s = c :: r) :
    scanValue q n s = none := by
  have hs : isJsonSpace c = false := by rcases hc with rfl | rfl <;> decide
  rw [← scanValue_skip, h, scanValue_literal hs (by rcases hc with rfl | rfl <;> decide) (by rcases hc with rfl | rfl <;> decide)]
  rcases hc with rfl | rfl <;> exact scanLiteral_other (by decide) (by decide) (by decide) (by decide) (by decide) _

theorem elements_some {value : Bytes → Option (JVal × Bytes)} {fuel : Nat} {s r : Bytes} {vs : List JVal}
    (h : scanElements value fuel s = some (vs, r)) : ∃ v r', value s = some (v, r') := by
  cases fuel with
  | zero => cases h
  | succ fuel =>
    rw [scanElements] at h
    simp only [Option.bind_eq_bind, Option.bind_eq_some_iff] at h
    obtain ⟨⟨v, r1⟩, h1, -⟩ := h
    exact ⟨v, r1, h1⟩

theorem members_some {q : Bytes → Option Bytes} {value : Bytes → Option (JVal × Bytes)} {fuel : Nat} {s r : Bytes}
    {vs : List (Bytes × JVal)} (h : scanMembers q value fuel s = some (vs, r)) : ∃ r', skipSpace s = 34 :: r' := by
  cases fuel with
  | zero => cases h
  | succ fuel =>
    rw [scanMembers] at h
    split at h
    · next h' => exact ⟨_, h'⟩
    · cases h

theorem value_complete {t : Bytes} {j : JVal} (h : JText GoNumberText t j) : ∀ n, Nests n j → ReadsAll (scanValue requote n) t j := by
  have step : ∀ {ts : List Bytes} {vs : List JVal} {n : Nat},
      List.Forall₂ (fun t j => ∀ n, Nests n j → ReadsAll (scanValue requote n) t j) ts vs → (∀ v ∈ vs, Nests n v) →
      List.Forall₂ (ReadsAll (scanValue requote n)) ts vs := by
    intro ts vs n hf
    induction hf with
    | nil => intro _; exact .nil
    | cons h _ ih => intro hn; exact .cons (h n (hn _ (by simp))) (ih fun v hv => hn v (by simp [hv]))
  refine JText.rec (motive_1 := fun t j _ => ∀ n, Nests n j → ReadsAll (scanValue requote n) t j)
    (motive_2 := fun l js _ => List.Forall₂ (fun t j => ∀ n, Nests n j → ReadsAll (scanValue requote n) t j) l js)
    ?null ?true ?false ?num ?str ?arr0 ?arr ?obj0 ?obj ?pad .nil (fun _ _ h1 h2 => .cons h1 h2) h
  case null => exact fun n _ r _ => ⟨r, scanValue_literal (c := 110) (by decide) (by decide) (by decide) n, rfl⟩
  case true => exact fun n _ r _ => ⟨r, scanValue_literal (c := 116) (by decide) (by decide) (by decide) n, rfl⟩
  case false => exact fun n _ r _ => ⟨r, scanValue_literal (c := 102) (by decide) (by decide) (by decide) n, rfl⟩
  case num =>
    intro t d hd n _ r hr
    have hv := goNumber_valid hd
    obtain ⟨h1, h2⟩ := number_span (validNumber_chars hv) hr
    obtain ⟨c, t', rfl, hc⟩ := validNumber_head hv
    obtain ⟨hc1, hc2, hc3⟩ := numberStart hc
    refine ⟨r, ?_, rfl⟩
    rw [List.cons_append] at h1 h2 ⊢
    rw [scanValue_literal hc1 hc2 hc3, scanLiteral_number hc, h1, h2, show goNumber (c :: t') = some d from hd]
    rfl
  case str =>
    intro s u hu n _ r _
    refine ⟨r, ?_, rfl⟩
    simp only [List.append_assoc, List.cons_append, List.nil_append]
    rw [scanValue_literal (by decide) (by decide) (by decide), scanLiteral]
    simp only [scanString_unescapes hu, requote_iff.2 hu, Option.bind_eq_bind, Option.bind_some]
  case arr0 =>
    intro w hw n hn r _
    cases hn
    refine ⟨r, ?_, rfl⟩
    simp only [List.append_assoc, List.cons_append, List.nil_append]
    rw [scanValue, skipSpace_other (by decide)]
    simp only
    rw [skipSpace_blank hw, skipSpace_other (by decide)]
    rfl
  case arr =>
    intro ts u items hne hs _ ih n hn r _
    cases hn with
    | @arr n _ hn =>
    refine ⟨r, ?_, rfl⟩
    simp only [List.append_assoc, List.cons_append, List.nil_append]
    have he := elements_complete items ts u r _ hne hs (step ih hn) le_rfl
    rw [scanValue, skipSpace_other (by decide)]
    simp only
    split
    · next h' =>
      obtain ⟨v, r', hv⟩ := elements_some he
      rw [scanValue_end (.inl rfl) h'] at hv
      cases hv
    · rw [he]; rfl
  case obj0 =>
    intro w hw n hn r _
    cases hn
    refine ⟨r, ?_, rfl⟩
    simp only [List.append_assoc, List.cons_append, List.nil_append]
    rw [scanValue, skipSpace_other (by decide)]
    simp only
    rw [skipSpace_blank hw, skipSpace_other (by decide)]
    rfl
  case obj =>
    intro ms u d hne hs hk _ ih n hn r _
    cases hn with
    | @obj n _ hn =>
    refine ⟨r, ?_, rfl⟩
    simp only [List.append_assoc, List.cons_append, List.nil_append]
    have he := members_complete d ms u r _ hne hs hk (step ih (by
      intro v hv
      obtain ⟨m, hm, rfl⟩ := List.mem_map.1 hv
      exact hn m hm)) le_rfl
    rw [scanValue, skipSpace_other (by decide)]
    simp only
    split
    · next h' =>
      obtain ⟨r', hr'⟩ := members_some he
      rw [hr'] at h'
      cases h'
    · rw [he]; rfl
  case pad =>
    intro w w' t j hw hw' _ ih n hn r hr
    obtain ⟨r', h1, h2⟩ := ih n hn (w' ++ r) (numberEnds_blank hw' hr)
    refine ⟨r', ?_, by rw [h2, skipSpace_blank hw']⟩
    rw [List.append_assoc, List.append_assoc, scanValue_blank _ _ hw, h1]

/-- What is read without regard to invalid UTF-8. -/
theorem scanText_iff {t : Bytes} {j : JVal} : scanText requote t = some j ↔ JText GoNumberText t j ∧ Nests 10000 j := by
  refine ⟨text_sound, fun ⟨h, hn⟩ => ?_⟩
  obtain ⟨r, h1, h2⟩ := value_complete h 10000 hn [] (by simp [NumberEnds])
  rw [List.append_nil] at h1
  rw [scanText, h1]
  simp only
  rw [if_pos (by rw [h2]; rfl)]

end Rap
