import Verif.Model.UnmarshalProperty
import Verif.Props.JsonOwn

/-! # Proofs: UnmarshalProperty -/

namespace Rap

theorem skipSpace_of {c : UInt8} (h : isJsonSpace c = false) (w : Bytes) : skipSpace (c :: w) = c :: w := by
  rw [skipSpace, List.dropWhile_cons_of_neg (by simp [h])]

/-- A text that starts with a quote is a string or no JSON. -/
theorem unmarshal_quoted {w : Bytes} {j : JVal} (h : jsonUnmarshal (34 :: w) = some j) :
    ∃ b r s, scanString w = some (b, r) ∧ unquote b = some s ∧ j = .str s := by
  have hv : ∀ depth, scanValue unquote depth (34 :: w) = scanLiteral unquote (34 :: w) := by
    intro depth
    cases depth <;> simp only [scanValue, skipSpace_of (c := 34) (by decide)]
    rfl
  rw [jsonUnmarshal, jsonTree, scanText, hv, scanLiteral] at h
  cases hs : scanString w with
  | none => rw [hs] at h; simp at h
  | some p =>
    obtain ⟨b, r⟩ := p
    rw [hs] at h
    cases hq : unquote b with
    | none => simp [hq] at h
    | some s =>
      simp only [hq, Option.bind_eq_bind, Option.bind_some] at h
      split at h
      · exact ⟨b, r, s, rfl, hq, by simpa [JVal.asMaps] using h.symm⟩
      · simp at h

/-- The text of a map is no JSON. -/
theorem unmarshal_map (w : Bytes) : jsonUnmarshal (109 :: w) = none := by
  have hv : ∀ depth, scanValue unquote depth (109 :: w) = scanLiteral unquote (109 :: w) := by
    intro depth
    cases depth <;> simp only [scanValue, skipSpace_of (c := 109) (by decide)]
    rfl
  have hl : scanLiteral unquote (109 :: w) = none := by
    rw [scanLiteral]
    · rw [List.takeWhile_cons_of_neg (by decide)]; rfl
    all_goals simp
  rw [jsonUnmarshal, jsonTree, scanText, hv, hl]
  rfl

/-- A text that starts with a bracket is an array or no JSON. -/
theorem unmarshal_bracket {w : Bytes} {j : JVal} (h : jsonUnmarshal (91 :: w) = some j) : ∃ items, j = .arr items := by
  rw [jsonUnmarshal, jsonTree, scanText, show (10000 : Nat) = 9999 + 1 from rfl, scanValue, skipSpace_of (c := 91) (by decide)] at h
  simp only at h
  split at h
  · next v r hv =>
    split at hv
    · simp only [Option.some.injEq, Prod.mk.injEq] at hv
      obtain ⟨rfl, rfl⟩ := hv
      split at h
      · exact ⟨_, by simpa [JVal.asMaps] using h.symm⟩
      · simp at h
    · rw [Option.map_eq_some_iff] at hv
      obtain ⟨x, -, hv⟩ := hv
      simp only [Prod.mk.injEq] at hv
      obtain ⟨rfl, rfl⟩ := hv
      split at h
      · exact ⟨_, by simpa [JVal.asMaps] using h.symm⟩
      · simp at h
  · simp at h

theorem decimal_bytes (i : Int) : V1.decimal i ≠ [] ∧ ∀ c ∈ V1.decimal i, c = 45 ∨ (48 ≤ c.toNat ∧ c.toNat ≤ 57) := by
  obtain ⟨h1, h2, -⟩ := (decimalNat_spec i.natAbs).1
  rw [V1.decimal]
  split
  · refine ⟨by simp, fun c hc => ?_⟩
    rcases List.mem_cons.1 hc with rfl | hc
    · exact .inl rfl
    · exact .inr (h2 c hc)
  · exact ⟨h1, fun c hc => .inr (h2 c hc)⟩

theorem numberByte_of {c : UInt8} (h : c = 45 ∨ (48 ≤ c.toNat ∧ c.toNat ≤ 57)) :
    isNumberByte c = true ∧ isJsonSpace c = false ∧ c ≠ 34 ∧ c ≠ 110 ∧ c ≠ 116 ∧ c ≠ 102 ∧ c ≠ 91 ∧ c ≠ 123 ∧ c ≠ 44 ∧ c ≠ 93 := by
  have key : ∀ n : Fin 256, (n.val = 45 ∨ (48 ≤ n.val ∧ n.val ≤ 57)) → isNumberByte (UInt8.ofNat n) = true ∧
      isJsonSpace (UInt8.ofNat n) = false ∧ UInt8.ofNat n ≠ 34 ∧ UInt8.ofNat n ≠ 110 ∧ UInt8.ofNat n ≠ 116 ∧ UInt8.ofNat n ≠ 102 ∧
      UInt8.ofNat n ≠ 91 ∧ UInt8.ofNat n ≠ 123 ∧ UInt8.ofNat n ≠ 44 ∧ UInt8.ofNat n ≠ 93 := by decide +kernel
  have := key ⟨c.toNat, c.toNat_lt⟩ (h.imp (fun h => by rw [h]; rfl) id)
  simpa using this

/-- Numbers with a space between them are no array. -/
theorem unmarshal_slice (i : Int) {c : UInt8} (hc : c = 45 ∨ (48 ≤ c.toNat ∧ c.toNat ≤ 57)) (w : Bytes) :
    jsonUnmarshal (91 :: (V1.decimal i ++ 32 :: c :: w)) = none := by
  obtain ⟨hne, hall⟩ := decimal_bytes i
  obtain ⟨d, ds, hd⟩ := List.exists_cons_of_ne_nil hne
  have hd1 := numberByte_of (hall d (by rw [hd]; simp))
  have hstart : skipSpace (V1.decimal i ++ 32 :: c :: w) = V1.decimal i ++ 32 :: c :: w := by
    rw [hd, List.cons_append, skipSpace_of hd1.2.1]
  have htake : (V1.decimal i ++ 32 :: c :: w).dropWhile isNumberByte = 32 :: c :: w := by
    rw [List.dropWhile_append_of_pos (fun c hc => (numberByte_of (hall c hc)).1), List.dropWhile_cons_of_neg (by decide)]
  have hlit : ∀ x, scanLiteral unquote (V1.decimal i ++ 32 :: c :: w) = some x → x.2 = 32 :: c :: w := by
    intro x hx
    rw [scanLiteral] at hx
    · rw [Option.map_eq_some_iff] at hx
      obtain ⟨n, -, rfl⟩ := hx
      exact htake
    all_goals (intro r hr; rw [hd, List.cons_append, List.cons.injEq] at hr; simp_all)
  have hval : ∀ depth x, scanValue unquote depth (V1.decimal i ++ 32 :: c :: w) = some x → x.2 = 32 :: c :: w := by
    intro depth x hx
    cases depth with
    | zero => rw [scanValue, hstart] at hx; exact hlit x hx
    | succ depth =>
      rw [scanValue, hstart] at hx
      split at hx
      · next r hr => rw [hd, List.cons_append, List.cons.injEq] at hr; exact absurd hr.1 hd1.2.2.2.2.2.2.1
      · next r hr => rw [hd, List.cons_append, List.cons.injEq] at hr; exact absurd hr.1 hd1.2.2.2.2.2.2.2.1
      · exact hlit x hx
  have hc1 := numberByte_of hc
  have hskip : skipSpace (32 :: c :: w) = c :: w := by
    rw [skipSpace, List.dropWhile_cons_of_pos (by decide), List.dropWhile_cons_of_neg (by simp [hc1.2.1])]
  have hel : ∀ fuel, scanElements (scanValue unquote 9999) fuel (V1.decimal i ++ 32 :: c :: w) = none := by
    intro fuel
    cases fuel with
    | zero => rfl
    | succ fuel =>
      rw [scanElements]
      cases hv : scanValue unquote 9999 (V1.decimal i ++ 32 :: c :: w) with
      | none => rfl
      | some x =>
        obtain ⟨v, r⟩ := x
        have := hval _ _ hv
        simp only at this
        subst this
        simp only [Option.bind_eq_bind, Option.bind_some, hskip]
        split
        · next h => rw [List.cons.injEq] at h; exact absurd h.1 hc1.2.2.2.2.2.2.2.2.1
        · next h => rw [List.cons.injEq] at h; exact absurd h.1 hc1.2.2.2.2.2.2.2.2.2
        · rfl
  rw [jsonUnmarshal, jsonTree, scanText, show (10000 : Nat) = 9999 + 1 from rfl, scanValue, skipSpace_of (c := 91) (by decide)]
  simp only [hstart, hel]
  split
  · next v r hv =>
    split at hv
    · next r' hr => rw [hd, List.cons_append, List.cons.injEq] at hr; exact absurd hr.1 hd1.2.2.2.2.2.2.2.2.2
    · simp at hv
  · rfl

/-- A string that starts with a plain character is read as one that starts with it. -/
theorem unquote_first {c : UInt8} (h1 : 32 ≤ c.toNat) (h2 : c.toNat < 128) (h3 : c ≠ 34) (h4 : c ≠ 92) {r s : Bytes}
    (h : unquote (c :: r) = some s) : ∃ s', s = c :: s' := by
  have hd : decodeRune (c :: r) = some (1, c.toNat) := by
    match r with
    | [] => simp [decodeRune, decodeRune.rune, h2]
    | [_] => simp [decodeRune, decodeRune.rune, h2]
    | [_, _] => simp [decodeRune, decodeRune.rune, h2]
    | _ :: _ :: _ :: _ => simp [decodeRune, decodeRune.rune, h2]
  rw [unquote, List.length_cons, coerceUtf8, hd] at h
  · simp only [List.take_succ_cons, List.take_zero, List.drop_succ_cons, List.drop_zero, List.cons_append, List.nil_append] at h
    rw [requote, pieces.eq_def] at h
    simp only at h
    rw [if_neg (by
      rintro (h | h)
      · rw [UInt8.lt_iff_toNat_lt] at h; simp at h; omega
      · exact h3 h), if_pos h4, Option.map_map, Option.map_eq_some_iff] at h
    obtain ⟨ps, -, rfl⟩ := h
    exact ⟨_, rfl⟩
  · simp

/-- Texts that start with a letter or bracket are neither bytes nor times. -/
theorem quoted_refused {c : UInt8} (hc : c = 109 ∨ c = 91) (w : Bytes) :
    (∃ n, unmarshalByte goUnmarshal ([34] ++ (c :: w) ++ [34]) = GoE.fail n) ∧
      ∃ n, unmarshalTime goUnmarshal (goReader goParseTime) ([34] ++ (c :: w) ++ [34]) = GoE.fail n := by
  have hdec : (∃ n, decodeString goUnmarshal ([34] ++ (c :: w) ++ [34]) = GoE.fail n) ∨
      ∃ s, decodeString goUnmarshal ([34] ++ (c :: w) ++ [34]) = pure (c :: s) := by
    have hlist : [34] ++ (c :: w) ++ [34] = 34 :: c :: (w ++ [34]) := by simp
    rw [hlist, decodeString]
    change (∃ n, (match jsonUnmarshal (34 :: c :: (w ++ [34])) with
      | some (.str s) => pure s
      | some .null => pure []
      | _ => GoE.fail 40) = GoE.fail n) ∨ _
    cases hj : jsonUnmarshal (34 :: c :: (w ++ [34])) with
    | none => exact .inl ⟨_, rfl⟩
    | some j =>
      obtain ⟨b, r, s, h1, h2, rfl⟩ := unmarshal_quoted hj
      right
      obtain ⟨b', rfl⟩ : ∃ b', b = c :: b' := by
        rw [scanString] at h1
        · rw [Option.map_eq_some_iff] at h1
          obtain ⟨p, -, hp⟩ := h1
          exact ⟨p.1, (Prod.mk.inj hp).1.symm⟩
        · rcases hc with rfl | rfl <;> simp
        · rcases hc with rfl | rfl <;> simp
      obtain ⟨s', rfl⟩ := unquote_first (by rcases hc with rfl | rfl <;> decide) (by rcases hc with rfl | rfl <;> decide)
        (by rcases hc with rfl | rfl <;> decide) (by rcases hc with rfl | rfl <;> decide) h2
      refine ⟨s', ?_⟩
      change (match jsonUnmarshal (34 :: c :: (w ++ [34])) with
        | some (.str s) => pure s
        | some .null => pure []
        | _ => GoE.fail 40) = _
      rw [hj]
  have hhex : ∀ s, hexDecode (if b!"0x" <+: c :: s then (c :: s).drop 2 else c :: s) = none := by
    intro s
    rw [if_neg (by rcases hc with rfl | rfl <;> simp)]
    match s with
    | [] => rfl
    | a :: s => rcases hc with rfl | rfl <;> rfl
  have htime : ∀ s, goParseTime (c :: s) = none := by
    intro s
    have : takeDigits 4 (c :: s) = none := by
      rw [takeDigits]
      split
      · rw [Option.map_eq_none_iff, Option.eq_none_iff_forall_ne_some]
        intro n hn
        have := (readDigits_eq.1 hn).2.1 c (by simp)
        rcases hc with rfl | rfl <;> revert this <;> decide
      · rfl
    rw [goParseTime, this]; rfl
  constructor
  · rcases hdec with ⟨n, h⟩ | ⟨s, h⟩
    · exact ⟨n, by rw [unmarshalByte, h]; rfl⟩
    · exact ⟨46, by rw [unmarshalByte, h, pure_bind, hhex]; rfl⟩
  · rcases hdec with ⟨n, h⟩ | ⟨s, h⟩
    · exact ⟨n, by rw [unmarshalTime, h]; rfl⟩
    · refine ⟨50, ?_⟩
      rw [unmarshalTime, h, pure_bind]
      change GoE.get 50 (goParseTime (c :: s)) = _
      rw [htime]; rfl

/-- The text of an integer is a number or, if there are too many digits, refused. -/
theorem unmarshal_decimal {i : Int} {j : JVal} (h : jsonUnmarshal (V1.decimal i) = some j) : ∃ d, j = .num d := by
  obtain ⟨hne, hall⟩ := decimal_bytes i
  obtain ⟨d, ds, hd⟩ := List.exists_cons_of_ne_nil hne
  have hd1 := numberByte_of (hall d (by rw [hd]; simp))
  have hstart : skipSpace (V1.decimal i) = V1.decimal i := by rw [hd, skipSpace_of hd1.2.1]
  have hlit : ∀ x, scanLiteral unquote (V1.decimal i) = some x → ∃ n, x.1 = .num n := by
    intro x hx
    rw [scanLiteral] at hx
    · rw [Option.map_eq_some_iff] at hx
      obtain ⟨n, -, rfl⟩ := hx
      exact ⟨n, rfl⟩
    all_goals (intro r hr; rw [hd, List.cons.injEq] at hr; simp_all)
  have hval : ∀ x, scanValue unquote 10000 (V1.decimal i) = some x → ∃ n, x.1 = .num n := by
    intro x hx
    rw [show (10000 : Nat) = 9999 + 1 from rfl, scanValue, hstart] at hx
    split at hx
    · next r hr => rw [hd, List.cons.injEq] at hr; exact absurd hr.1 hd1.2.2.2.2.2.2.1
    · next r hr => rw [hd, List.cons.injEq] at hr; exact absurd hr.1 hd1.2.2.2.2.2.2.2.1
    · exact hlit x hx
  rw [jsonUnmarshal, jsonTree, scanText] at h
  split at h
  · next v r hv =>
    obtain ⟨n, hn⟩ := hval _ hv
    simp only at hn
    subst hn
    split at h
    · exact ⟨n, by simpa [JVal.asMaps] using h.symm⟩
    · simp at h
  · simp at h

/-- `strconv.Atoi` reads the integer that was printed. -/
theorem atoi_decimal {i k : Int} (h : atoiText (V1.decimal i) = some k) : k = i := by
  obtain ⟨-, -, h⟩ := atoiText_eq.1 h
  have hs := (decimalNat_spec i.natAbs).1
  obtain ⟨c, r, hc⟩ := List.exists_cons_of_ne_nil hs.1
  have hcd := hs.2.1 c (by rw [hc]; simp)
  have hread : readDigits (V1.decimalNat i.natAbs) = some i.natAbs := readDigits_eq.2 ⟨hs.1, hs.2.1, hs.2.2.1⟩
  rw [V1.decimal] at h
  split at h
  · next hneg =>
    rcases h with ⟨r, n, h1, h2, rfl⟩ | ⟨r, n, h1, h2, rfl⟩ | ⟨n, h2, rfl⟩
    · rw [← (List.cons.inj h1).2, hread] at h2
      cases h2
      omega
    · exact absurd (List.cons.inj h1).1 (by decide)
    · have := (readDigits_eq.1 h2).2.1 45 (by simp)
      exact absurd this (by decide)
  · next hpos =>
    rcases h with ⟨r, n, h1, h2, rfl⟩ | ⟨r, n, h1, h2, rfl⟩ | ⟨n, h2, rfl⟩
    · rw [h1] at hc
      rw [← (List.cons.inj hc).1] at hcd
      exact absurd hcd (by decide)
    · rw [h1] at hc
      rw [← (List.cons.inj hc).1] at hcd
      exact absurd hcd (by decide)
    · rw [hread] at h2
      cases h2
      omega

end Rap
