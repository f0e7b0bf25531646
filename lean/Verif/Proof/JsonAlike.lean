import Verif.Proof.JsonCoerce

/-!
# The decoder on the bytes and on the UTF-8 text made of them
-/

namespace Rap

/-- The same is read, and the rests correspond. -/
def Alike {α : Type} (x y : Option (α × Bytes)) : Prop := Option.Rel (fun p p' => p.1 = p'.1 ∧ Coerced p.2 p'.2) x y

theorem scanString_plain {c : UInt8} {r : Bytes} (h1 : c ≠ 34) (h2 : c ≠ 92) :
    scanString (c :: r) = (scanString r).map fun p => (c :: p.1, p.2) := by
  rw [scanString_strEnd, scanString_strEnd, strEnd_plain h1 h2]

theorem scanString_chunk {p : Bytes} (h : ∀ b ∈ p, 128 ≤ b.toNat) (r : Bytes) :
    scanString (p ++ r) = (scanString r).map fun x => (p ++ x.1, x.2) := by
  induction p with
  | nil => simp
  | cons c p ih =>
    have hc := h c (by simp)
    rw [List.cons_append, scanString_plain (by rintro rfl; revert hc; decide) (by rintro rfl; revert hc; decide),
      ih fun b hb => h b (by simp [hb])]
    cases scanString r <;> rfl

theorem scanString_escape (c : UInt8) (r : Bytes) : scanString (92 :: c :: r) = (scanString r).map fun p => (92 :: c :: p.1, p.2) := rfl

/-- Strings end where they end. -/
theorem alike_string (n : Nat) : ∀ {s u : Bytes}, s.length ≤ n → Coerced s u →
    Option.Rel (fun p p' => Coerced p.1 p'.1 ∧ Coerced p.2 p'.2) (scanString s) (scanString u) := by
  induction n with
  | zero =>
    intro s u hn h
    have : s = [] := by simpa using hn
    subst this
    rcases coerced_head h with ⟨-, rfl⟩ | ⟨a, s', u', -, h1, -⟩ | ⟨a, b, s', u', -, -, h1, -⟩
    · exact .none
    · cases h1
    · cases h1
  | succ n ih =>
    intro s u hn h
    have lift : ∀ {s' u' p p' : Bytes}, s'.length ≤ n → Coerced s' u' →
        (∀ b b' x, s' = b ++ x → Coerced b b' → Coerced (p ++ b) (p' ++ b')) →
        Option.Rel (fun p p' => Coerced p.1 p'.1 ∧ Coerced p.2 p'.2) ((scanString s').map fun x => (p ++ x.1, x.2))
          ((scanString u').map fun x => (p' ++ x.1, x.2)) := by
      intro s' u' p p' hl h' hp
      have r := ih hl h'
      cases hs : scanString s' with
      | none =>
        rw [hs] at r
        cases hu : scanString u' with
        | none => exact .none
        | some y => rw [hu] at r; cases r
      | some x =>
        rw [hs] at r
        cases hu : scanString u' with
        | none => rw [hu] at r; cases r
        | some y =>
          rw [hu] at r
          cases r with
          | some r => exact .some ⟨hp _ _ _ (scanString_append (b := x.1) (r := x.2) hs) r.1, r.2⟩
    rcases coerced_head h with ⟨rfl, rfl⟩ | ⟨a, s', u', ha, rfl, rfl, h'⟩ | ⟨a, b, s', u', ha, hb, rfl, rfl⟩
    · exact .none
    · have hl : s'.length ≤ n := by simpa using hn
      by_cases h34 : a = 34
      · subst h34
        exact .some ⟨.nil, h'⟩
      by_cases h92 : a = 92
      · subst h92
        rcases coerced_head h' with ⟨rfl, rfl⟩ | ⟨c, s2, u2, hc, rfl, rfl, h2⟩ | ⟨c, d, s2, u2, hc, hd, rfl, rfl⟩
        · exact .none
        · rw [scanString_escape, scanString_escape]
          have := lift (s' := s2) (u' := u2) (p := [92, c]) (p' := [92, c]) (by simp only [List.length_cons] at hl; omega) h2
            fun b b' _ _ hb => coerced_cons (by decide) (coerced_cons hc hb)
          exact this
        · have plain : ∀ {c : UInt8} {r : Bytes}, 128 ≤ c.toNat →
              scanString (92 :: c :: r) = (scanString (c :: r)).map fun x => ([92] ++ x.1, x.2) := by
            intro c r hc
            rw [scanString_escape, scanString_plain (by rintro rfl; revert hc; decide) (by rintro rfl; revert hc; decide)]
            cases scanString r <;> rfl
          rw [plain hc, plain hd]
          exact lift hl h' fun b b' _ _ hb => coerced_cons (by decide) hb
      · rw [scanString_plain h34 h92, scanString_plain h34 h92]
        exact lift (p := [a]) (p' := [a]) hl h' fun b b' _ _ hb => coerced_cons ha hb
    · obtain ⟨p, s2, p', u2, e1, e2, hp, hp', h1, h2, h3, h4⟩ := coerced_high ha h
      rw [e1, e2, scanString_chunk h1, scanString_chunk h2]
      refine lift ?_ h3 h4
      have := congrArg List.length e1
      rw [List.length_append] at this
      have := List.length_pos_of_ne_nil hp
      omega

theorem alike_none {α : Type} : Alike (α := α) none none := .none

/-- Strings, unquoted. -/
theorem alike_unquoted {β : Type} {s u : Bytes} (h : Coerced s u) {f : Bytes → Bytes → Option (β × Bytes)}
    {g : Bytes → Bytes → Option (β × Bytes)} (hfg : ∀ k r r', r.length < s.length → r'.length < u.length → Coerced r r' → Alike (f k r) (g k r')) :
    Alike (do let (b, r) ← scanString s; let k ← unquote b; f k r) (do let (b, r) ← scanString u; let k ← requote b; g k r) := by
  have hr := alike_string s.length le_rfl h
  cases hs : scanString s with
  | none =>
    rw [hs] at hr
    cases hu : scanString u with
    | none => exact .none
    | some y => rw [hu] at hr; cases hr
  | some x =>
    rw [hs] at hr
    cases hu : scanString u with
    | none => rw [hu] at hr; cases hr
    | some y =>
      rw [hu] at hr
      cases hr with
      | some hr =>
        obtain ⟨b, r⟩ := x
        obtain ⟨b', r'⟩ := y
        simp only [Option.bind_eq_bind, Option.bind_some]
        rw [unquote_coerced hr.1]
        cases requote b' with
        | none => exact .none
        | some k =>
          have l1 := congrArg List.length (scanString_append hs)
          have l2 := congrArg List.length (scanString_append hu)
          rw [List.length_append, List.length_cons] at l1 l2
          exact hfg k r r' (by omega) (by omega) hr.2

theorem coerced_prefix {w s u : Bytes} (hw : ∀ a ∈ w, a.toNat < 128) (h : Coerced (w ++ s) u) : ∃ u', u = w ++ u' ∧ Coerced s u' := by
  induction w generalizing u with
  | nil => exact ⟨u, rfl, h⟩
  | cons a w ih =>
    obtain ⟨u', rfl, h'⟩ := coerced_ascii (hw a (by simp)) h
    obtain ⟨u2, rfl, h2⟩ := ih (fun a ha => hw a (by simp [ha])) h'
    exact ⟨u2, rfl, h2⟩

theorem coerced_prefix' {w s u : Bytes} (hw : ∀ a ∈ w, a.toNat < 128) (h : Coerced s (w ++ u)) : ∃ s', s = w ++ s' ∧ Coerced s' u := by
  induction w generalizing s with
  | nil => exact ⟨s, rfl, h⟩
  | cons a w ih =>
    obtain ⟨u', rfl, h'⟩ := coerced_ascii' (hw a (by simp)) h
    obtain ⟨u2, rfl, h2⟩ := ih (fun a ha => hw a (by simp [ha])) h'
    exact ⟨u2, rfl, h2⟩

theorem scanLiteral_default {q : Bytes → Option Bytes} {s : Bytes} (h1 : ∀ r, s ≠ [34] ++ r) (h2 : ∀ r, s ≠ b!"null" ++ r)
    (h3 : ∀ r, s ≠ b!"true" ++ r) (h4 : ∀ r, s ≠ b!"false" ++ r) : scanLiteral q s =
      (goNumber (s.takeWhile isNumberByte)).map fun d => (.num d, s.dropWhile isNumberByte) := by
  rw [scanLiteral.eq_def]
  split
  · exact absurd rfl (h1 _)
  · exact absurd rfl (h2 _)
  · exact absurd rfl (h3 _)
  · exact absurd rfl (h4 _)
  · rfl

theorem alike_literal {s u : Bytes} (h : Coerced s u) : Alike (scanLiteral unquote s) (scanLiteral requote u) := by
  by_cases h1 : ∃ r, s = [34] ++ r
  · obtain ⟨r, rfl⟩ := h1
    obtain ⟨u', rfl, h'⟩ := coerced_prefix (by decide) h
    exact alike_unquoted (f := fun k r => some (JVal.str k, r)) (g := fun k r => some (JVal.str k, r)) h' fun k r r' _ _ hr => .some ⟨rfl, hr⟩
  by_cases h2 : ∃ r, s = b!"null" ++ r
  · obtain ⟨r, rfl⟩ := h2
    obtain ⟨u', rfl, h'⟩ := coerced_prefix (by decide) h
    exact .some ⟨rfl, h'⟩
  by_cases h3 : ∃ r, s = b!"true" ++ r
  · obtain ⟨r, rfl⟩ := h3
    obtain ⟨u', rfl, h'⟩ := coerced_prefix (by decide) h
    exact .some ⟨rfl, h'⟩
  by_cases h4 : ∃ r, s = b!"false" ++ r
  · obtain ⟨r, rfl⟩ := h4
    obtain ⟨u', rfl, h'⟩ := coerced_prefix (by decide) h
    exact .some ⟨rfl, h'⟩
  have back : ∀ {w : Bytes}, (∀ a ∈ w, a.toNat < 128) → (¬ ∃ r, s = w ++ r) → ∀ r, u ≠ w ++ r := by
    rintro w hw hs r rfl
    obtain ⟨s', hs', -⟩ := coerced_prefix' hw h
    exact hs ⟨s', hs'⟩
  rw [scanLiteral_default (fun r e => h1 ⟨r, e⟩) (fun r e => h2 ⟨r, e⟩) (fun r e => h3 ⟨r, e⟩) (fun r e => h4 ⟨r, e⟩),
    scanLiteral_default (back (by decide) h1) (back (by decide) h2) (back (by decide) h3) (back (by decide) h4)]
  obtain ⟨i1, i2⟩ := coerced_dropWhile isNumberByte_ascii h
  rw [i1]
  cases goNumber (u.takeWhile isNumberByte) with
  | none => exact .none
  | some d => exact .some ⟨rfl, i2⟩

/-! ## Nothing is read twice -/

/-- The rest is not longer than the text. -/
def Shrinks {α : Type} (value : Bytes → Option (α × Bytes)) : Prop := ∀ s v r, value s = some (v, r) → r.length ≤ s.length

theorem skipSpace_length (s : Bytes) : (skipSpace s).length ≤ s.length := by
  obtain ⟨w, -, h⟩ := skipSpace_split s
  have := congrArg List.length h
  rw [List.length_append] at this
  omega

theorem literal_shrinks (q : Bytes → Option Bytes) : Shrinks (scanLiteral q) := by
  intro s v r h
  rw [scanLiteral.eq_def] at h
  split at h
  · simp only [Option.bind_eq_bind, Option.bind_eq_some_iff] at h
    obtain ⟨⟨b, r''⟩, h1, u, -, h3⟩ := h
    cases h3
    rw [scanString_append h1]
    simp only [List.length_cons, List.length_append]; omega
  · cases h; simp only [List.length_cons]; omega
  · cases h; simp only [List.length_cons]; omega
  · cases h; simp only [List.length_cons]; omega
  · obtain ⟨d, -, h2⟩ := Option.map_eq_some_iff.1 h
    cases h2
    exact (List.dropWhile_suffix _).length_le

theorem elements_shrinks {value : Bytes → Option (JVal × Bytes)} (hv : Shrinks value) : ∀ fuel, Shrinks (scanElements value fuel)
  | 0, _, _, _, h => by cases h
  | fuel + 1, s, vs, r, h => by
    rw [scanElements] at h
    simp only [Option.bind_eq_bind, Option.bind_eq_some_iff] at h
    obtain ⟨⟨v, r1⟩, h1, h⟩ := h
    have l1 := hv _ _ _ h1
    have l2 := skipSpace_length r1
    dsimp only at h
    split at h
    · next r2 h2 =>
      simp only [Option.bind_eq_some_iff] at h
      obtain ⟨⟨vs', r3⟩, h3, h4⟩ := h
      cases h4
      have := elements_shrinks hv fuel _ _ _ h3
      rw [h2, List.length_cons] at l2
      dsimp only; omega
    · next r2 h2 =>
      cases h
      rw [h2, List.length_cons] at l2
      omega
    · cases h

theorem members_shrinks {q : Bytes → Option Bytes} {value : Bytes → Option (JVal × Bytes)} (hv : Shrinks value) :
    ∀ fuel, Shrinks (scanMembers q value fuel)
  | 0, _, _, _, h => by cases h
  | fuel + 1, s, d, r, h => by
    rw [scanMembers] at h
    have l0 := skipSpace_length s
    split at h
    case h_2 => cases h
    next r0 h0 =>
    simp only [Option.bind_eq_bind, Option.bind_eq_some_iff] at h
    obtain ⟨⟨b, r1⟩, h1, k, hk, h⟩ := h
    have l1 := congrArg List.length (scanString_append h1)
    have l2 := skipSpace_length r1
    dsimp only at h
    split at h
    case h_2 => cases h
    next r2 h2 =>
    simp only [Option.bind_eq_some_iff] at h
    obtain ⟨⟨v, r3⟩, h3, h⟩ := h
    have l3 := hv _ _ _ h3
    have l4 := skipSpace_length r3
    rw [h0, List.length_cons] at l0
    rw [List.length_append, List.length_cons] at l1
    rw [h2, List.length_cons] at l2
    dsimp only at h
    split at h
    · next r4 h4 =>
      simp only [Option.bind_eq_some_iff] at h
      obtain ⟨⟨d', r5⟩, h5, h6⟩ := h
      cases h6
      have := members_shrinks hv fuel _ _ _ h5
      rw [h4, List.length_cons] at l4
      dsimp only; omega
    · next r4 h4 =>
      cases h
      rw [h4, List.length_cons] at l4
      omega
    · cases h

theorem value_shrinks (q : Bytes → Option Bytes) : ∀ n, Shrinks (scanValue q n)
  | 0, s, j, r, h => by
    have := literal_shrinks q _ _ _ (show scanLiteral q (skipSpace s) = some (j, r) from h)
    have := skipSpace_length s
    omega
  | n + 1, s, j, r, h => by
    have l0 := skipSpace_length s
    rw [scanValue] at h
    split at h
    · next r0 h0 =>
      have l1 := skipSpace_length r0
      rw [h0, List.length_cons] at l0
      split at h
      · next r1 h1 =>
        cases h
        rw [h1, List.length_cons] at l1
        omega
      · obtain ⟨⟨vs, r2⟩, h2, h3⟩ := Option.map_eq_some_iff.1 h
        cases h3
        have := elements_shrinks (value_shrinks q n) _ _ _ _ h2
        dsimp only; omega
    · next r0 h0 =>
      have l1 := skipSpace_length r0
      rw [h0, List.length_cons] at l0
      split at h
      · next r1 h1 =>
        cases h
        rw [h1, List.length_cons] at l1
        omega
      · obtain ⟨⟨vs, r2⟩, h2, h3⟩ := Option.map_eq_some_iff.1 h
        cases h3
        have := members_shrinks (value_shrinks q n) _ _ _ _ h2
        dsimp only; omega
    · have := literal_shrinks q _ _ _ h
      omega

/-! ## Values -/

theorem alike_cases {α : Type} {x y : Option (α × Bytes)} (h : Alike x y) : (x = none ∧ y = none) ∨
    ∃ v r r', x = some (v, r) ∧ y = some (v, r') ∧ Coerced r r' := by
  cases h with
  | none => exact .inl ⟨rfl, rfl⟩
  | @some a b h =>
    obtain ⟨v, r⟩ := a
    obtain ⟨v', r'⟩ := b
    obtain ⟨rfl, h⟩ := h
    exact .inr ⟨v, r, r', rfl, rfl, h⟩

/-- A choice between two characters. -/
theorem alike_choice {α : Type} {s u : Bytes} (h : Coerced s u) {c c' : UInt8} (hc : c.toNat < 128) (hc' : c'.toNat < 128)
    {f g f' g' : Bytes → Option (α × Bytes)} {F G : Bytes → Option (α × Bytes)}
    (hF1 : ∀ r, F (c :: r) = f r) (hF2 : ∀ r, F (c' :: r) = f' r) (hF3 : ∀ x, (∀ r, x ≠ c :: r) → (∀ r, x ≠ c' :: r) → F x = none)
    (hG1 : ∀ r, G (c :: r) = g r) (hG2 : ∀ r, G (c' :: r) = g' r) (hG3 : ∀ x, (∀ r, x ≠ c :: r) → (∀ r, x ≠ c' :: r) → G x = none)
    (h1 : ∀ r r', r.length < s.length → r'.length < u.length → Coerced r r' → Alike (f r) (g r'))
    (h2 : ∀ r r', r.length < s.length → r'.length < u.length → Coerced r r' → Alike (f' r) (g' r')) : Alike (F s) (G u) := by
  by_cases hs : ∃ r, s = c :: r
  · obtain ⟨r, rfl⟩ := hs
    obtain ⟨u', rfl, h'⟩ := coerced_ascii hc h
    rw [hF1, hG1]
    exact h1 r u' (by simp) (by simp) h'
  by_cases hs' : ∃ r, s = c' :: r
  · obtain ⟨r, rfl⟩ := hs'
    obtain ⟨u', rfl, h'⟩ := coerced_ascii hc' h
    rw [hF2, hG2]
    exact h2 r u' (by simp) (by simp) h'
  have hu : ∀ r, u ≠ c :: r := by
    rintro r rfl
    obtain ⟨s', e, -⟩ := coerced_ascii' hc h
    exact hs ⟨s', e⟩
  have hu' : ∀ r, u ≠ c' :: r := by
    rintro r rfl
    obtain ⟨s', e, -⟩ := coerced_ascii' hc' h
    exact hs' ⟨s', e⟩
  rw [hF3 s (fun r e => hs ⟨r, e⟩) (fun r e => hs' ⟨r, e⟩), hG3 u hu hu']
  exact .none

theorem elements_short {value : Bytes → Option (JVal × Bytes)} (hv : Shrinks value) (fuel : Nat) : scanElements value fuel [] = none := by
  cases fuel with
  | zero => rfl
  | succ fuel =>
    rw [scanElements]
    cases h : value [] with
    | none => rfl
    | some p =>
      have := hv [] p.1 p.2 h
      have : p.2 = [] := by simpa using this
      simp only [Option.bind_eq_bind, Option.bind_some, this]
      rfl

theorem members_short {q : Bytes → Option Bytes} {value : Bytes → Option (JVal × Bytes)} (fuel : Nat) :
    scanMembers q value fuel [] = none := by
  cases fuel <;> rfl

theorem alike_elements {v w : Bytes → Option (JVal × Bytes)} (hv : Shrinks v) (hw : Shrinks w)
    (h : ∀ s u, Coerced s u → Alike (v s) (w u)) : ∀ (n m : Nat) (s u : Bytes), s.length ≤ n → u.length ≤ m → Coerced s u →
      Alike (scanElements v n s) (scanElements w m u)
  | 0, m, s, u, hn, hm, hs => by
    have e : s = [] := by simpa using hn
    subst e
    rcases coerced_head hs with ⟨-, rfl⟩ | ⟨a, s', u', -, h1, -⟩ | ⟨a, b, s', u', -, -, h1, -⟩
    · rw [elements_short hw]; exact .none
    · cases h1
    · cases h1
  | n + 1, 0, s, u, hn, hm, hs => by
    have e : u = [] := by simpa using hm
    subst e
    rcases coerced_head hs with ⟨rfl, -⟩ | ⟨a, s', u', -, -, h1, -⟩ | ⟨a, b, s', u', -, -, -, h1⟩
    · rw [elements_short hv]; exact .none
    · cases h1
    · cases h1
  | n + 1, m + 1, s, u, hn, hm, hs => by
    rw [scanElements, scanElements]
    rcases alike_cases (h s u hs) with ⟨e1, e2⟩ | ⟨x, r, r', e1, e2, hr⟩
    · rw [e1, e2]; exact .none
    · rw [e1, e2]
      simp only [Option.bind_eq_bind, Option.bind_some]
      have l1 := hv _ _ _ e1
      have l2 := hw _ _ _ e2
      have l3 := skipSpace_length r
      have l4 := skipSpace_length r'
      refine alike_choice (coerced_skip hr) (c := 44) (c' := 93) (by decide) (by decide)
        (f := fun r => (scanElements v n r).bind fun p => some (x :: p.1, p.2)) (f' := fun r => some ([x], r))
        (g := fun r => (scanElements w m r).bind fun p => some (x :: p.1, p.2)) (g' := fun r => some ([x], r))
        (F := fun y => match y with
          | 44 :: r => (scanElements v n r).bind fun p => some (x :: p.1, p.2)
          | 93 :: r => some ([x], r)
          | _ => none)
        (G := fun y => match y with
          | 44 :: r => (scanElements w m r).bind fun p => some (x :: p.1, p.2)
          | 93 :: r => some ([x], r)
          | _ => none) (fun _ => rfl) (fun _ => rfl) ?_ (fun _ => rfl) (fun _ => rfl) ?_ ?_ fun r r' _ _ hr => .some ⟨rfl, hr⟩
      · intro y h1 h2
        split
        · exact absurd rfl (h1 _)
        · exact absurd rfl (h2 _)
        · rfl
      · intro y h1 h2
        split
        · exact absurd rfl (h1 _)
        · exact absurd rfl (h2 _)
        · rfl
      · intro y y' k1 k2 hy
        rcases alike_cases (alike_elements hv hw h n m y y' (by omega) (by omega) hy) with ⟨e1, e2⟩ | ⟨z, q, q', e1, e2, hq⟩
        · simp only [e1, e2, Option.bind_none]; exact .none
        · simp only [e1, e2, Option.bind_some]; exact .some ⟨rfl, hq⟩

/-- A choice with one character. -/
theorem alike_head {α : Type} {s' u' : Bytes} {c : UInt8} {F G f g : Bytes → Option (α × Bytes)} (hs : Coerced s' u') (hc : c.toNat < 128)
    (hF : ∀ r, F (c :: r) = f r) (hF' : ∀ x, (∀ r, x ≠ c :: r) → F x = none) (hG : ∀ r, G (c :: r) = g r)
    (hG' : ∀ x, (∀ r, x ≠ c :: r) → G x = none)
    (hr : ∀ r r', r.length < s'.length → r'.length < u'.length → Coerced r r' → Alike (f r) (g r')) : Alike (F s') (G u') :=
  alike_choice hs hc hc hF hF (fun x h _ => hF' x h) hG hG (fun x h _ => hG' x h) hr hr

/-- What follows the value of a member. -/
def memberEnd (more : Bytes → Option (List (Bytes × JVal) × Bytes)) (k : Bytes) (x : JVal) (y : Bytes) : Option (List (Bytes × JVal) × Bytes) :=
  match y with
  | 44 :: r => (more r).bind fun p => some ((k, x) :: p.1, p.2)
  | 125 :: r => some ([(k, x)], r)
  | _ => none

/-- What follows the name of a member. -/
def memberValue (value : Bytes → Option (JVal × Bytes)) (more : Bytes → Option (List (Bytes × JVal) × Bytes)) (k : Bytes) (y : Bytes) :
    Option (List (Bytes × JVal) × Bytes) :=
  match y with
  | 58 :: r => (value r).bind fun p => memberEnd more k p.1 (skipSpace p.2)
  | _ => none

/-- A member. -/
def memberStart (q : Bytes → Option Bytes) (value : Bytes → Option (JVal × Bytes)) (more : Bytes → Option (List (Bytes × JVal) × Bytes))
    (y : Bytes) : Option (List (Bytes × JVal) × Bytes) :=
  match y with
  | 34 :: r => (scanString r).bind fun p => (q p.1).bind fun k => memberValue value more k (skipSpace p.2)
  | _ => none

theorem scanMembers_eq (q : Bytes → Option Bytes) (value : Bytes → Option (JVal × Bytes)) (n : Nat) (s : Bytes) :
    scanMembers q value (n + 1) s = memberStart q value (scanMembers q value n) (skipSpace s) := rfl

theorem alike_members {v w : Bytes → Option (JVal × Bytes)} (hv : Shrinks v) (hw : Shrinks w)
    (h : ∀ s u, Coerced s u → Alike (v s) (w u)) : ∀ (n m : Nat) (s u : Bytes), s.length ≤ n → u.length ≤ m → Coerced s u →
      Alike (scanMembers unquote v n s) (scanMembers requote w m u)
  | 0, m, s, u, hn, hm, hs => by
    have e : s = [] := by simpa using hn
    subst e
    rcases coerced_head hs with ⟨-, rfl⟩ | ⟨a, s', u', -, h1, -⟩ | ⟨a, b, s', u', -, -, h1, -⟩
    · rw [members_short, members_short]; exact .none
    · cases h1
    · cases h1
  | n + 1, 0, s, u, hn, hm, hs => by
    have e : u = [] := by simpa using hm
    subst e
    rcases coerced_head hs with ⟨rfl, -⟩ | ⟨a, s', u', -, -, h1, -⟩ | ⟨a, b, s', u', -, -, -, h1⟩
    · rw [members_short, members_short]; exact .none
    · cases h1
    · cases h1
  | n + 1, m + 1, s, u, hn, hm, hs => by
    have l1 := skipSpace_length s
    have l2 := skipSpace_length u
    have one : ∀ (q : Bytes → Option Bytes) (value more) (x : Bytes), (∀ r, x ≠ 34 :: r) → memberStart q value more x = none := by
      intro q value more x h1
      rw [memberStart.eq_def]
      split
      · exact absurd rfl (h1 _)
      · rfl
    have two : ∀ (value more) (k x : Bytes), (∀ r, x ≠ 58 :: r) → memberValue value more k x = none := by
      intro value more k x h1
      rw [memberValue.eq_def]
      split
      · exact absurd rfl (h1 _)
      · rfl
    have three : ∀ (more) (k : Bytes) (j : JVal) (x : Bytes), (∀ r, x ≠ 44 :: r) → (∀ r, x ≠ 125 :: r) → memberEnd more k j x = none := by
      intro more k j x h1 h2
      rw [memberEnd.eq_def]
      split
      · exact absurd rfl (h1 _)
      · exact absurd rfl (h2 _)
      · rfl
    rw [scanMembers_eq, scanMembers_eq]
    refine alike_head (coerced_skip hs) (by decide) (fun _ => rfl) (one _ _ _) (fun _ => rfl) (one _ _ _) fun r0 u0 k1 k2 h0 => ?_
    refine alike_unquoted (f := fun k r => memberValue v (scanMembers unquote v n) k (skipSpace r))
      (g := fun k r => memberValue w (scanMembers requote w m) k (skipSpace r)) h0 fun k r1 u1 k3 k4 h1 => ?_
    have l3 := skipSpace_length r1
    have l4 := skipSpace_length u1
    refine alike_head (f := fun r => (v r).bind fun p => memberEnd (scanMembers unquote v n) k p.1 (skipSpace p.2))
      (g := fun r => (w r).bind fun p => memberEnd (scanMembers requote w m) k p.1 (skipSpace p.2)) (coerced_skip h1) (by decide) (fun _ => rfl) (two _ _ _) (fun _ => rfl) (two _ _ _) fun r2 u2 k5 k6 h2 => ?_
    rcases alike_cases (h r2 u2 h2) with ⟨e1, e2⟩ | ⟨x, r3, u3, e1, e2, h3⟩
    · simp only [e1, e2, Option.bind_none]; exact .none
    · simp only [e1, e2, Option.bind_some]
      have l5 := hv _ _ _ e1
      have l6 := hw _ _ _ e2
      have l7 := skipSpace_length r3
      have l8 := skipSpace_length u3
      refine alike_choice (coerced_skip h3) (c := 44) (c' := 125)
        (f := fun r => (scanMembers unquote v n r).bind fun p => some ((k, x) :: p.1, p.2))
        (g := fun r => (scanMembers requote w m r).bind fun p => some ((k, x) :: p.1, p.2)) (by decide) (by decide) (fun _ => rfl) (fun _ => rfl) (three _ _ _)
        (fun _ => rfl) (fun _ => rfl) (three _ _ _) ?_ fun r r' _ _ hr => .some ⟨rfl, hr⟩
      intro y y' k7 k8 hy
      rcases alike_cases (alike_members hv hw h n m y y' (by omega) (by omega) hy) with ⟨e1, e2⟩ | ⟨z, q, q', e1, e2, hq⟩
      · simp only [e1, e2, Option.bind_none]; exact .none
      · simp only [e1, e2, Option.bind_some]; exact .some ⟨rfl, hq⟩

theorem alike_map {α β : Type} {x y : Option (α × Bytes)} (h : Alike x y) (f : α → β) :
    Alike (x.map fun p => (f p.1, p.2)) (y.map fun p => (f p.1, p.2)) := by
  rcases alike_cases h with ⟨rfl, rfl⟩ | ⟨v, r, r', rfl, rfl, hr⟩
  · exact .none
  · exact .some ⟨rfl, hr⟩

/-- What follows a bracket. -/
theorem alike_bracket {α β : Type} {s u : Bytes} (h : Coerced s u) {c : UInt8} (hc : c.toNat < 128) {f : α → β} {e : β}
    {x y : Option (α × Bytes)} (hxy : Alike x y) {F G : Bytes → Option (β × Bytes)}
    (hF : ∀ r, F (c :: r) = some (e, r)) (hF' : ∀ z, (∀ r, z ≠ c :: r) → F z = x.map fun p => (f p.1, p.2))
    (hG : ∀ r, G (c :: r) = some (e, r)) (hG' : ∀ z, (∀ r, z ≠ c :: r) → G z = y.map fun p => (f p.1, p.2)) : Alike (F s) (G u) := by
  by_cases hs : ∃ r, s = c :: r
  · obtain ⟨r, rfl⟩ := hs
    obtain ⟨u', rfl, h'⟩ := coerced_ascii hc h
    rw [hF, hG]
    exact .some ⟨rfl, h'⟩
  · have hu : ∀ r, u ≠ c :: r := by
      rintro r rfl
      obtain ⟨s', e, -⟩ := coerced_ascii' hc h
      exact hs ⟨s', e⟩
    rw [hF' s (fun r e => hs ⟨r, e⟩), hG' u hu]
    exact alike_map hxy f

/-- An array, behind its bracket. -/
def arrayEnd (items : Option (List JVal × Bytes)) (y : Bytes) : Option (JVal × Bytes) :=
  match y with
  | 93 :: r => some (.arr [], r)
  | _ => items.map fun x => (.arr x.1, x.2)

/-- An object, behind its brace. -/
def objectEnd (members : Option (List (Bytes × JVal) × Bytes)) (y : Bytes) : Option (JVal × Bytes) :=
  match y with
  | 125 :: r => some (.obj [], r)
  | _ => members.map fun x => (.obj x.1, x.2)

/-- A value at its first character. -/
def valueStart (q : Bytes → Option Bytes) (value : Bytes → Option (JVal × Bytes)) (y : Bytes) : Option (JVal × Bytes) :=
  match y with
  | 91 :: r => arrayEnd (scanElements value r.length r) (skipSpace r)
  | 123 :: r => objectEnd (scanMembers q value r.length r) (skipSpace r)
  | s => scanLiteral q s

theorem scanValue_eq (q : Bytes → Option Bytes) (n : Nat) (s : Bytes) :
    scanValue q (n + 1) s = valueStart q (scanValue q n) (skipSpace s) := rfl

theorem valueStart_other {q : Bytes → Option Bytes} {value : Bytes → Option (JVal × Bytes)} {s : Bytes} (h1 : ∀ r, s ≠ 91 :: r)
    (h2 : ∀ r, s ≠ 123 :: r) : valueStart q value s = scanLiteral q s := by
  rw [valueStart.eq_def]
  split
  · exact absurd rfl (h1 _)
  · exact absurd rfl (h2 _)
  · rfl

theorem alike_value : ∀ (n : Nat) (s u : Bytes), Coerced s u → Alike (scanValue unquote n s) (scanValue requote n u)
  | 0, s, u, h => alike_literal (coerced_skip h)
  | n + 1, s, u, h => by
    rw [scanValue_eq, scanValue_eq]
    have hs := coerced_skip h
    generalize skipSpace s = s at hs
    generalize skipSpace u = u at hs
    clear h
    by_cases h1 : ∃ r, s = 91 :: r
    · obtain ⟨r, rfl⟩ := h1
      obtain ⟨u', rfl, h'⟩ := coerced_ascii (by decide) hs
      refine alike_bracket (c := 93) (f := JVal.arr) (e := .arr []) (F := arrayEnd _) (G := arrayEnd _) (coerced_skip h') (by decide)
        (alike_elements (value_shrinks _ n) (value_shrinks _ n) (alike_value n) _ _ _ _ le_rfl le_rfl h')
        (fun _ => rfl) ?_ (fun _ => rfl) ?_
      all_goals
        intro z hz
        rw [arrayEnd.eq_def]
        split
        · exact absurd rfl (hz _)
        · rfl
    by_cases h2 : ∃ r, s = 123 :: r
    · obtain ⟨r, rfl⟩ := h2
      obtain ⟨u', rfl, h'⟩ := coerced_ascii (by decide) hs
      refine alike_bracket (c := 125) (f := JVal.obj) (e := .obj []) (F := objectEnd _) (G := objectEnd _) (coerced_skip h') (by decide)
        (alike_members (value_shrinks _ n) (value_shrinks _ n) (alike_value n) _ _ _ _ le_rfl le_rfl h')
        (fun _ => rfl) ?_ (fun _ => rfl) ?_
      all_goals
        intro z hz
        rw [objectEnd.eq_def]
        split
        · exact absurd rfl (hz _)
        · rfl
    have back : ∀ {c : UInt8}, c.toNat < 128 → (¬ ∃ r, s = c :: r) → ∀ r, u ≠ c :: r := by
      rintro c hc hn r rfl
      obtain ⟨s', e, -⟩ := coerced_ascii' hc hs
      exact hn ⟨s', e⟩
    rw [valueStart_other (fun r e => h1 ⟨r, e⟩) (fun r e => h2 ⟨r, e⟩), valueStart_other (back (by decide) h1) (back (by decide) h2)]
    exact alike_literal hs

/-- The text is read as the UTF-8 text made of it. -/
theorem scanText_coerced {s u : Bytes} (h : Coerced s u) : scanText unquote s = scanText requote u := by
  rw [scanText, scanText]
  rcases alike_cases (alike_value 10000 s u h) with ⟨e1, e2⟩ | ⟨v, r, r', e1, e2, hr⟩
  · rw [e1, e2]
  · rw [e1, e2]
    have hs := coerced_skip hr
    simp only
    rcases coerced_head hs with ⟨h1, h2⟩ | ⟨a, s', u', -, h1, h2, -⟩ | ⟨a, b, s', u', -, -, h1, h2⟩
    · rw [if_pos h1, if_pos h2]
    · rw [if_neg (by simp [h1]), if_neg (by simp [h2])]
    · rw [if_neg (by simp [h1]), if_neg (by simp [h2])]

theorem jsonTree_iff {s : Bytes} {j : JVal} : jsonTree s = some j ↔ ∃ u, Coerced s u ∧ JText GoNumberText u j ∧ Nests 10000 j := by
  have hc := coerce_coerced s.length s le_rfl
  rw [jsonTree, scanText_coerced hc, scanText_iff]
  constructor
  · exact fun h => ⟨_, hc, h⟩
  · rintro ⟨u, hu, h⟩
    rw [coerced_iff.1 hu] at h
    exact h

end Rap
