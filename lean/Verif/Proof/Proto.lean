import Verif.Model.Proto
import Verif.Spec.Proto
import Verif.Proof.GoQuote
import Verif.Proof.LayoutBasic

/-!
# Reading the wire format
-/

namespace Rap.Wire
open V1

/-! ## Varints, fixed numbers, bytes and tags -/

theorem digits_pos {n : Nat} {b : Bytes} (h : Digits n b) : 1 ≤ b.length := by cases h <;> simp

theorem varintGo_sound : (k : Nat) → (b : Bytes) → (n : Nat) → (r : Bytes) → consumeVarintGo k b = some (n, r) →
    ∃ t, b = t ++ r ∧ Digits n t ∧ t.length ≤ k ∧ n < 2 ^ (7 * (k - 1) + 1)
  | 0, b, n, r, h => by simp [consumeVarintGo] at h
  | k + 1, [], n, r, h => by simp [consumeVarintGo] at h
  | k + 1, c :: b, n, r, h => by
    rw [consumeVarintGo] at h
    split_ifs at h with h1 h2
    · simp only [Option.some.injEq, Prod.mk.injEq] at h
      obtain ⟨rfl, rfl⟩ := h
      refine ⟨[c], rfl, .last c h2, by simp, ?_⟩
      rcases k with - | k
      · have := not_and.mp h1 rfl
        simp; omega
      · have : 2 ^ 8 ≤ 2 ^ (7 * (k + 1 + 1 - 1) + 1) := Nat.pow_le_pow_right (by decide) (by omega)
        omega
    · simp only [Option.map_eq_some_iff, Prod.mk.injEq, Prod.exists] at h
      obtain ⟨n', r', h3, rfl, rfl⟩ := h
      obtain ⟨t, rfl, h4, h5, h6⟩ := varintGo_sound k b n' r' h3
      have h7 := digits_pos h4
      refine ⟨c :: t, rfl, .more c (by omega) h4, by simp; omega, ?_⟩
      have : 2 ^ (7 * (k + 1 - 1) + 1) = 128 * 2 ^ (7 * (k - 1) + 1) := by
        rw [show 7 * (k + 1 - 1) + 1 = 7 + (7 * (k - 1) + 1) by omega, Nat.pow_add]
      have := c.toNat_lt
      omega

theorem varintGo_complete : (k : Nat) → (t : Bytes) → (n : Nat) → (r : Bytes) → Digits n t → t.length ≤ k →
    n < 2 ^ (7 * (k - 1) + 1) → consumeVarintGo k (t ++ r) = some (n, r)
  | 0, t, n, r, h, hl, _ => by have := digits_pos h; omega
  | k + 1, _, _, r, .last c hc, hl, hn => by
    rw [List.cons_append, consumeVarintGo, if_neg, if_pos hc, List.nil_append]
    rintro ⟨rfl, h⟩
    simp at hn; omega
  | k + 1, _, _, r, .more (n := n) (b := t) c hc h, hl, hn => by
    have h1 := digits_pos h
    simp only [List.length_cons] at hl
    have : 2 ^ (7 * (k + 1 - 1) + 1) = 128 * 2 ^ (7 * (k - 1) + 1) := by
      rw [show 7 * (k + 1 - 1) + 1 = 7 + (7 * (k - 1) + 1) by omega, Nat.pow_add]
    rw [List.cons_append, consumeVarintGo, if_neg (by omega), if_neg (by omega),
      varintGo_complete k t n r h (by omega) (by omega)]
    rfl

theorem consumeVarint_some {b r : Bytes} {n : Nat} : consumeVarint b = some (n, r) ↔ ∃ t, b = t ++ r ∧ Varint n t := by
  constructor
  · intro h
    obtain ⟨t, h1, h2, h3, h4⟩ := varintGo_sound _ _ _ _ h
    exact ⟨t, h1, h2, h3, h4⟩
  · rintro ⟨t, rfl, h1, h2, h3⟩
    exact varintGo_complete _ _ _ _ h1 h2 h3

theorem fixed_leNat : (b : Bytes) → Layout.Fixed b.length (leNat b) b
  | [] => .nil
  | c :: b => .cons c (fixed_leNat b)

theorem leNat_fixed {k n : Nat} {b : Bytes} (h : Layout.Fixed k n b) : b.length = k ∧ leNat b = n := by
  induction h with
  | nil => exact ⟨rfl, rfl⟩
  | cons c _ ih => exact ⟨by simp [ih.1], by simp [leNat, ih.2]⟩

theorem consumeFixed_some {k n : Nat} {b r : Bytes} : consumeFixed k b = some (n, r) ↔ ∃ t, b = t ++ r ∧ Layout.Fixed k n t := by
  rw [consumeFixed]
  constructor
  · intro h
    split_ifs at h with h1
    simp only [Option.some.injEq, Prod.mk.injEq] at h
    obtain ⟨rfl, rfl⟩ := h
    refine ⟨b.take k, (List.take_append_drop k b).symm, ?_⟩
    have := fixed_leNat (b.take k)
    rwa [List.length_take, min_eq_left (by omega)] at this
  · rintro ⟨t, rfl, h⟩
    obtain ⟨rfl, rfl⟩ := leNat_fixed h
    rw [if_neg (by simp)]
    simp

theorem consumeBytes_some {b v r : Bytes} : consumeBytes b = some (v, r) ↔ ∃ n, b = n ++ (v ++ r) ∧ Varint v.length n := by
  rw [consumeBytes]
  constructor
  · intro h
    split at h
    · cases h
    · rename_i n r' h1
      split_ifs at h with h2
      simp only [Option.some.injEq, Prod.mk.injEq] at h
      obtain ⟨rfl, rfl⟩ := h
      obtain ⟨t, rfl, h3⟩ := consumeVarint_some.mp h1
      refine ⟨t, by rw [List.take_append_drop], ?_⟩
      rwa [List.length_take, min_eq_left (by omega)]
  · rintro ⟨n, rfl, h⟩
    rw [consumeVarint_some.mpr ⟨n, rfl, h⟩]
    simp

theorem consumeTag_some {b r : Bytes} {num typ : Nat} : consumeTag b = some (num, typ, r) ↔
    ∃ t, b = t ++ r ∧ Varint (8 * num + typ) t ∧ 1 ≤ num ∧ num < 2 ^ 31 ∧ typ < 8 := by
  rw [consumeTag]
  constructor
  · intro h
    split at h
    · cases h
    · rename_i n r' h1
      split_ifs at h with h2
      simp only [Option.some.injEq, Prod.mk.injEq] at h
      obtain ⟨rfl, rfl, rfl⟩ := h
      obtain ⟨t, rfl, h3⟩ := consumeVarint_some.mp h1
      exact ⟨t, rfl, by rwa [Nat.div_add_mod], by omega, by omega, by omega⟩
  · rintro ⟨t, rfl, h, h1, h2, h3⟩
    rw [consumeVarint_some.mpr ⟨t, rfl, h⟩]
    have e1 : (8 * num + typ) / 8 = num := by omega
    have e2 : (8 * num + typ) % 8 = typ := by omega
    simp only [e1, e2]
    rw [if_neg (by omega)]

theorem number_pos {n : Nat} {b : Bytes} (h : Varint n b) : 1 ≤ b.length := digits_pos h.1

/-! ## Values that are skipped -/

mutual
theorem skipValue_sound : (fuel depth num typ : Nat) → (b r : Bytes) → skipValue fuel depth num typ b = some r →
    ∃ v p, b = p ++ r ∧ Payload depth num typ v p
  | 0, depth, num, typ, b, r, h => by simp [skipValue] at h
  | fuel + 1, depth, num, typ, b, r, h => by
    rw [skipValue.eq_def] at h
    dsimp only at h
    split_ifs at h with h0 h1 h2 h3 h5
    · simp only [Option.map_eq_some_iff, Prod.exists, exists_eq_right] at h
      obtain ⟨n, h⟩ := h
      obtain ⟨t, rfl, hx⟩ := consumeVarint_some.mp h
      exact ⟨_, t, rfl, by rw [h0]; exact .varint hx⟩
    · simp only [Option.map_eq_some_iff, Prod.exists, exists_eq_right] at h
      obtain ⟨n, h⟩ := h
      obtain ⟨t, rfl, hx⟩ := consumeFixed_some.mp h
      exact ⟨_, t, rfl, by rw [h1]; exact .fixed64 (leNat_fixed hx).1⟩
    · simp only [Option.map_eq_some_iff, Prod.exists, exists_eq_right] at h
      obtain ⟨n, h⟩ := h
      obtain ⟨t, rfl, hx⟩ := consumeBytes_some.mp h
      exact ⟨_, t ++ n, by simp, by rw [h2]; exact .bytes hx⟩
    · split at h
      · cases h
      · rename_i depth
        obtain ⟨p, rfl, hx⟩ := skipGroup_sound fuel depth num b r h
        exact ⟨_, p, rfl, by rw [h3]; exact .group hx⟩
    · simp only [Option.map_eq_some_iff, Prod.exists, exists_eq_right] at h
      obtain ⟨n, h⟩ := h
      obtain ⟨t, rfl, hx⟩ := consumeFixed_some.mp h
      exact ⟨_, t, rfl, by rw [h5]; exact .fixed32 hx⟩

theorem skipGroup_sound : (fuel depth num : Nat) → (b r : Bytes) → skipGroup fuel depth num b = some r →
    ∃ p, b = p ++ r ∧ Group depth num p
  | 0, depth, num, b, r, h => by simp [skipGroup] at h
  | fuel + 1, depth, num, b, r, h => by
    rw [skipGroup] at h
    split at h
    · cases h
    · rename_i num2 typ2 r2 h1
      obtain ⟨t, rfl, ht, h2, h3, h4⟩ := consumeTag_some.mp h1
      split_ifs at h with h5 h6
      · cases h
        subst h5 h6
        exact ⟨t, rfl, .stop h2 h3 ht⟩
      · split at h
        · cases h
        · rename_i r' h7
          obtain ⟨v, p, rfl, hp⟩ := skipValue_sound fuel depth num2 typ2 r2 r' h7
          obtain ⟨q, rfl, hq⟩ := skipGroup_sound fuel depth num r' r h
          exact ⟨t ++ (p ++ q), by simp, .field h2 h3 ht hp hq⟩
end

theorem payload_typ {depth num typ : Nat} {v : Value} {p : Bytes} (h : Payload depth num typ v p) : typ < 8 ∧ typ ≠ 4 := by
  cases h <;> decide

mutual
theorem skipValue_complete {depth num typ : Nat} {v : Value} {p : Bytes} (h : Payload depth num typ v p) :
    ∀ fuel r, 2 * (p ++ r).length + 2 ≤ fuel → skipValue fuel depth num typ (p ++ r) = some r
  | 0, r, hf => by omega
  | fuel + 1, r, hf => by
    rw [skipValue.eq_def]
    dsimp only
    cases h with
    | varint h => rw [if_pos rfl, consumeVarint_some.mpr ⟨_, rfl, h⟩]; rfl
    | fixed64 h =>
      rw [if_neg (by decide), if_pos rfl, consumeFixed_some.mpr ⟨_, rfl, h ▸ fixed_leNat p⟩]; rfl
    | bytes h =>
      rw [if_neg (by decide), if_neg (by decide), if_pos rfl, consumeBytes_some.mpr ⟨_, List.append_assoc .., h⟩]; rfl
    | group h =>
      rw [if_neg (by decide), if_neg (by decide), if_neg (by decide), if_pos rfl]
      exact skipGroup_complete h fuel r (by omega)
    | fixed32 h =>
      rw [if_neg (by decide), if_neg (by decide), if_neg (by decide), if_neg (by decide), if_pos rfl,
        consumeFixed_some.mpr ⟨_, rfl, h⟩]; rfl

theorem skipGroup_complete {depth num : Nat} {p : Bytes} (h : Group depth num p) :
    ∀ fuel r, 2 * (p ++ r).length + 1 ≤ fuel → skipGroup fuel depth num (p ++ r) = some r
  | 0, r, hf => by omega
  | fuel + 1, r, hf => by
    rw [skipGroup]
    cases h with
    | stop h1 h2 ht => rw [consumeTag_some.mpr ⟨p, rfl, ht, h1, h2, by decide⟩]; simp
    | field h1 h2 ht hp hq =>
      obtain ⟨h3, h4⟩ := payload_typ hp
      have h5 := number_pos ht
      simp only [List.append_assoc, List.length_append] at hf ⊢
      rw [consumeTag_some.mpr ⟨_, rfl, ht, h1, h2, h3⟩]
      simp only [h4, if_false]
      rw [skipValue_complete hp fuel _ (by simp only [List.length_append]; omega)]
      exact skipGroup_complete hq fuel r (by simp only [List.length_append]; omega)
end

/-! ## UTF-8 -/

theorem utf8ValidGo_sound : (fuel : Nat) → (b : Bytes) → utf8ValidGo fuel b = true → Utf8 b
  | _, [], _ => ⟨[], rfl⟩
  | 0, _ :: _, h => by simp [utf8ValidGo] at h
  | fuel + 1, c :: b, h => by
    rw [utf8ValidGo] at h
    · split at h
      · cases h
      · rename_i n r h1
        obtain ⟨h2, h3, -, -⟩ := decodeRune_inv h1
        obtain ⟨cs, h4⟩ := utf8ValidGo_sound fuel _ h
        refine ⟨Char.ofNat r :: cs, ?_⟩
        rw [List.flatMap_cons, ← h4]
        conv_lhs => rw [← List.take_append_drop n (c :: b), h3, encodeRune_utf8 h2, utf8]
    · simp

theorem utf8ValidGo_complete : (cs : List Char) → (fuel : Nat) → (cs.flatMap String.utf8EncodeChar).length ≤ fuel →
    utf8ValidGo fuel (cs.flatMap String.utf8EncodeChar) = true
  | [], fuel, _ => by cases fuel <;> rfl
  | c :: cs, fuel, hl => by
    obtain ⟨h1, h2⟩ := char_scalar c
    rw [List.flatMap_cons, h2] at hl ⊢
    have h3 := encodeRune_length c.toNat
    rw [List.length_append] at hl
    obtain ⟨fuel, rfl⟩ : ∃ k, fuel = k + 1 := ⟨fuel - 1, by omega⟩
    rw [utf8ValidGo, decodeRune_encode h1 _]
    · simp only [List.drop_left]
      exact utf8ValidGo_complete cs fuel (by omega)
    · intro h
      have := congrArg List.length h
      simp only [List.length_append, List.length_nil] at this
      omega

theorem utf8Valid_iff {b : Bytes} : utf8Valid b = true ↔ Utf8 b := by
  constructor
  · exact utf8ValidGo_sound _ _
  · rintro ⟨cs, rfl⟩
    exact utf8ValidGo_complete cs _ (le_refl _)

/-! ## The loop over the fields -/

/-- What a field does to the message. -/
def step {σ : Type} (fields : Nat → Option (Coder σ)) (s : σ) (f : Nat × Value) : Option σ :=
  match fields f.1, f.2 with
  | some (.string set), .bytes v => if utf8Valid v then some (set s v) else none
  | some (.int32 set), .varint n => some (set s (BitVec.ofNat 32 n))
  | some (.float set), .fixed32 n => some (set s (BitVec.ofNat 32 n))
  | some (.message add), .bytes v => add s v
  | _, _ => some s

/-- The coder of a field, if there is one. -/
def consumeField {σ : Type} (fields : Nat → Option (Coder σ)) (num typ : Nat) (r : Bytes) (s : σ) : Consumed σ :=
  match fields num with
  | some c => c.consume typ r s
  | none => .unknown

theorem consumeField_ok {σ : Type} {fields : Nat → Option (Coder σ)} {num typ : Nat} {b r : Bytes} {s s' : σ}
    (h : consumeField fields num typ b s = .ok s' r) (depth : Nat) :
    ∃ v p, b = p ++ r ∧ Payload depth num typ v p ∧ step fields s (num, v) = some s' := by
  rw [consumeField] at h
  split at h
  · rename_i c hc
    cases c with
    | string set =>
      simp only [Coder.consume] at h
      split_ifs at h with h1
      subst h1
      split at h
      · cases h
      · rename_i v r' h2
        split_ifs at h with h3
        cases h
        obtain ⟨n, rfl, h4⟩ := consumeBytes_some.mp h2
        exact ⟨_, n ++ v, by simp, .bytes h4, by simp [step, hc, h3]⟩
    | int32 set =>
      simp only [Coder.consume] at h
      split_ifs at h with h1
      subst h1
      split at h
      · cases h
      · rename_i v r' h2
        cases h
        obtain ⟨n, rfl, h4⟩ := consumeVarint_some.mp h2
        exact ⟨_, n, rfl, .varint h4, by simp [step, hc]⟩
    | float set =>
      simp only [Coder.consume] at h
      split_ifs at h with h1
      subst h1
      split at h
      · cases h
      · rename_i v r' h2
        cases h
        obtain ⟨n, rfl, h4⟩ := consumeFixed_some.mp h2
        exact ⟨_, n, rfl, .fixed32 h4, by simp [step, hc]⟩
    | message add =>
      simp only [Coder.consume] at h
      split_ifs at h with h1
      subst h1
      split at h
      · cases h
      · rename_i v r' h2
        split at h
        · cases h
        · rename_i s'' h3
          cases h
          obtain ⟨n, rfl, h4⟩ := consumeBytes_some.mp h2
          exact ⟨_, n ++ v, by simp, .bytes h4, by simp [step, hc, h3]⟩
  · cases h

theorem consumeField_payload {σ : Type} {fields : Nat → Option (Coder σ)} {depth num typ : Nat} {v : Value} {p : Bytes} (r : Bytes)
    {s s' : σ} (hp : Payload depth num typ v p) (h : step fields s (num, v) = some s') :
    consumeField fields num typ (p ++ r) s = .ok s' r ∨ (consumeField fields num typ (p ++ r) s = .unknown ∧ s' = s) := by
  rw [consumeField]
  cases hc : fields num with
  | none =>
    refine .inr ⟨rfl, ?_⟩
    simpa [step, hc] using h.symm
  | some c =>
    cases c with
    | string set =>
      cases hp with
      | bytes h1 =>
        simp only [step, hc] at h
        split_ifs at h with h2
        cases h
        simp only [Coder.consume]
        rw [if_pos trivial, consumeBytes_some.mpr ⟨_, List.append_assoc .., h1⟩]
        simp [h2]
      | _ => simp [step, hc] at h; simp [Coder.consume, h]
    | int32 set =>
      cases hp with
      | varint h1 =>
        simp only [step, hc] at h
        cases h
        simp only [Coder.consume]
        rw [if_pos trivial, consumeVarint_some.mpr ⟨_, rfl, h1⟩]
        simp
      | _ => simp [step, hc] at h; simp [Coder.consume, h]
    | float set =>
      cases hp with
      | fixed32 h1 =>
        simp only [step, hc] at h
        cases h
        simp only [Coder.consume]
        rw [if_pos trivial, consumeFixed_some.mpr ⟨_, rfl, h1⟩]
        simp
      | _ => simp [step, hc] at h; simp [Coder.consume, h]
    | message add =>
      cases hp with
      | bytes h1 =>
        simp only [step, hc] at h
        simp only [Coder.consume]
        rw [if_pos trivial, consumeBytes_some.mpr ⟨_, List.append_assoc .., h1⟩]
        simp [h]
      | _ => simp [step, hc] at h; simp [Coder.consume, h]

theorem consumeField_unknown {σ : Type} {fields : Nat → Option (Coder σ)} {depth num typ : Nat} {v : Value} {p r : Bytes} {s : σ}
    (hp : Payload depth num typ v p) (h : consumeField fields num typ (p ++ r) s = .unknown) : step fields s (num, v) = some s := by
  rw [consumeField] at h
  cases hc : fields num with
  | none => simp [step, hc]
  | some c =>
    rw [hc] at h
    cases c with
    | string set =>
      cases hp with
      | bytes h1 =>
        simp only [Coder.consume] at h
        rw [if_pos trivial, consumeBytes_some.mpr ⟨_, List.append_assoc .., h1⟩] at h
        dsimp only at h
        split_ifs at h
      | _ => simp [step, hc]
    | int32 set =>
      cases hp with
      | varint h1 =>
        simp only [Coder.consume] at h
        rw [if_pos trivial, consumeVarint_some.mpr ⟨_, rfl, h1⟩] at h
        cases h
      | _ => simp [step, hc]
    | float set =>
      cases hp with
      | fixed32 h1 =>
        simp only [Coder.consume] at h
        rw [if_pos trivial, consumeFixed_some.mpr ⟨_, rfl, h1⟩] at h
        cases h
      | _ => simp [step, hc]
    | message add =>
      cases hp with
      | bytes h1 =>
        simp only [Coder.consume] at h
        rw [if_pos trivial, consumeBytes_some.mpr ⟨_, List.append_assoc .., h1⟩] at h
        dsimp only at h
        split at h <;> cases h
      | _ => simp [step, hc]

theorem unmarshalGo_cons {σ : Type} (fields : Nat → Option (Coder σ)) (fuel : Nat) (b : Bytes) (hb : b ≠ []) (s : σ) :
    unmarshalGo fields (fuel + 1) b s =
      match consumeVarint b with
      | none => none
      | some (tag, r) =>
        if tag / 8 < 1 ∨ 2 ^ 29 ≤ tag / 8 then none
        else if tag % 8 = 4 then none
        else
          match consumeField fields (tag / 8) (tag % 8) r s with
          | .error => none
          | .ok s' r' => unmarshalGo fields fuel r' s'
          | .unknown =>
            match skipValue (2 * r.length + 2) 10001 (tag / 8) (tag % 8) r with
            | none => none
            | some r' => unmarshalGo fields fuel r' s := by
  rw [unmarshalGo]
  · rfl
  · exact hb

theorem unmarshalGo_sound {σ : Type} (fields : Nat → Option (Coder σ)) : (fuel : Nat) → (b : Bytes) → (s s' : σ) →
    unmarshalGo fields fuel b s = some s' → ∃ fs, Fields fs b ∧ fs.foldlM (step fields) s = some s'
  | _, [], s, s', h => ⟨[], .nil, by simpa [unmarshalGo] using h⟩
  | 0, _ :: _, s, s', h => by simp [unmarshalGo] at h
  | fuel + 1, c :: b, s, s', h => by
    rw [unmarshalGo_cons _ _ _ (by simp)] at h
    split at h
    · cases h
    · rename_i tag r h1
      split_ifs at h with h2 h3
      obtain ⟨t, ht, h4⟩ := consumeVarint_some.mp h1
      rw [← Nat.div_add_mod tag 8] at h4
      rw [ht]
      split at h
      · cases h
      · rename_i s1 r' h5
        obtain ⟨v, p, rfl, h6, h7⟩ := consumeField_ok h5 10001
        obtain ⟨fs, h8, h9⟩ := unmarshalGo_sound fields fuel r' s1 s' h
        exact ⟨_, .cons (by omega) (by omega) h4 h6 h8, by rw [List.foldlM_cons, h7]; exact h9⟩
      · rename_i h5
        split at h
        · cases h
        · rename_i r' h10
          obtain ⟨v, p, rfl, h6⟩ := skipValue_sound _ _ _ _ _ _ h10
          have h7 := consumeField_unknown h6 h5
          obtain ⟨fs, h8, h9⟩ := unmarshalGo_sound fields fuel r' s s' h
          exact ⟨_, .cons (by omega) (by omega) h4 h6 h8, by rw [List.foldlM_cons, h7]; exact h9⟩

theorem unmarshalGo_complete {σ : Type} (fields : Nat → Option (Coder σ)) {fs : List (Nat × Value)} {b : Bytes} (h : Fields fs b) :
    ∀ (fuel : Nat) (s s' : σ), b.length ≤ fuel → fs.foldlM (step fields) s = some s' → unmarshalGo fields fuel b s = some s' := by
  induction h with
  | nil => intro fuel s s' _ h; simpa [unmarshalGo] using h
  | @cons num typ v t p r fs h1 h2 ht hp _ ih =>
    intro fuel s s' hl hs
    have h3 := number_pos ht
    obtain ⟨h4, h5⟩ := payload_typ hp
    simp only [List.length_append] at hl
    obtain ⟨fuel, rfl⟩ : ∃ k, fuel = k + 1 := ⟨fuel - 1, by omega⟩
    rw [List.foldlM_cons] at hs
    obtain ⟨s1, hs1, hs2⟩ := Option.bind_eq_some_iff.mp hs
    have hne : t ++ (p ++ r) ≠ [] := by
      intro h
      have := congrArg List.length h
      simp only [List.length_append, List.length_nil] at this
      omega
    rw [unmarshalGo_cons _ _ _ hne, consumeVarint_some.mpr ⟨t, rfl, ht⟩]
    have e1 : (8 * num + typ) / 8 = num := by omega
    have e2 : (8 * num + typ) % 8 = typ := by omega
    simp only [e1, e2]
    rw [if_neg (by omega), if_neg h5]
    rcases consumeField_payload r hp hs1 with h6 | ⟨h6, rfl⟩
    · rw [h6]
      exact ih fuel s1 s' (by omega) hs2
    · rw [h6]
      dsimp only
      rw [skipValue_complete hp _ _ (le_refl _)]
      exact ih fuel s1 s' (by omega) hs2

theorem unmarshalMessage_some {σ : Type} {fields : Nat → Option (Coder σ)} {zero s : σ} {b : Bytes} :
    unmarshalMessage fields zero b = some s ↔ ∃ fs, Fields fs b ∧ fs.foldlM (step fields) zero = some s := by
  constructor
  · exact unmarshalGo_sound _ _ _ _ _
  · rintro ⟨fs, h1, h2⟩
    exact unmarshalGo_complete _ h1 _ _ _ (le_refl _) h2

end Rap.Wire
