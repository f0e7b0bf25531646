import Verif.Spec.Json
import Verif.Proof.Angle
import Verif.Proof.Metadata

/-!
# Lemmas on the JSON parser
-/

namespace Rap

/-! ## The error monad -/

namespace GoE

theorem run_inj {α : Type} {x y : GoE α} (h : x.run = y.run) : x = y := h

/-- Sequencing succeeds exactly when both parts do. -/
theorem bind_pure_iff {α β : Type} {x : GoE α} {f : α → GoE β} {b : β} :
    (x >>= f) = pure b ↔ ∃ a, x = pure a ∧ f a = pure b := by
  rcases x with p | (e | a)
  · constructor
    · intro h; exact absurd h (by intro h; cases h)
    · rintro ⟨a, h, -⟩; cases h
  · constructor
    · intro h; exact absurd h (by intro h; cases h)
    · rintro ⟨a, h, -⟩; cases h
  · constructor
    · intro h; exact ⟨a, rfl, h⟩
    · rintro ⟨a', h, h2⟩; cases h; exact h2

theorem pure_inj {α : Type} {a b : α} : (pure a : GoE α) = pure b ↔ a = b := by
  constructor
  · intro h; cases h; rfl
  · rintro rfl; rfl

theorem fail_ne {α : Type} {n : Nat} {a : α} : (fail n : GoE α) ≠ pure a := by intro h; cases h
theorem panic_ne {α : Type} {p : Panic} {a : α} : (panic p : GoE α) ≠ pure a := by intro h; cases h

theorem get_pure {α : Type} {n : Nat} {o : Option α} {a : α} : get n o = pure a ↔ o = some a := by
  cases o with
  | none => simp [get, fail_ne]
  | some b => simp [get, pure_inj]

theorem each_pure {α β : Type} {f : α → GoE β} : (l : List α) → {r : List β} →
    (each f l = pure r ↔ List.Forall₂ (fun a b => f a = pure b) l r)
  | [], r => by
    rw [each, pure_inj, List.forall₂_nil_left_iff]; exact eq_comm
  | a :: as, r => by
    rw [each, bind_pure_iff]
    constructor
    · rintro ⟨b, hb, h⟩
      rw [bind_pure_iff] at h
      obtain ⟨bs, hbs, h⟩ := h
      rw [pure_inj] at h
      subst h
      exact .cons hb ((each_pure as).1 hbs)
    · intro h
      cases h with
      | cons hb hbs => exact ⟨_, hb, by rw [(each_pure as).2 hbs]; rfl⟩

/-- A loop over a list with memberships attached is the loop over the list. -/
theorem each_attach {α β : Type} (f : α → GoE β) (l : List α) : each (fun v : {v // v ∈ l} => f v) l.attach = each f l := by
  have h : ∀ (l' : List {v // v ∈ l}), each (fun v : {v // v ∈ l} => f v) l' = each f (l'.map (·.1)) := by
    intro l'
    induction l' with
    | nil => rfl
    | cons a as ih => rw [each, List.map_cons, each, ih]
  rw [h, List.attach_map_subtype_val]

end GoE

/-! ## Numbers -/

theorem int_of_large {d : F64} (h : d.isFinite = true) (hl : (2 : ℚ) ^ 52 ≤ |d.toRat|) : ∃ i : Int, d.toRat = i := by
  have hm := toRat_mag d h
  have hs := d.toRat_scale h
  have hb : b64.scale = 1074 := rfl
  rw [hb] at hs
  have ht : tiny * 2 ^ 1074 = 1 := by unfold tiny; rw [one_div, inv_mul_cancel₀ (by positivity)]
  obtain ⟨P, hP⟩ : ∃ P : ℕ, P = 2 ^ 1074 := ⟨_, rfl⟩
  have hP' : (2 : ℚ) ^ 1074 = P := by rw [hP]; push_cast; rfl
  have hpos : (0 : ℚ) < P := by rw [← hP']; positivity
  rw [hP'] at ht hs
  have hge : 2 ^ (52 + 1074) ≤ magInt 52 d.fp.m := by
    have : (2 : ℚ) ^ 52 * P ≤ magInt 52 d.fp.m := by
      have := mul_le_mul_of_nonneg_right hl hpos.le
      rwa [hm, mul_assoc, ht, mul_one] at this
    rw [pow_add, ← hP]
    exact_mod_cast this
  obtain ⟨c, hc⟩ := magInt_dvd hge
  rw [← hP] at hc
  have hi : d.fp.int b64 = (if d.fp.s then -(c : Int) else c) * P := by
    unfold FP.int
    have : magInt b64.mb d.fp.m = P * c := hc
    rw [this]
    split <;> push_cast <;> ring
  refine ⟨if d.fp.s then -(c : Int) else c, ?_⟩
  rw [hi] at hs
  push_cast at hs
  have := mul_right_cancel₀ hpos.ne' hs
  rw [this]; push_cast; rfl

theorem tdiv_scale {d : F64} (h : d.isFinite = true) (i : Int) (hi : d.toRat = i) :
    (d.fp.int b64).tdiv ((2 ^ b64.scale : Nat) : Int) = i := by
  have hs := d.toRat_scale h
  have hb : b64.scale = 1074 := rfl
  rw [hb] at hs ⊢
  obtain ⟨P, hP⟩ : ∃ P : ℕ, P = 2 ^ 1074 := ⟨_, rfl⟩
  have hP' : (2 : ℚ) ^ 1074 = P := by rw [hP]; push_cast; rfl
  have hpos : (P : Int) ≠ 0 := by rw [hP]; positivity
  rw [hP', hi] at hs
  rw [← hP]
  have : d.fp.int b64 = i * P := by exact_mod_cast hs.symm
  rw [this, Int.mul_tdiv_cancel _ hpos]

/-- Integers come back from the conversion to int64. -/
theorem toInt64_int {d : F64} {i : Int} (h : number64 d = .fin i) (h1 : -2 ^ 63 ≤ i) (h2 : i < 2 ^ 63) : toInt64 d = i := by
  have hf : d.isFinite = true := (F64.finite_number d).2 ⟨_, h⟩
  have hr : d.toRat = i := by rw [F64.number_fin hf, Number.fin.injEq] at h; exact h
  rw [toInt64]
  simp only [tdiv_scale hf i hr, hf, Bool.true_and]
  rw [if_pos (by simp only [Bool.and_eq_true, decide_eq_true_eq]; exact ⟨h1, h2⟩)]

theorem ofInt_exact {d : F64} {i : Int} (h : number64 d = .fin i) : number64 (F64.ofInt i) = .fin i := by
  have hf : d.isFinite = true := (F64.finite_number d).2 ⟨_, h⟩
  have hr : d.toRat = i := by rw [F64.number_fin hf, Number.fin.injEq] at h; exact h
  have hi := F64.is_ofInt i
  rw [← hr, F64.rn_toRat hf] at hi
  have hfin := hi.fin.2 (F64.toRat_lt_top hf)
  rw [F64.number_fin hfin, hi.val hfin, hr]

theorem eq_number64 (x y : F64) : FP.eq b64 x.fp y.fp = true ↔ number64 x = number64 y ∧ number64 x ≠ .nan := by
  rw [F64.number_fp, F64.number_fp, FP.eq_number b64 (by decide)]

/-- The test for integers. -/
theorem integral_true {d : F64} {i : Int} (h : number64 d = .fin i) (h1 : -2 ^ 63 ≤ i) (h2 : i < 2 ^ 63) :
    FP.eq b64 d.fp (F64.ofInt (toInt64 d)).fp = true := by
  rw [toInt64_int h h1 h2, eq_number64, ofInt_exact h, h]
  exact ⟨rfl, by simp⟩

theorem ofInt_integral (t : Int) (ht : t.natAbs ≤ 2 ^ 53) : number64 (F64.ofInt t) = .fin t := by
  have hi := F64.is_ofInt t
  rw [rn_int ht] at hi
  have : |(t : ℚ)| < b64.top := by
    have h1 : |(t : ℚ)| = t.natAbs := by rw [Nat.cast_natAbs, Int.cast_abs]
    have h2 : |(t : ℚ)| ≤ big := by
      rw [h1]
      have : ((t.natAbs : Nat) : ℚ) ≤ 2 ^ 53 := by exact_mod_cast ht
      refine this.trans ?_
      unfold big
      exact pow_le_pow_right₀ (by norm_num) (by norm_num)
    have := F64.Is.moderate (F64.is_ofInt t) h2
    have h3 := F64.toRat_lt_top this.1
    rwa [this.2.1, rn_int ht] at h3
  have hfin := hi.fin.2 this
  rw [F64.number_fin hfin, hi.val hfin]

theorem integral_false {d : F64} {q : Rat} (h : number64 d = .fin q) (hq : ∀ i : Int, q ≠ i) :
    FP.eq b64 d.fp (F64.ofInt (toInt64 d)).fp = false := by
  rw [Bool.eq_false_iff]
  intro he
  rw [eq_number64, h] at he
  obtain ⟨he, -⟩ := he
  have hf : d.isFinite = true := (F64.finite_number d).2 ⟨_, h⟩
  have hr : d.toRat = q := by rw [F64.number_fin hf, Number.fin.injEq] at h; exact h
  have hsmall : |d.toRat| < 2 ^ 52 := by
    by_contra hc
    obtain ⟨i, hi⟩ := int_of_large hf (not_lt.1 hc)
    exact hq i (by rw [← hr, hi])
  -- the conversion is the truncation
  have hs := d.toRat_scale hf
  have hb : b64.scale = 1074 := rfl
  have ht : (d.fp.int b64).tdiv ((2 ^ b64.scale : Nat) : Int) = toInt64 d ∨ toInt64 d = -2 ^ 63 := by
    rw [toInt64]; split
    · exact .inl rfl
    · exact .inr rfl
  rcases ht with ht | ht
  · have : (toInt64 d).natAbs ≤ 2 ^ 53 := by
      rw [← ht]
      rw [hb] at hs ⊢
      obtain ⟨P, hP⟩ : ∃ P : ℕ, P = 2 ^ 1074 := ⟨_, rfl⟩
      have hP' : (2 : ℚ) ^ 1074 = P := by rw [hP]; push_cast; rfl
      have hpos : 0 < P := by rw [hP]; positivity
      rw [hP'] at hs
      rw [← hP, Int.natAbs_tdiv, Int.natAbs_natCast]
      have habs : ((d.fp.int b64).natAbs : ℚ) = |d.toRat| * P := by
        rw [Nat.cast_natAbs, Int.cast_abs, ← hs, abs_mul, Nat.abs_cast]
      have hlt : ((d.fp.int b64).natAbs : ℚ) < 2 ^ 52 * P := by
        rw [habs]; exact mul_lt_mul_of_pos_right hsmall (by exact_mod_cast hpos)
      have hlt' : (d.fp.int b64).natAbs < 2 ^ 52 * P := by exact_mod_cast hlt
      have := Nat.div_lt_of_lt_mul (by rwa [mul_comm] at hlt' : (d.fp.int b64).natAbs < P * 2 ^ 52)
      change (d.fp.int b64).natAbs / P ≤ 2 ^ 53
      omega
    rw [ofInt_integral _ this, Number.fin.injEq] at he
    exact hq _ he
  · rw [ht] at he
    have : number64 (F64.ofInt (-2 ^ 63)) = .fin ((-2 ^ 63 : Int) : ℚ) := by decide +kernel
    rw [this, Number.fin.injEq] at he
    exact hq _ he

/-! ## Texts -/

theorem pieces_plain : (s : Bytes) → PlainText s → pieces s = some (s.map .byte)
  | [], _ => rfl
  | b :: rest, h => by
    obtain ⟨h1, h2, h3⟩ := h b (by simp)
    rw [pieces.eq_def]
    dsimp only
    rw [if_neg (by simp only [h2, or_false]; exact fun hb => absurd h1 (UInt8.not_le.2 hb)), if_pos h3,
      pieces_plain rest (fun c hc => h c (by simp [hc]))]
    rfl

theorem joinPieces_bytes (s : Bytes) : joinPieces (s.map .byte) = s := by
  induction s with
  | nil => rfl
  | cons b rest ih => rw [List.map_cons, joinPieces, ih]

/-- Plain texts are not changed. -/
theorem requote_plain {s : Bytes} (h : PlainText s) : requote s = some s := by
  rw [requote, pieces_plain s h, Option.map_some, joinPieces_bytes]

theorem hexDigit_isHex {c : UInt8} {n : Nat} (h : IsHex c n) : hexDigit c = some n ∧ n < 16 ∧ 48 ≤ c ∧ c ≠ 92 := by
  have hn : n < 16 := by
    rcases h with h | h <;> exact (List.getElem?_eq_some_iff.1 h).1
  have hl : ∀ n : Fin 16, hexDigit b!"0123456789abcdef"[n] = some n.1 ∧ 48 ≤ b!"0123456789abcdef"[n] ∧
      b!"0123456789abcdef"[n] ≠ 92 := by decide
  have hu : ∀ n : Fin 16, hexDigit b!"0123456789ABCDEF"[n] = some n.1 ∧ 48 ≤ b!"0123456789ABCDEF"[n] ∧
      b!"0123456789ABCDEF"[n] ≠ 92 := by decide
  rcases h with h | h
  · obtain ⟨h1, h2⟩ := List.getElem?_eq_some_iff.1 h
    have := hl ⟨n, hn⟩
    rw [Fin.getElem_fin, h2] at this
    exact ⟨this.1, hn, this.2⟩
  · obtain ⟨h1, h2⟩ := List.getElem?_eq_some_iff.1 h
    have := hu ⟨n, hn⟩
    rw [Fin.getElem_fin, h2] at this
    exact ⟨this.1, hn, this.2⟩

theorem hexDecode_text {text bytes : Bytes} (h : HexText text bytes) : hexDecode text = some bytes := by
  induction h with
  | nil => rfl
  | cons ha hb _ ih =>
    rw [hexDecode, (hexDigit_isHex ha).1, (hexDigit_isHex hb).1, ih]; rfl

theorem hexText_length {text bytes : Bytes} (h : HexText text bytes) : text.length = 2 * bytes.length := by
  induction h with
  | nil => rfl
  | cons _ _ _ ih => simp only [List.length_cons, ih]; omega

theorem hexText_plain {text bytes : Bytes} (h : HexText text bytes) : PlainText text := by
  have hc : ∀ {c : UInt8} {n : Nat}, IsHex c n → 32 ≤ c ∧ c ≠ 34 ∧ c ≠ 92 := by
    intro c n h
    obtain ⟨-, -, h1, h2⟩ := hexDigit_isHex h
    have : (48 : UInt8).toNat ≤ c.toNat := h1
    refine ⟨UInt8.le_iff_toNat_le.2 (le_trans (by decide) this), ?_, h2⟩
    rintro rfl
    exact absurd this (by decide)
  induction h with
  | nil => intro c hc; simp at hc
  | cons ha hb _ ih =>
    intro c hm
    rcases List.mem_cons.1 hm with rfl | hm
    · exact hc ha
    rcases List.mem_cons.1 hm with rfl | hm
    · exact hc hb
    · exact ih c hm

/-! ## Members of objects -/

theorem mem_of_mapGet {β : Type} {d : List (Bytes × β)} {k : Bytes} {v : β} (h : mapGet d k = some v) : (k, v) ∈ d := by
  induction d with
  | nil => simp [mapGet] at h
  | cons p rest ih =>
    obtain ⟨k', v'⟩ := p
    rw [mapGet] at h
    split at h
    · next hk => cases h; subst hk; simp
    · exact List.mem_cons_of_mem _ (ih h)

theorem not_mem_of_mapGet {β : Type} {d : List (Bytes × β)} {k : Bytes} (h : mapGet d k = none) : ∀ v, (k, v) ∉ d := by
  induction d with
  | nil => simp
  | cons p rest ih =>
    obtain ⟨k', v'⟩ := p
    rw [mapGet] at h
    split at h
    · cases h
    · next hk =>
      intro v hv
      rcases List.mem_cons.1 hv with he | hv
      · cases he; exact hk rfl
      · exact ih h v hv

theorem mapGet_of_mem {β : Type} {d : List (Bytes × β)} (hd : (d.map (·.1)).Nodup) {k : Bytes} {v : β} (h : (k, v) ∈ d) :
    mapGet d k = some v := by
  induction d with
  | nil => simp at h
  | cons p rest ih =>
    obtain ⟨k', v'⟩ := p
    rw [List.map_cons, List.nodup_cons] at hd
    rw [mapGet]
    rcases List.mem_cons.1 h with he | hm
    · cases he; rw [if_pos rfl]
    · have : k' ≠ k := by
        rintro rfl
        exact hd.1 (List.mem_map.2 ⟨_, hm, rfl⟩)
      rw [if_neg this, ih hd.2 hm]

theorem mapGet_none {β : Type} {d : List (Bytes × β)} {k : Bytes} (h : ∀ v, (k, v) ∉ d) : mapGet d k = none := by
  cases hg : mapGet d k with
  | none => rfl
  | some v => exact absurd (mem_of_mapGet hg) (h v)

/-- On an array, a path leads to an array. -/
theorem path_scalar {j : JVal} {k : Bytes} {v : JVal} (h : path (some j) k = some v) (hv : ∀ items, v ≠ .arr items) :
    ∃ d, j = .obj d ∧ mapGet d k = some v := by
  rw [path, Option.bind_some] at h
  cases j with
  | obj d => rw [search] at h; exact ⟨d, rfl, h⟩
  | arr items =>
    rw [search] at h
    split at h
    · cases h
    · cases h; exact absurd rfl (hv _)
  | _ => simp [search] at h

theorem path_obj (d : List (Bytes × JVal)) (k : Bytes) : path (some (.obj d)) k = mapGet d k := by
  rw [path, Option.bind_some, search]

theorem parseString_pure {j : JVal} {k s : Bytes} (h : parseString (some j) k = pure s) :
    ∃ d, j = .obj d ∧ mapGet d k = some (.str s) := by
  rw [parseString] at h
  split at h
  · next s' hp =>
    rw [GoE.pure_inj] at h
    subst h
    exact path_scalar hp (by simp)
  · exact absurd h GoE.fail_ne

theorem parseFloat_pure {c : Option JVal} {k : Bytes} {x : F64} (h : parseFloat c k = pure x) :
    ∃ d, c = some (.obj d) ∧ mapGet d k = some (.num x) := by
  rw [parseFloat] at h
  split at h
  · next x' hp =>
    rw [GoE.pure_inj] at h
    subst h
    cases c with
    | none => simp [path] at hp
    | some j =>
      obtain ⟨d, rfl, hd⟩ := path_scalar hp (by simp)
      exact ⟨d, rfl, hd⟩
  · exact absurd h GoE.fail_ne

theorem parseCaptureTime_pure {j : JVal} {x : F64} (h : parseCaptureTime (some j) = pure x) :
    ∃ d, j = .obj d ∧ mapGet d b!"time" = some (.num x) := by
  rw [parseCaptureTime] at h
  split at h
  · next x' hp =>
    rw [GoE.pure_inj] at h
    subst h
    exact path_scalar hp (by simp)
  · exact absurd h GoE.fail_ne

end Rap
