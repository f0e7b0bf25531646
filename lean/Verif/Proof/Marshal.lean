import Verif.Props.JsonText
import Verif.Props.Codec
import Verif.Props.Summary
import Verif.Proof.JsonGrammar

/-!
# Metadata as JSON text: hexadecimal, UTF-8, and a sample of the external functions
-/

namespace Rap

/-! ## Texts -/

theorem hexText_encode : (b : Bytes) → HexText (hexEncode b) b
  | [] => .nil
  | c :: rest => by
    have every : ∀ n : Fin 16, b!"0123456789abcdef"[n.val]? = some (hexChar n.val) := by decide
    have h1 : c.toNat / 16 < 16 := by have := c.toNat_lt; omega
    have h2 : c.toNat % 16 < 16 := by omega
    have h := HexText.cons (.inl (every ⟨_, h1⟩)) (.inl (every ⟨_, h2⟩)) (hexText_encode rest)
    dsimp only at h
    rw [Nat.div_add_mod c.toNat 16, UInt8.ofNat_toNat] at h
    rw [hexEncode]
    exact h

theorem utf8_ascii : (s : Bytes) → (∀ c ∈ s, c < 128) → Utf8 s
  | [], _ => ⟨[], rfl⟩
  | c :: s, h => by
    obtain ⟨cs, hs⟩ := utf8_ascii s fun d hd => h d (by simp [hd])
    refine ⟨Char.ofNat c.toNat :: cs, ?_⟩
    have every : ∀ k : Fin 128, String.utf8EncodeChar (Char.ofNat k.val) = [UInt8.ofNat k.val] := by decide +kernel
    have hc : c.toNat < 128 := by have := h c (by simp); exact this
    have := every ⟨_, hc⟩
    dsimp only at this
    rw [List.flatMap_cons, this, ← hs]
    simp

theorem hexEncode_ascii (b : Bytes) : ∀ c ∈ b!"0x" ++ hexEncode b, c < 128 := by
  intro c h
  rcases List.mem_append.1 h with hc | hc
  · simp only [List.mem_cons, List.not_mem_nil, or_false] at hc
    rcases hc with rfl | rfl <;> decide
  · clear h
    have every : ∀ n : Fin 16, hexChar n.val < 128 := by decide
    induction b with
    | nil => simp [hexEncode] at hc
    | cons d b ih =>
      rw [hexEncode, List.mem_cons, List.mem_cons] at hc
      rcases hc with rfl | rfl | hc
      · have := d.toNat_lt; exact every ⟨d.toNat / 16, by omega⟩
      · exact every ⟨d.toNat % 16, by omega⟩
      · exact ih hc

/-! ## A sample of the external functions -/

theorem narrow_widen {y : F32} (hy : y.isFinite = true) : narrow (widen y) = y := by
  suffices h : FP.convert b64 b32 (widen y).fp = y.fp by
    conv_rhs => rw [← F32.ofFP_fp y, ← h]
    rfl
  obtain ⟨h1, h2⟩ := widen_finite hy
  have hy' := (F32.finite_iff _).1 hy
  have hw := (F64.finite_iff _).1 h1
  have h3 := FP.val_convert (f := b64) (g := b32) (x := (widen y).fp) b32_mb hw
  have h4 : (widen y).fp.val b64 = y.fp.val b32 := by
    rw [F64.val_eq h1, ← F32.toRat_fin hy]; exact h2
  rw [h4, rn_val b32_mb hy'.le] at h3
  have hms : (FP.convert b64 b32 (widen y).fp).s = y.fp.s := by
    rw [convert_s, widen_fp, convert_s]
  have hmm : (FP.convert b64 b32 (widen y).fp).m = y.fp.m := by
    have hs := scale_pos b32
    have e1 := FP.abs_val b32 (FP.convert b64 b32 (widen y).fp)
    have e2 := FP.abs_val b32 y.fp
    rw [h3, e2] at e1
    have e3 : (magInt b32.mb y.fp.m : ℚ) = magInt b32.mb (FP.convert b64 b32 (widen y).fp).m := by
      have := hs.ne'
      field_simp at e1
      linarith
    have e4 : magInt b32.mb y.fp.m = magInt b32.mb (FP.convert b64 b32 (widen y).fp).m := by exact_mod_cast e3
    generalize (FP.convert b64 b32 (widen y).fp).m = a at e4 ⊢
    rcases Nat.lt_trichotomy a y.fp.m with h | h | h
    · have := (magInt_lt (mb := b32.mb)).2 h; omega
    · exact h
    · have := (magInt_lt (mb := b32.mb)).2 h; omega
  cases ha : FP.convert b64 b32 (widen y).fp
  cases hb : y.fp
  rw [ha, hb] at hms hmm
  simp only at hms hmm
  rw [hms, hmm]

theorem F32.finite_of_number {f : F32} {q : Rat} (h : number32 f = .fin q) : f.isFinite = true := by
  rw [F32.finite_iff]
  rw [F32.number_fp, FP.number] at h
  by_contra hc
  split at h
  · simp at h
  · split at h
    · split at h <;> simp at h
    · omega

/-- Quotes, backslashes and control characters are escaped. -/
def escapeByte (c : UInt8) : Bytes :=
  if c < 32 then b!"\\u00" ++ [hexChar (c.toNat / 16), hexChar (c.toNat % 16)]
  else if c = 34 ∨ c = 92 then [92, c] else [c]

theorem unescapes_escape : (s : Bytes) → Unescapes (s.flatMap escapeByte) s
  | [] => .nil
  | c :: s => by
    have ih := unescapes_escape s
    rw [List.flatMap_cons, escapeByte]
    split
    · next h =>
      have every : ∀ n : Fin 16, b!"0123456789abcdef"[n.val]? = some (hexChar n.val) := by decide
      have hlt : c.toNat < 32 := h
      have h4 : Hex4 [48, 48, hexChar (c.toNat / 16), hexChar (c.toNat % 16)] c.toNat :=
        ⟨_, _, _, _, 0, 0, c.toNat / 16, c.toNat % 16, rfl, .inl rfl, .inl rfl, .inl (every ⟨c.toNat / 16, by omega⟩),
          .inl (every ⟨c.toNat % 16, by omega⟩), by omega⟩
      have := Unescapes.unicode h4 (.inl (by omega)) ih
      have e : utf8 c.toNat = [c] := by
        have all : ∀ k : Fin 32, utf8 k.val = [UInt8.ofNat k.val] := by decide +kernel
        have := all ⟨_, hlt⟩
        dsimp only at this
        rw [this, UInt8.ofNat_toNat]
      rw [e] at this
      exact this
    · next h =>
      split
      · next h' =>
        rcases h' with rfl | rfl
        · exact .short (by decide) ih
        · exact .short (by decide) ih
      · next h' =>
        rw [not_or] at h'
        exact .plain (by simpa using h) h'.1 h'.2 ih

/-- Integers in decimal; other numbers as a point and their bits. -/
def sampleNumber (t : Bytes) (d : F64) : Prop :=
  (∃ i : Int, IsInteger t i ∧ i.natAbs ≤ 2 ^ 53 ∧ d = F64.ofInt i) ∨ (t = 46 :: V1.decimalNat d.toNat ∧ d.isFinite = true)

/-- Times are the letter T and 64 bits in hexadecimal. -/
def sampleMarshal : MarshalExt where
  quote s := s.flatMap escapeByte
  float64 x := if x.isFinite then some (46 :: V1.decimalNat x.toNat) else none
  float32 f := if f.isFinite then some (46 :: V1.decimalNat (widen f).toNat) else none
  time n := 84 :: hexEncode (leBytes 8 n.toNat)
  fixed x := if x.isFinite then 46 :: V1.decimalNat x.toNat else b!"NaN"

/-- Reads them. -/
def sampleReader : JsonExt where
  parseTime s := match s with
    | 84 :: h => (hexDecode h).map fun b => BitVec.ofInt 64 ((BitVec.ofNat 64 (leNat b)).toInt / 1000)
    | _ => none
  float32 d := some (narrow d)
  atoi := sampleJson.atoi

theorem sampleReader_lawful : sampleReader.Lawful where
  time_plain s t h := by
    simp only [sampleReader] at h
    split at h
    · next h' =>
      rw [Option.map_eq_some_iff] at h
      obtain ⟨b, hb, -⟩ := h
      have := hexText_plain (hexText_decode _ _ hb)
      intro c hc
      rcases List.mem_cons.1 hc with rfl | hc
      · decide
      · exact this c hc
    · simp at h
  atoi_exact := sampleJson_lawful.atoi_exact
  atoi_only := sampleJson_lawful.atoi_only
  atoi_range := sampleJson_lawful.atoi_range

theorem decimal_digits {t : Bytes} {n : Nat} (h : IsDecimal t n) : ∀ c ∈ t, c ∈ b!"0123456789" := by
  intro c hc
  obtain ⟨h1, h2⟩ := h.2.1 c hc
  have every : ∀ k : Fin 10, UInt8.ofNat (48 + k.val) ∈ b!"0123456789" := by decide
  have := every ⟨c.toNat - 48, by omega⟩
  dsimp only at this
  rwa [show 48 + (c.toNat - 48) = c.toNat by omega, UInt8.ofNat_toNat] at this

theorem isInteger_head {t : Bytes} {i : Int} (h : IsInteger t i) : ∃ c r, t = c :: r ∧ c ≠ 46 := by
  rcases h with ⟨-, h⟩ | ⟨-, d, rfl, -⟩
  · obtain ⟨c, r, rfl⟩ := List.exists_cons_of_ne_nil h.1
    refine ⟨c, r, rfl, ?_⟩
    rintro rfl
    exact absurd (decimal_digits h 46 (by simp)) (by decide)
  · exact ⟨45, d, rfl, by decide⟩

theorem isInteger_unique {t : Bytes} {i i' : Int} (h : IsInteger t i) (h' : IsInteger t i') : i = i' := by
  have minus : ∀ {d : Bytes} {n : Nat}, ¬ IsDecimal (45 :: d) n := fun h =>
    absurd (decimal_digits h 45 (by simp)) (by decide)
  rcases h with ⟨h1, h⟩ | ⟨h1, d, rfl, h⟩ <;> rcases h' with ⟨h1', h'⟩ | ⟨h1', d', e, h'⟩
  · have := h.2.2.1.symm.trans h'.2.2.1
    omega
  · exact absurd (e ▸ h) minus
  · exact absurd h' minus
  · cases e
    have := h.2.2.1.symm.trans h'.2.2.1
    omega

theorem sampleMarshal_lawful : sampleMarshal.Lawful sampleReader sampleNumber where
  number_text t d h := by
    have dig : ∀ c ∈ b!"0123456789", c ∈ b!"0123456789+-.eE" := by decide
    rcases h with ⟨i, h, -⟩ | ⟨rfl, -⟩
    · rcases h with ⟨-, h⟩ | ⟨-, e, rfl, h⟩
      · exact ⟨h.1, fun c hc => dig c (decimal_digits h c hc)⟩
      · refine ⟨by simp, fun c hc => ?_⟩
        rcases List.mem_cons.1 hc with rfl | hc
        · decide
        · exact dig c (decimal_digits h c hc)
    · refine ⟨by simp, fun c hc => ?_⟩
      rcases List.mem_cons.1 hc with rfl | hc
      · decide
      · exact dig c (decimal_digits (decimalNat_spec _).1 c hc)
  number_unique t d d' h h' := by
    rcases h with ⟨i, h, -, rfl⟩ | ⟨rfl, -⟩ <;> rcases h' with ⟨i', h', -, rfl⟩ | ⟨e, -⟩
    · rw [isInteger_unique h h']
    · obtain ⟨c, r, rfl, hc⟩ := isInteger_head h
      simp only [List.cons.injEq] at e
      exact absurd e.1 hc
    · obtain ⟨c, r, e, hc⟩ := isInteger_head h'
      simp only [List.cons.injEq] at e
      exact absurd e.1.symm hc
    · simp only [List.cons.injEq, true_and] at e
      have h1 := (decimalNat_spec d.toNat).1.2.2.1
      have h2 := (decimalNat_spec d'.toNat).1.2.2.1
      rw [e, h2] at h1
      exact BitVec.eq_of_toNat_eq h1.symm
  number_finite t d h := by
    rcases h with ⟨i, -, hi, rfl⟩ | ⟨-, h⟩
    · exact ⟨_, ofInt_integral i hi⟩
    · exact (F64.finite_number d).1 h
  quote s _ := unescapes_escape s
  quote_any s := ⟨s, unescapes_escape s⟩
  integer t i h hi := ⟨F64.ofInt i, .inl ⟨i, h, hi, rfl⟩, ofInt_integral i hi⟩
  float64 x q h := by
    have hx : F64.isFinite x = true := (F64.finite_number x).2 ⟨_, h⟩
    exact ⟨_, if_pos hx, .inr ⟨rfl, hx⟩⟩
  float64_none x h := by
    refine if_neg fun hx => ?_
    exact h _ (F64.number_fin hx)
  float32 f q h := by
    have hf : F32.isFinite f = true := F32.finite_of_number h
    exact ⟨_, widen f, q, if_pos hf, .inr ⟨rfl, (widen_finite hf).1⟩, by rw [number_widen, h], congrArg some (narrow_widen hf), Iff.rfl⟩
  float32_exact f i h _ := by
    have hf : F32.isFinite f = true := F32.finite_of_number h
    exact ⟨_, widen f, if_pos hf, .inr ⟨rfl, (widen_finite hf).1⟩, by rw [number_widen, h]⟩
  float32_none f h := by
    refine if_neg fun hf => ?_
    exact h _ (F32.number_fin hf)
  time n := by
    have hp := hexText_plain (hexText_encode (leBytes 8 n.toNat))
    refine ⟨?_, utf8_ascii _ ?_, ?_, ?_⟩
    · intro c hc
      rcases List.mem_cons.1 hc with rfl | hc
      · decide
      · exact hp c hc
    · intro c hc
      rcases List.mem_cons.1 hc with rfl | hc
      · decide
      · exact hexEncode_ascii (leBytes 8 n.toNat) c (by simp [hc])
    · rintro ⟨r, hr⟩
      simp [sampleMarshal] at hr
    · simp only [sampleMarshal, sampleReader]
      rw [hexDecode_text (hexText_encode _), Option.map_some, leNat_leBytes, Nat.mod_eq_of_lt (by simpa using n.isLt)]
      simp
  fixed x q h := by
    have hx : F64.isFinite x = true := (F64.finite_number x).2 ⟨_, h⟩
    have e : sampleMarshal.fixed x = 46 :: V1.decimalNat x.toNat := if_pos hx
    exact ⟨x, q, by rw [e]; exact .inr ⟨rfl, hx⟩, h, by norm_num⟩
  fixed_none x h := by
    have : ¬ F64.isFinite x = true := fun hx => h _ (F64.number_fin hx)
    have e : sampleMarshal.fixed x = b!"NaN" := if_neg this
    rw [e]
    simp

end Rap
