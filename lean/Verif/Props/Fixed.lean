import Verif.Proof.Fixed
import Verif.Spec.CaptureText
import Verif.Props.SummaryText

/-!
# C69: numbers in texts, and the texts of captures

The `String` methods of the captures, the summary of the command line tool and the `String` methods of metadata print numbers
with a fixed number of decimals. The texts are correctly rounded, and there is only one for every number.
-/

namespace Rap

/-- C69: `%.pf` prints a `float64` rounded to `p` decimals, ties to even. -/
theorem C69_double (p : Nat) (x : F64) : FixedText p (number64 x) x.msb (fixedText b64 p x.fp) := by
  rw [F64.number_fp, F64.msb_fp]; exact fixedText_spec b64 p x.fp

/-- C69: the same for a `float32`. -/
theorem C69_single (p : Nat) (x : F32) : FixedText p (number32 x) x.msb (fixedText b32 p x.fp) := by
  rw [F32.number_fp, F32.msb_fp]; exact fixedText_spec b32 p x.fp

theorem two_spec (x : F64) : TwoDecimals x (twoDecimals x) := C69_double 2 x

theorem nearest_unique {p : Nat} {q : ℚ} {n n' : Nat} (h : NearestDecimal p q n) (h' : NearestDecimal p q n') : n = n' := by
  have hd : (0 : ℚ) < 10 ^ p := by positivity
  have half : (1 : ℚ) / (2 * 10 ^ p) = 1 / 2 / 10 ^ p := by rw [div_div]
  have scale : ∀ m : Nat, |(m : ℚ) / 10 ^ p - q| = |(m : ℚ) - q * 10 ^ p| / 10 ^ p := by
    intro m
    rw [← abs_of_pos hd, ← abs_div, abs_of_pos hd]
    congr 1
    field_simp
  rw [NearestDecimal, scale, half] at h h'
  have h1 := (div_le_div_iff_of_pos_right hd).1 h.1
  have h1' := (div_le_div_iff_of_pos_right hd).1 h'.1
  have h2 : |(n : ℚ) - q * 10 ^ p| = 1 / 2 → n % 2 = 0 := fun e => h.2 (by rw [e])
  have h2' : |(n' : ℚ) - q * 10 ^ p| = 1 / 2 → n' % 2 = 0 := fun e => h'.2 (by rw [e])
  generalize q * 10 ^ p = r at *
  have key : ∀ a b : Nat, |(a : ℚ) - r| ≤ 1 / 2 → |(b : ℚ) - r| ≤ 1 / 2 → a < b →
      |(a : ℚ) - r| = 1 / 2 ∧ |(b : ℚ) - r| = 1 / 2 ∧ b = a + 1 := by
    intro a b ha hb hab
    rw [abs_le] at ha hb
    have hc : (a : ℚ) + 1 ≤ b := by exact_mod_cast hab
    have e1 : (a : ℚ) - r = -(1 / 2) := by linarith
    have e2 : (b : ℚ) - r = 1 / 2 := by linarith
    refine ⟨by rw [e1, abs_neg, abs_of_pos (by norm_num)], by rw [e2, abs_of_pos (by norm_num)], ?_⟩
    have : (b : ℚ) = a + 1 := by linarith
    exact_mod_cast this
  rcases Nat.lt_trichotomy n n' with hlt | heq | hlt
  · obtain ⟨e1, e2, e3⟩ := key n n' h1 h1' hlt
    have := h2 e1; have := h2' e2; omega
  · exact heq
  · obtain ⟨e1, e2, e3⟩ := key n' n h1' h1 hlt
    have := h2' e1; have := h2 e2; omega

theorem digits_unique : ∀ (a b : Bytes), a.length = b.length → (∀ c ∈ a, 48 ≤ c.toNat ∧ c.toNat ≤ 57) →
    (∀ c ∈ b, 48 ≤ c.toNat ∧ c.toNat ≤ 57) →
    a.foldl (fun v c => 10 * v + (c.toNat - 48)) 0 = b.foldl (fun v c => 10 * v + (c.toNat - 48)) 0 → a = b := by
  intro a
  induction a using List.reverseRecOn with
  | nil => intro b hl _ _ _; exact (List.length_eq_zero_iff.1 hl.symm).symm
  | append_singleton a c ih =>
    intro b hl ha hb he
    rcases List.eq_nil_or_concat b with rfl | ⟨b', d, rfl⟩
    · simp at hl
    · simp only [List.concat_eq_append] at *
      rw [List.foldl_append, List.foldl_append] at he
      simp only [List.foldl_cons, List.foldl_nil] at he
      have hc := ha c (by simp)
      have hd := hb d (by simp)
      have e1 : c = d := UInt8.toNat.inj (by omega)
      have e2 := ih b' (by simpa using hl) (fun c hc => ha c (by simp [hc])) (fun c hc => hb c (by simp [hc])) (by omega)
      rw [e1, e2]

/-- C69: the specification leaves no choice: there is one text for each datum. -/
theorem C69_one_text {p : Nat} {v : Number} {minus : Bool} {a b : Bytes} (ha : FixedText p v minus a)
    (hb : FixedText p v minus b) : a = b := by
  cases v with
  | nan => exact ha.trans hb.symm
  | pinf => exact ha.trans hb.symm
  | ninf => exact ha.trans hb.symm
  | fin q =>
    obtain ⟨n, t, h1, h2, rfl⟩ := ha
    obtain ⟨n', t', h1', h2', rfl⟩ := hb
    have hn := nearest_unique h2 h2'
    subst hn
    obtain ⟨i, fr, rfl, d1, l1, c1, v1⟩ := h1
    obtain ⟨i', fr', rfl, d2, l2, c2, v2⟩ := h1'
    rw [decimal_text_unique _ _ _ d1 d2, digits_unique fr fr' (l1.trans l2.symm) c1 c2 (v1.trans v2.symm)]

theorem sign_value {x : F64} {q : ℚ} (h : number64 x = .fin q) : (x.msb = true → q ≤ 0) ∧ (x.msb = false → 0 ≤ q) := by
  have hf : x.isFinite = true := (F64.finite_number x).2 ⟨_, h⟩
  rw [F64.number_fin hf, Number.fin.injEq, F64.toRat_fin hf] at h
  subst h
  rw [F64.msb_fp]
  simp only [FP.val, FP.int]
  constructor
  · intro hs
    rw [if_pos hs]; push_cast
    rw [neg_div, neg_nonpos]; positivity
  · intro hs
    rw [if_neg (by simp [hs])]; push_cast
    positivity

/-- C69: numbers with the same text differ by at most one unit in the last place shown, and have the same sign. -/
theorem C69_same_text (p : Nat) {x y : F64} {q r : ℚ} (hx : number64 x = .fin q) (hy : number64 y = .fin r)
    (h : fixedText b64 p x.fp = fixedText b64 p y.fp) : |q - r| ≤ 1 / 10 ^ p ∧ x.msb = y.msb := by
  have h1 := C69_double p x
  have h2 := C69_double p y
  rw [hx] at h1
  rw [hy] at h2
  obtain ⟨n, t, a1, a2, a3⟩ := h1
  obtain ⟨m, s, b1, b2, b3⟩ := h2
  rw [h, b3] at a3
  have hsign : x.msb = y.msb ∧ t = s := by
    obtain ⟨c, w, rfl, c1, c2⟩ := hasDecimals_head a1
    obtain ⟨d, z, rfl, d1, d2⟩ := hasDecimals_head b1
    cases hxm : x.msb <;> cases hym : y.msb <;> rw [hxm, hym] at a3 <;>
      simp only [if_true, if_false, Bool.false_eq_true, List.cons.injEq] at a3
    · exact ⟨rfl, by rw [a3.1, a3.2]⟩
    · have := a3.1; subst this; simp at c1
    · have := a3.1; subst this; simp at d1
    · exact ⟨rfl, by rw [a3.2.1, a3.2.2]⟩
  refine ⟨?_, hsign.1⟩
  rw [hsign.2] at a1
  have hn := hasDecimals_unique a1 b1
  subst hn
  have e1 := a2.1
  have e2 := b2.1
  have half : (1 : ℚ) / 10 ^ p = 1 / (2 * 10 ^ p) + 1 / (2 * 10 ^ p) := by field_simp; norm_num
  have key : abs (|q| - |r|) ≤ 1 / 10 ^ p := by
    rw [half]
    rw [abs_le] at e1 e2 ⊢
    constructor <;> linarith [e1.1, e1.2, e2.1, e2.2]
  have sx := sign_value hx
  have sy := sign_value hy
  cases hxm : x.msb
  · have hym : y.msb = false := hsign.1 ▸ hxm
    rwa [abs_of_nonneg (sx.2 hxm), abs_of_nonneg (sy.2 hym)] at key
  · have hym : y.msb = true := hsign.1 ▸ hxm
    rw [abs_of_nonpos (sx.1 hxm), abs_of_nonpos (sy.1 hym), show -q - -r = -(q - r) by ring, abs_neg] at key
    exact key

/-- 0.125 is halfway between 0.12 and 0.13 and becomes the even one, 2.5e-5 becomes 0.00, and -0.001 keeps its sign. -/
example : twoDecimals 0x3FC0000000000000 = b!"0.12" ∧ twoDecimals 0x3FD8000000000000 = b!"0.38" ∧
    twoDecimals 0xBF50624DD2F1A9FC = b!"-0.00" ∧ twoDecimals 0x7FF0000000000000 = b!"+Inf" ∧
    twoDecimals 0xC059000000000000 = b!"-100.00" ∧ number64 0x3FC0000000000000 = .fin (1 / 8) := by decide +kernel

/-! ## Captures -/

/-- C69: the text of a capture of the package is the specified one, and no other text is. -/
theorem C69_captures (other : F64 → Bytes → Bytes) (c : Capture) (hc : ∀ t v, c ≠ .other t v) (b : Bytes) :
    CaptureText c b ↔ b = c.text other := by
  constructor
  · intro h
    cases h with
    | @enum _ v _ _ ht hv =>
      rw [C69_one_text ht (two_spec _)]
      rcases hv with ⟨h0, hv⟩ | ⟨h0, d, rfl, hv⟩
      · rcases decimal_spec v.toInt with ⟨-, h1⟩ | ⟨h1, -⟩
        · rw [Capture.text, decimal_text_unique _ _ _ hv h1]
        · omega
      · rcases decimal_spec v.toInt with ⟨h1, -⟩ | ⟨-, e, h1, h2⟩
        · omega
        · rw [Capture.text, h1, decimal_text_unique _ _ _ hv h2]
    | euler ht hx hy hz =>
      rw [C69_one_text ht (two_spec _), C69_one_text hx (two_spec _), C69_one_text hy (two_spec _),
        C69_one_text hz (two_spec _), Capture.text]
    | event ht => rw [C69_one_text ht (two_spec _), Capture.text]
    | float ht hx => rw [C69_one_text ht (two_spec _), C69_one_text hx (two_spec _), Capture.text]
    | position ht hx hy hz =>
      rw [C69_one_text ht (two_spec _), C69_one_text hx (two_spec _), C69_one_text hy (two_spec _),
        C69_one_text hz (two_spec _), Capture.text]
  · rintro rfl
    cases c with
    | enum t v => exact .enum (two_spec _) (decimal_spec _)
    | euler t v => exact .euler (two_spec _) (two_spec _) (two_spec _) (two_spec _)
    | event t name md => exact .event (two_spec _)
    | float t x => exact .float (two_spec _) (two_spec _)
    | position t v => exact .position (two_spec _) (two_spec _) (two_spec _) (two_spec _)
    | other t v => exact absurd rfl (hc t v)

/-- The time part of a text ends at the first bracket. -/
theorem two_no_bracket (x : F64) : ∀ c ∈ twoDecimals x, c ≠ 93 := by
  intro c hc
  have h := two_spec x
  rw [TwoDecimals] at h
  cases hv : number64 x with
  | nan => rw [hv] at h; rw [show twoDecimals x = b!"NaN" from h] at hc; simp at hc; rcases hc with rfl | rfl | rfl <;> decide
  | pinf =>
    rw [hv] at h; rw [show twoDecimals x = b!"+Inf" from h] at hc; simp at hc; rcases hc with rfl | rfl | rfl | rfl <;> decide
  | ninf =>
    rw [hv] at h; rw [show twoDecimals x = b!"-Inf" from h] at hc; simp at hc; rcases hc with rfl | rfl | rfl | rfl <;> decide
  | fin q =>
    rw [hv] at h
    obtain ⟨n, t, h1, -, h3⟩ := h
    rw [h3] at hc
    rintro rfl
    have ht : (93 : UInt8) ∈ t := by
      split at hc
      · simpa using hc
      · exact hc
    rcases hasDecimals_chars h1 _ ht with h | h
    · exact absurd h (by decide)
    · exact absurd h.2 (by decide)

theorem capture_text_head (other : F64 → Bytes → Bytes) (c : Capture) (hc : ∀ t v, c ≠ .other t v) :
    ∃ rest, c.text other = 91 :: (twoDecimals c.time ++ 93 :: rest) := by
  cases c with
  | other t v => exact absurd rfl (hc t v)
  | _ => simp only [Capture.text, Capture.time, List.append_assoc, List.cons_append, List.nil_append]; exact ⟨_, rfl⟩

/-- C69: whatever kinds they are of, captures with the same text have times no more than a hundredth of a second apart. -/
theorem C69_same_time (other : F64 → Bytes → Bytes) (c d : Capture) (hc : ∀ t v, c ≠ .other t v) (hd : ∀ t v, d ≠ .other t v)
    (h : c.text other = d.text other) :
    twoDecimals c.time = twoDecimals d.time ∧
    ∀ q r, number64 c.time = .fin q → number64 d.time = .fin r → |q - r| ≤ 1 / 100 := by
  obtain ⟨w, hw⟩ := capture_text_head other c hc
  obtain ⟨z, hz⟩ := capture_text_head other d hd
  rw [hw, hz] at h
  simp only [List.cons.injEq, true_and] at h
  have cut : ∀ (x : F64) (r : Bytes), (twoDecimals x ++ 93 :: r).takeWhile (· != 93) = twoDecimals x := by
    intro x r
    rw [List.takeWhile_append_of_pos (fun c hc => by simpa using two_no_bracket x c hc)]
    simp
  have ht : twoDecimals c.time = twoDecimals d.time := by rw [← cut c.time w, h, cut]
  refine ⟨ht, fun q r hq hr => ?_⟩
  have := (C69_same_text 2 hq hr ht).1
  norm_num at this
  norm_num
  exact this

/-- C69: beyond the time the text does not tell: an event can be named so that its text is that of a number or of a position. -/
theorem C69_text_is_ambiguous (other : F64 → Bytes → Bytes) (t x : F64) (v : V3) :
    (∃ name, (Capture.event t name []).text other = (Capture.float t x).text other) ∧
    (∃ name, (Capture.event t name []).text other = (Capture.position t v).text other) ∧
    (∃ name, (Capture.event t name []).text other = (Capture.euler t v).text other) :=
  ⟨⟨b!"- " ++ twoDecimals x, by simp [Capture.text]⟩,
    ⟨b!"- " ++ twoDecimals v.x ++ b!", " ++ twoDecimals v.y ++ b!", " ++ twoDecimals v.z, by simp [Capture.text]⟩,
    ⟨b!"Rotation - " ++ twoDecimals v.x ++ b!", " ++ twoDecimals v.y ++ b!", " ++ twoDecimals v.z, by simp [Capture.text]⟩⟩

/-- "[1.50] Enum - -3", "[0.25] - 1.00, 2.00, -0.50". -/
example : (Capture.enum 0x3FF8000000000000 (-3)).text (fun _ b => b) = b!"[1.50] Enum - -3" ∧
    (Capture.position 0x3FD0000000000000 ⟨0x3FF0000000000000, 0x4000000000000000, 0xBFE0000000000000⟩).text (fun _ b => b) =
      b!"[0.25] - 1.00, 2.00, -0.50" := by decide +kernel

/-! ## The summary -/

theorem sizeInUnits_of {size : Nat} {text : Bytes} (h : SizeText twoDecimals size text) : SizeInUnits size text := by
  have unit : 0 < size → ∀ (k : Nat) (x : F64), number64 x = .fin ((size : ℚ) / 2 ^ k) →
      ∃ n, HasDecimals 2 (twoDecimals x) n ∧ NearestDecimal 2 ((size : ℚ) / 2 ^ k) n := by
    intro hpos k x hx
    have hs := two_spec x
    rw [TwoDecimals, hx] at hs
    obtain ⟨n, t, h1, h2, h3⟩ := hs
    have hm : x.msb = false := by
      by_contra hc
      have h0 := (sign_value hx).1 (by simpa using hc)
      have h1 : (0 : ℚ) < size := by exact_mod_cast hpos
      have h2 : (0 : ℚ) < size / 2 ^ k := by positivity
      linarith
    rw [hm] at h3
    rw [abs_of_nonneg (by positivity)] at h2
    exact ⟨n, by rw [show twoDecimals x = t from h3]; exact h1, h2⟩
  rw [SizeText] at h
  rw [SizeInUnits]
  split at h
  · rename_i h10; rw [if_pos h10]; exact h
  · rename_i h10
    rw [if_neg h10]
    split at h
    · rename_i h20
      rw [if_pos h20]
      obtain ⟨x, rfl, hx⟩ := h
      obtain ⟨n, h1, h2⟩ := unit (by omega) 10 x hx
      exact ⟨n, _, rfl, h1, h2⟩
    · rename_i h20
      rw [if_neg h20]
      obtain ⟨x, rfl, hx⟩ := h
      obtain ⟨n, h1, h2⟩ := unit (by omega) 20 x hx
      exact ⟨n, _, rfl, h1, h2⟩

/-- C69: the summary of a file shows its size and the duration rounded to two decimals. -/
theorem C69_summary (rec : Rec) (size : Nat) (out : Bytes) (hs : size ≤ 2 ^ 53)
    (ho : printSummary twoDecimals rec size = .ok out) : ∃ name text d dt rest,
    out = b!"Name:                    " ++ name ++ b!"\nFile Size:               " ++ text ++
      b!"\nDuration:                " ++ dt ++ b!"s\nSub Recordings:          " ++ rest ∧
    (rec.theName ≠ [] → name = rec.theName) ∧ (rec.theName = [] → name = b!"[No Name]") ∧
    SizeInUnits size text ∧ recordingDuration rec = .ok d ∧ TwoDecimals d dt := by
  obtain ⟨name, text, d, rest, h1, h2, h3, h4, h5⟩ := C40_first_lines twoDecimals rec size out hs ho
  exact ⟨name, text, d, _, rest, h1, h2, h3, sizeInUnits_of h4, h5, two_spec d⟩

/-- C69: just below a megabyte the rounding reaches the next unit: the last five sizes are shown as 1024.00kb. -/
theorem C69_1024kb (size : Nat) (h : 2 ^ 20 - 5 ≤ size) (h' : size < 2 ^ 20) : printSize twoDecimals size = b!"1024.00kb" := by
  have : size = 1048571 ∨ size = 1048572 ∨ size = 1048573 ∨ size = 1048574 ∨ size = 1048575 := by omega
  rcases this with rfl | rfl | rfl | rfl | rfl <;> decide +kernel

/-- 2560 bytes are "2.50kb", 1023 bytes "1023b", and three megabytes "3.00mb". -/
example : printSize twoDecimals 2560 = b!"2.50kb" ∧ printSize twoDecimals 1023 = b!"1023b" ∧
    printSize twoDecimals 3145728 = b!"3.00mb" := by decide +kernel

/-! ## Metadata -/

/-- C69: numbers in the text of metadata have six decimals. -/
theorem C69_metadata (f : F32) (x y z : F64) :
    (∃ t, describe sixDecimals (.f32 f) = .ok t ∧ FixedText 6 (number32 f) f.msb t) ∧
    (∃ a b, describe sixDecimals (.vec2 x y) = .ok (a ++ b!", " ++ b) ∧ FixedText 6 (number64 x) x.msb a ∧
      FixedText 6 (number64 y) y.msb b) ∧
    (∃ a b c, describe sixDecimals (.vec3 x y z) = .ok (a ++ b!", " ++ b ++ b!", " ++ c) ∧
      FixedText 6 (number64 x) x.msb a ∧ FixedText 6 (number64 y) y.msb b ∧ FixedText 6 (number64 z) z.msb c) :=
  ⟨⟨_, rfl, C69_single 6 f⟩, ⟨_, _, rfl, C69_double 6 x, C69_double 6 y⟩,
    ⟨_, _, _, rfl, C69_double 6 x, C69_double 6 y, C69_double 6 z⟩⟩

example : describe sixDecimals (.f32 0x3DCCCCCD) = .ok b!"0.100000" ∧
    describe sixDecimals (.vec2 0x3FF0000000000000 0xBFD5555555555555) = .ok b!"1.000000, -0.333333" := by decide +kernel

end Rap
