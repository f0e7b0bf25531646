import Verif.Spec.Layout
import Verif.Proof.Time

/-! # The grammar of files and the elementary encodings -/

namespace Rap
namespace Layout

/-! ## Numbers -/

theorem varint_put (n : Nat) : Varint n (putUvarint n) := by
  induction n using Nat.strongRecOn with
  | ind n ih =>
    by_cases h : n < 128
    · rw [putUvarint_lt h]
      have := Varint.last n.toUInt8 (by rw [toUInt8_toNat]; omega)
      rwa [toUInt8_toNat, Nat.mod_eq_of_lt (by omega)] at this
    · rw [putUvarint_ge h]
      have hc : (n.toUInt8 ||| 0x80).toNat = n % 128 + 128 := by
        have h1 := low7 n
        have h2 := high8 n
        rw [UInt8.lt_iff_toNat_lt] at h2
        have h3 : ((n.toUInt8 ||| 0x80) &&& 0x7f).toNat = (n.toUInt8 ||| 0x80).toNat % 128 := by
          rw [UInt8.toNat_and]; exact Nat.and_two_pow_sub_one_eq_mod _ 7
        have h4 := (n.toUInt8 ||| 0x80).toNat_lt
        have h5 : (0x80 : UInt8).toNat = 128 := rfl
        omega
      have := Varint.more (n.toUInt8 ||| 0x80) (by omega) (by omega) (ih (n / 128) (by omega))
      rw [hc] at this
      have he : n % 128 + 128 - 128 + 128 * (n / 128) = n := by omega
      rwa [he] at this

theorem varint_eq {n : Nat} {b : Bytes} (h : Varint n b) : b = putUvarint n := by
  induction h with
  | last c hc =>
    rw [putUvarint_lt hc]
    congr 1
    apply UInt8.toNat_inj.1
    rw [toUInt8_toNat]; omega
  | more c hc hn hb ih =>
    rename_i n b
    have hlt := c.toNat_lt
    have hge : ¬ (c.toNat - 128 + 128 * n < 128) := by omega
    rw [putUvarint_ge hge]
    have hs : (c.toNat - 128 + 128 * n) / 128 = n := by omega
    rw [hs, ← ih]
    congr 1
    apply UInt8.toNat_inj.1
    have h1 := low7 (c.toNat - 128 + 128 * n)
    have h2 := high8 (c.toNat - 128 + 128 * n)
    rw [UInt8.lt_iff_toNat_lt] at h2
    generalize ((c.toNat - 128 + 128 * n).toUInt8 ||| 0x80) = d at *
    have h3 : (d &&& 0x7f).toNat = d.toNat % 128 := by
      rw [UInt8.toNat_and]; exact Nat.and_two_pow_sub_one_eq_mod _ 7
    have h4 := d.toNat_lt
    have h5 : (0x80 : UInt8).toNat = 128 := rfl
    omega

theorem fixed_le (k n : Nat) (h : n < 256 ^ k) : Fixed k n (leBytes k n) := by
  induction k generalizing n with
  | zero =>
    have : n = 0 := by simpa using h
    subst this; exact .nil
  | succ k ih =>
    rw [leBytes]
    have := Fixed.cons n.toUInt8 (ih (n / 256) (by rw [Nat.pow_succ] at h; omega))
    rw [toUInt8_toNat] at this
    have he : n % 256 + 256 * (n / 256) = n := by omega
    rwa [he] at this

theorem fixed_eq {k n : Nat} {b : Bytes} (h : Fixed k n b) : b = leBytes k n ∧ n < 256 ^ k := by
  induction h with
  | nil => exact ⟨rfl, by simp⟩
  | cons c hb ih =>
    rename_i k n b
    have hc := c.toNat_lt
    refine ⟨?_, by rw [Nat.pow_succ]; omega⟩
    rw [leBytes, show (c.toNat + 256 * n) / 256 = n by omega, ← ih.1]
    congr 1
    apply UInt8.toNat_inj.1
    rw [toUInt8_toNat]; omega

theorem double_le (x : F64) : Double x (leBytes 8 x.toNat) := fixed_le 8 _ x.isLt
theorem single_le (x : F32) : Single x (leBytes 4 x.toNat) := fixed_le 4 _ x.isLt
theorem double_eq {x : F64} {b : Bytes} (h : Double x b) : b = leBytes 8 x.toNat := (fixed_eq h).1
theorem single_eq {x : F32} {b : Bytes} (h : Single x b) : b = leBytes 4 x.toNat := (fixed_eq h).1

/-! ## Sequences -/

theorem many_map {α : Type} {R : α → Bytes → Prop} {f : α → Bytes} (l : List α) (h : ∀ x ∈ l, R x (f x)) :
    Many R l (l.map f).flatten := by
  induction l with
  | nil => exact .nil
  | cons a l ih => exact .cons (h a (by simp)) (ih fun x hx => h x (by simp [hx]))

theorem many_eq {α : Type} {R : α → Bytes → Prop} {f : α → Bytes} {l : List α} {b : Bytes} (h : Many R l b)
    (hf : ∀ x b, x ∈ l → R x b → b = f x) : b = (l.map f).flatten := by
  induction h with
  | nil => rfl
  | cons h1 _ ih =>
    rw [List.map_cons, List.flatten_cons, ← hf _ _ (by simp) h1, ← ih fun x b hx => hf x b (by simp [hx])]

theorem text_put (s : Bytes) (h : s.length < 2 ^ 64) : Text s (stringToBytes s) := by
  rw [stringToBytes, u64_of_lt h]; exact .mk (varint_put _)

theorem text_eq {s b : Bytes} (h : Text s b) (hl : b.length ≤ sizeLimit) : b = stringToBytes s := by
  cases h with
  | mk h =>
    rename_i n
    rw [stringToBytes, u64_of_lt, ← varint_eq h]
    simp only [List.length_append, sizeLimit] at hl; omega

theorem text_put' (s : Bytes) (h : s.length < 2 ^ 64) : Text s (bytesArrayToBytes s) := text_put s h
theorem text_eq' {s b : Bytes} (h : Text s b) (hl : b.length ≤ sizeLimit) : b = bytesArrayToBytes s := text_eq h hl

theorem part_le {l : List Bytes} {x : Bytes} (h : x ∈ l) : x.length ≤ l.flatten.length := by
  induction l with
  | nil => simp at h
  | cons y l ih =>
    rw [List.flatten_cons, List.length_append]
    rcases List.mem_cons.1 h with rfl | h
    · omega
    · have := ih h; omega

theorem many_count {α : Type} {R : α → Bytes → Prop} {l : List α} {b : Bytes} (h : Many R l b)
    (hR : ∀ x b, R x b → 1 ≤ b.length) : l.length ≤ b.length := by
  induction h with
  | nil => simp
  | cons h1 _ ih => have := hR _ _ h1; simp only [List.length_cons, List.length_append]; omega

theorem many_mono {α : Type} {R R' : α → Bytes → Prop} {l : List α} {b : Bytes} (h : Many R l b)
    (hR : ∀ x b', R x b' → b'.length ≤ b.length → R' x b') : Many R' l b := by
  induction h with
  | nil => exact .nil
  | cons h1 _ ih =>
    refine .cons (hR _ _ h1 (by simp)) (ih fun x b' h hl => hR x b' h ?_)
    simp only [List.length_append]; omega

theorem varint_length {n : Nat} {b : Bytes} (h : Varint n b) : 1 ≤ b.length := by
  rw [varint_eq h]; exact putUvarint_length_pos n

theorem text_length {s b : Bytes} (h : Text s b) : s.length + 1 ≤ b.length := by
  cases h with
  | mk h => have := varint_length h; simp only [List.length_append]; omega

theorem texts_put (ss : List Bytes) (h : (stringArrayToBytes ss).length ≤ sizeLimit) :
    Counted Text ss (stringArrayToBytes ss) := by
  have h1 := length_le_stringArray ss
  have h2 : ∀ s ∈ ss, s.length < 2 ^ 64 := fun s hs => by
    have := mem_le_stringArray hs
    simp only [sizeLimit] at h; omega
  rw [stringArrayToBytes, u64_of_lt (by simp only [sizeLimit] at h; omega)]
  exact .mk (varint_put _) (many_map ss fun s hs => text_put s (h2 s hs))

theorem texts_eq {ss : List Bytes} {b : Bytes} (h : Counted Text ss b) (hl : b.length ≤ sizeLimit) :
    b = stringArrayToBytes ss := by
  cases h with
  | mk h1 h2 =>
    rename_i n bs
    simp only [List.length_append] at hl
    have hc := many_count h2 fun s b h => by have := text_length h; omega
    have h3 : Many (fun s b => b = stringToBytes s) ss bs :=
      many_mono h2 fun s b' h hb => text_eq h (by omega)
    rw [stringArrayToBytes, u64_of_lt (by simp only [sizeLimit] at hl; omega), ← varint_eq h1,
      ← many_eq h3 fun s b _ h => h]

theorem varints_put (xs : List Nat) (h : (uvarintArrayToBytes xs).length ≤ sizeLimit) (hx : ∀ x ∈ xs, x < 2 ^ 64) :
    Counted Varint xs (uvarintArrayToBytes xs) := by
  have h1 := length_le_uvarintArray xs
  rw [uvarintArrayToBytes, u64_of_lt (by simp only [sizeLimit] at h; omega)]
  refine .mk (varint_put _) (many_map xs fun x hx' => ?_)
  rw [u64_of_lt (hx x hx')]; exact varint_put x

theorem varints_eq {xs : List Nat} {b : Bytes} (h : Counted Varint xs b) (hl : b.length ≤ sizeLimit)
    (hx : ∀ x ∈ xs, x < 2 ^ 64) : b = uvarintArrayToBytes xs := by
  cases h with
  | mk h1 h2 =>
    rename_i n bs
    simp only [List.length_append] at hl
    have hc := many_count h2 fun s b h => varint_length h
    rw [uvarintArrayToBytes, u64_of_lt (by simp only [sizeLimit] at hl; omega), ← varint_eq h1,
      ← many_eq h2 fun x b hx' h => by rw [u64_of_lt (hx x hx')]; exact varint_eq h]

/-! ## Codes of repeated halving -/

theorem byteBits_eq (c : UInt8) : byteBits c = bitsOfByte c := by
  revert c; apply byte_ind; decide +kernel

theorem descend_eq (bits : List Bool) (mid step : F64) : descend bits mid step = bstDecBits bits mid step := by
  induction bits generalizing mid step with
  | nil => rfl
  | cons b bits ih =>
    cases b <;> simp only [descend, bstDecBits, ih, if_true, Bool.false_eq_true, if_false] <;> rfl

theorem point_eq (lo width : F64) (code : Bytes) : point lo width code = bstDec lo width code := by
  rw [point, descend_eq, bstDec, unpackBits]
  have : (code.flatMap byteBits) = code.flatMap bitsOfByte := by
    congr 1; funext c; exact byteBits_eq c
  rw [this]; rfl

/-- The halvings of the three axes in a list of cells. -/
theorem octDecLoop_eq (cells : List UInt8) (mid step : V3) :
    octDecLoop cells mid step =
      ⟨descend (cells.map fun c => !(c &&& 2 != 0)) mid.x step.x, descend (cells.map fun c => !(c &&& 4 != 0)) mid.y step.y,
       descend (cells.map fun c => !(c &&& 1 != 0)) mid.z step.z⟩ := by
  induction cells generalizing mid step with
  | nil => rfl
  | cons c cells ih =>
    have hbit : ∀ m : UInt8, (!(c &&& m != 0)) = decide (c &&& m = 0) := by
      intro m; by_cases h : c &&& m = 0 <;> simp [h]
    simp only [octDecLoop, ih, List.map_cons, hbit, descend, decide_eq_true_eq]
    rfl

theorem cells24_bits (b0 b1 b2 : UInt8) :
    (octCells24 b0 b1 b2).map (fun c => !(c &&& 1 != 0)) = (byteBits b0).map not ∧
    (octCells24 b0 b1 b2).map (fun c => !(c &&& 2 != 0)) = (byteBits b1).map not ∧
    (octCells24 b0 b1 b2).map (fun c => !(c &&& 4 != 0)) = (byteBits b2).map not := by
  have h1 : ∀ b : UInt8, (List.range 8).map (fun i => !(bitsOfByte b).getD i false) = (bitsOfByte b).map not := fun b => rfl
  simp only [byteBits_eq, octCells24_eq, List.map_map, ← h1]
  refine ⟨?_, ?_, ?_⟩ <;> refine List.map_congr_left fun i _ => ?_
  · exact congrArg not (cellOf_bits _ _ _).1
  · exact congrArg not (cellOf_bits _ _ _).2.1
  · exact congrArg not (cellOf_bits _ _ _).2.2

theorem axisBits_cons (axis : Nat) (ha : axis < 3) (b0 b1 b2 : UInt8) (rest : Bytes) :
    axisBits axis (b0 :: b1 :: b2 :: rest) = (byteBits ([b0, b1, b2].getD axis 0)).map not ++ axisBits axis rest := by
  have hl : (b0 :: b1 :: b2 :: rest).length / 3 = rest.length / 3 + 1 := by simp only [List.length_cons]; omega
  rw [axisBits, hl, List.range_succ_eq_map, List.flatMap_cons, List.flatMap_map, axisBits]
  congr 1
  · have h3 : axis = 0 ∨ axis = 1 ∨ axis = 2 := by omega
    rcases h3 with rfl | rfl | rfl <;> rfl
  · congr 1
    funext j
    have : 3 * (j + 1) + axis = 3 * j + axis + 1 + 1 + 1 := by omega
    rw [Nat.succ_eq_add_one, this]
    simp only [List.getD_cons_succ]

theorem octCells_bits (n : Nat) (b : Bytes) (h : b.length = 3 * n) :
    (octCells b).map (fun c => !(c &&& 1 != 0)) = axisBits 0 b ∧
    (octCells b).map (fun c => !(c &&& 2 != 0)) = axisBits 1 b ∧
    (octCells b).map (fun c => !(c &&& 4 != 0)) = axisBits 2 b := by
  induction n generalizing b with
  | zero =>
    have : b = [] := List.length_eq_zero_iff.1 (by omega)
    subst this; exact ⟨rfl, rfl, rfl⟩
  | succ n ih =>
    match b, h with
    | b0 :: b1 :: b2 :: rest, h =>
      obtain ⟨i0, i1, i2⟩ := ih rest (by simp only [List.length_cons] at h; omega)
      obtain ⟨c0, c1, c2⟩ := cells24_bits b0 b1 b2
      simp only [octCells, List.map_append, i0, i1, i2, c0, c1, c2]
      rw [axisBits_cons 0 (by omega), axisBits_cons 1 (by omega), axisBits_cons 2 (by omega)]
      exact ⟨rfl, rfl, rfl⟩
    | [], h => simp at h
    | [_], h => simp only [List.length_cons, List.length_nil] at h; omega
    | [_, _], h => simp only [List.length_cons, List.length_nil] at h; omega

theorem move_eq (lo hi cur : V3) (n : Nat) (code : Bytes) (h : code.length = 3 * n) :
    move lo hi cur code = cur.add (octCellsToVec3 lo hi (octCells code)) := by
  obtain ⟨h0, h1, h2⟩ := octCells_bits n code h
  rw [octCellsToVec3, octDecLoop_eq, h0, h1, h2]
  rfl

end Layout
end Rap
