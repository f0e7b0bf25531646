import Verif.Model.Encoders

/-! # Bit packing -/

namespace Rap

set_option maxRecDepth 20000

theorem byteOfBits_bit (b0 b1 b2 b3 b4 b5 b6 b7 : Bool) :
    bitsOfByte (byteOfBits [b0, b1, b2, b3, b4, b5, b6, b7]) = [b0, b1, b2, b3, b4, b5, b6, b7] := by
  revert b0 b1 b2 b3 b4 b5 b6 b7; decide

theorem bitsOfByte_length (b : UInt8) : (bitsOfByte b).length = 8 := rfl

theorem eq8 {α : Type} (l : List α) (h : l.length = 8) :
    ∃ a b c d e f g i, l = [a, b, c, d, e, f, g, i] := by
  match l, h with
  | [a, b, c, d, e, f, g, i], _ => exact ⟨a, b, c, d, e, f, g, i, rfl⟩

theorem bits_byteOfBits (l : List Bool) (h : l.length = 8) : bitsOfByte (byteOfBits l) = l := by
  obtain ⟨a, b, c, d, e, f, g, i, rfl⟩ := eq8 l h
  exact byteOfBits_bit a b c d e f g i

theorem byte_ind (P : UInt8 → Prop) (h : ∀ n : Fin 256, P (UInt8.ofNat n.val)) (b : UInt8) : P b := by
  have := h ⟨b.toNat, b.toNat_lt⟩
  simpa using this

theorem byteOfBits_bits (b : UInt8) : byteOfBits (bitsOfByte b) = b := by
  refine byte_ind (fun b => byteOfBits (bitsOfByte b) = b) ?_ b
  decide

theorem unpack_pack (n : Nat) (bits : List Bool) (h : bits.length = 8 * n) : unpackBits (packBits n bits) = bits := by
  induction n generalizing bits with
  | zero =>
    have : bits = [] := List.eq_nil_of_length_eq_zero (by omega)
    subst this; rfl
  | succ n ih =>
    simp only [packBits, unpackBits, List.flatMap_cons]
    have := ih (bits.drop 8) (by simp; omega)
    simp only [unpackBits] at this
    rw [this, bits_byteOfBits _ (by simp; omega), List.take_append_drop]

theorem packBits_length (n : Nat) (bits : List Bool) : (packBits n bits).length = n := by
  induction n generalizing bits with
  | zero => rfl
  | succ n ih => simp [packBits, ih]

theorem pack_unpack (b : Bytes) : packBits b.length (unpackBits b) = b := by
  induction b with
  | nil => rfl
  | cons x b ih =>
    simp only [List.length_cons, packBits, unpackBits, List.flatMap_cons]
    have h8 := bitsOfByte_length x
    rw [List.take_append_of_le_length (by omega), List.take_of_length_le (by omega), byteOfBits_bits,
      List.drop_append_of_le_length (by omega), List.drop_of_length_le (by omega), List.nil_append]
    simp only [unpackBits] at ih
    rw [ih]

/-! ## Oct-tree cells -/

/-- A cell from its three bits. -/
def cellOf (b0 b1 b2 : Bool) : UInt8 :=
  (if b0 then (1 : UInt8) else 0) ||| ((if b1 then (1 : UInt8) else 0) <<< 1) |||
    ((if b2 then (1 : UInt8) else 0) <<< 2)

theorem shift_bit (b : UInt8) (i : Nat) (hi : i < 8) :
    (b >>> i.toUInt8) &&& (1 : UInt8) = if (bitsOfByte b)[i]'(by rw [bitsOfByte_length]; exact hi) then 1 else 0 := by
  have key : ∀ i : Fin 8, ∀ b : UInt8, (b >>> i.val.toUInt8) &&& (1 : UInt8) =
      if (bitsOfByte b)[i.val]'(by rw [bitsOfByte_length]; exact i.isLt) then 1 else 0 := by
    intro i b
    refine byte_ind (fun b => (b >>> i.val.toUInt8) &&& (1 : UInt8) =
      if (bitsOfByte b)[i.val]'(by rw [bitsOfByte_length]; exact i.isLt) then 1 else 0) ?_ b
    revert i
    decide
  exact key ⟨i, hi⟩ b

theorem octCells24_eq (b0 b1 b2 : UInt8) :
    octCells24 b0 b1 b2 = (List.range 8).map fun i =>
      cellOf ((bitsOfByte b0).getD i false) ((bitsOfByte b1).getD i false) ((bitsOfByte b2).getD i false) := by
  unfold octCells24
  apply List.map_congr_left
  intro i hi
  have hi : i < 8 := by simpa using hi
  have hg : ∀ b : UInt8, (bitsOfByte b).getD i false = (bitsOfByte b)[i]'(by rw [bitsOfByte_length]; exact hi) := by
    intro b
    rw [List.getD_eq_getElem?_getD, List.getElem?_eq_getElem (by rw [bitsOfByte_length]; exact hi)]; rfl
  simp only [hg, cellOf]
  rw [shift_bit b0 i hi, shift_bit b1 i hi, shift_bit b2 i hi]

theorem cell_bits (c : UInt8) (h : c < 8) : cellOf (c &&& 1 != 0) (c &&& 2 != 0) (c &&& 4 != 0) = c := by
  revert h
  refine byte_ind (fun c => c < 8 → cellOf (c &&& 1 != 0) (c &&& 2 != 0) (c &&& 4 != 0) = c) ?_ c
  decide

theorem cellOf_lt (a b c : Bool) : cellOf a b c < 8 := by revert a b c; decide

theorem cellOf_bits (a b c : Bool) :
    (cellOf a b c &&& 1 != 0) = a ∧ (cellOf a b c &&& 2 != 0) = b ∧ (cellOf a b c &&& 4 != 0) = c := by
  revert a b c; decide

theorem octCells24_octBytes24 (cells : List UInt8) (hl : cells.length = 8) (hc : ∀ c ∈ cells, c < 8) :
    octCells (octBytes24 cells) = cells := by
  obtain ⟨a, b, c, d, e, f, g, i, rfl⟩ := eq8 cells hl
  simp only [octBytes24, octCells, List.append_nil, octCells24_eq]
  rw [bits_byteOfBits _ (by simp), bits_byteOfBits _ (by simp), bits_byteOfBits _ (by simp)]
  simp only [List.mem_cons, List.not_mem_nil, or_false, forall_eq_or_imp, forall_eq] at hc
  obtain ⟨ha, hb, hc', hd, he, hf, hg, hi⟩ := hc
  simp only [List.range, List.range.loop, List.map_cons, List.map_nil, List.getD_cons_zero, List.getD_cons_succ]
  rw [cell_bits a ha, cell_bits b hb, cell_bits c hc', cell_bits d hd, cell_bits e he, cell_bits f hf, cell_bits g hg,
    cell_bits i hi]

theorem octBytes24_octCells24 (b0 b1 b2 : UInt8) : octBytes24 (octCells24 b0 b1 b2) = [b0, b1, b2] := by
  rw [octCells24_eq]
  simp only [octBytes24, List.map_map]
  have h1 : ∀ b : UInt8, (List.range 8).map (fun i => (bitsOfByte b).getD i false) = bitsOfByte b := fun b => rfl
  have e0 : ((fun c => c &&& 1 != 0) ∘ fun i => cellOf ((bitsOfByte b0).getD i false)
      ((bitsOfByte b1).getD i false) ((bitsOfByte b2).getD i false)) = fun i => (bitsOfByte b0).getD i false := by
    funext i; exact (cellOf_bits _ _ _).1
  have e1 : ((fun c => c &&& 2 != 0) ∘ fun i => cellOf ((bitsOfByte b0).getD i false)
      ((bitsOfByte b1).getD i false) ((bitsOfByte b2).getD i false)) = fun i => (bitsOfByte b1).getD i false := by
    funext i; exact (cellOf_bits _ _ _).2.1
  have e2 : ((fun c => c &&& 4 != 0) ∘ fun i => cellOf ((bitsOfByte b0).getD i false)
      ((bitsOfByte b1).getD i false) ((bitsOfByte b2).getD i false)) = fun i => (bitsOfByte b2).getD i false := by
    funext i; exact (cellOf_bits _ _ _).2.2
  rw [e0, e1, e2, h1, h1, h1, byteOfBits_bits, byteOfBits_bits, byteOfBits_bits]

theorem octBytes_length (n : Nat) (cells : List UInt8) : (octBytes n cells).length = 3 * n := by
  induction n generalizing cells with
  | zero => rfl
  | succ n ih => simp [octBytes, octBytes24, ih]; omega

theorem octCells_append24 (cells : List UInt8) (rest : Bytes) :
    octCells (octBytes24 cells ++ rest) = octCells (octBytes24 cells) ++ octCells rest := by
  simp [octBytes24, octCells]

theorem octCells_octBytes (n : Nat) (cells : List UInt8) (hl : cells.length = 8 * n) (hc : ∀ c ∈ cells, c < 8) :
    octCells (octBytes n cells) = cells := by
  induction n generalizing cells with
  | zero =>
    have : cells = [] := List.eq_nil_of_length_eq_zero (by omega)
    subst this; rfl
  | succ n ih =>
    simp only [octBytes]
    rw [octCells_append24, ih _ (by simp; omega) (fun c h => hc c (List.mem_of_mem_drop h)),
      octCells24_octBytes24 _ (by simp; omega) (fun c h => hc c (List.mem_of_mem_take h)), List.take_append_drop]

theorem octCells24_length (a b c : UInt8) : (octCells24 a b c).length = 8 := by simp [octCells24]

theorem octBytes_octCells (n : Nat) (b : Bytes) (h : b.length = 3 * n) : octBytes n (octCells b) = b := by
  induction n generalizing b with
  | zero =>
    have : b = [] := List.eq_nil_of_length_eq_zero (by omega)
    subst this; rfl
  | succ n ih =>
    match b, h with
    | b0 :: b1 :: b2 :: rest, h =>
      simp only [octCells, octBytes]
      have h8 := octCells24_length b0 b1 b2
      rw [List.take_append_of_le_length (by omega), List.take_of_length_le (by omega), octBytes24_octCells24,
        List.drop_append_of_le_length (by omega), List.drop_of_length_le (by omega), List.nil_append,
        ih rest (by simp at h; omega)]
      rfl

theorem octCells_length (n : Nat) (b : Bytes) (h : b.length = 3 * n) : (octCells b).length = 8 * n := by
  induction n generalizing b with
  | zero =>
    have : b = [] := List.eq_nil_of_length_eq_zero (by omega)
    subst this; rfl
  | succ n ih =>
    match b, h with
    | b0 :: b1 :: b2 :: rest, h =>
      simp only [octCells, List.length_append, octCells24_length]
      rw [ih rest (by simp at h; omega)]; omega

theorem octCells_lt (n : Nat) (b : Bytes) (h : b.length = 3 * n) : ∀ c ∈ octCells b, c < 8 := by
  induction n generalizing b with
  | zero =>
    have : b = [] := List.eq_nil_of_length_eq_zero (by omega)
    subst this; simp [octCells]
  | succ n ih =>
    match b, h with
    | b0 :: b1 :: b2 :: rest, h =>
      intro c hc
      simp only [octCells, List.mem_append] at hc
      rcases hc with hc | hc
      · rw [octCells24_eq] at hc
        obtain ⟨i, _, rfl⟩ := List.mem_map.1 hc
        exact cellOf_lt _ _ _
      · exact ih rest (by simp at h; omega) c hc

end Rap
