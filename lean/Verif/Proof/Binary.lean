import Verif.Model.Binary
import Verif.Proof.Prog

/-! # Round trips of the byte-level codecs under the `clean` semantics -/

namespace Rap

theorem u64_of_lt {n : Nat} (h : n < 2 ^ 64) : u64 n = n := Nat.mod_eq_of_lt h

theorem toUInt8_toNat (n : Nat) : n.toUInt8.toNat = n % 256 := by
  simp [Nat.toUInt8, UInt8.toNat_ofNat']

theorem putUvarint_lt {x : Nat} (h : x < 128) : putUvarint x = [x.toUInt8] := by
  rw [putUvarint, if_pos h]

theorem putUvarint_ge {x : Nat} (h : ¬ x < 128) :
    putUvarint x = (x.toUInt8 ||| 0x80) :: putUvarint (x / 128) := by
  rw [putUvarint, if_neg h, Nat.shiftRight_eq_div_pow]

theorem putUvarint_ne_nil (x : Nat) : putUvarint x ≠ [] := by
  by_cases h : x < 128
  · simp [putUvarint_lt h]
  · simp [putUvarint_ge h]

theorem putUvarint_length_pos (x : Nat) : 1 ≤ (putUvarint x).length := by
  have := putUvarint_ne_nil x
  cases h : putUvarint x <;> simp_all

theorem or_add {x b s : Nat} (hx : x < 2 ^ s) : x ||| b <<< s = x + b * 2 ^ s := by
  rw [Nat.or_comm, ← Nat.shiftLeft_add_eq_or_of_lt hx, Nat.shiftLeft_eq, Nat.add_comm]

theorem low7 (v : Nat) : ((v.toUInt8 ||| 0x80) &&& 0x7f).toNat = v % 128 := by
  rw [UInt8.toNat_and, UInt8.toNat_or, toUInt8_toNat]
  have h1 : (0x7f : UInt8).toNat = 2 ^ 7 - 1 := rfl
  have h2 : (0x80 : UInt8).toNat = 2 ^ 7 := rfl
  rw [h1, h2, Nat.and_two_pow_sub_one_eq_mod, Nat.or_mod_two_pow]
  simp

theorem high8 (v : Nat) : ¬ ((v.toUInt8 ||| 0x80) < 0x80) := by
  rw [UInt8.lt_iff_toNat_lt, UInt8.toNat_or]
  have : (0x80 : UInt8).toNat ≤ v.toUInt8.toNat ||| (0x80 : UInt8).toNat := Nat.right_le_or
  omega

theorem clean_uvarintLoop_step (fuel i : Nat) (b c : UInt8) (x s t : Nat) (rest : Bytes) :
    (readUvarintLoop (fuel + 1) i b x s t).clean (c :: rest) =
      (if c < 0x80 then
          if i == 9 && c > 1 then .pure (x, t + 1, some .overflow)
          else .pure (u64 (x ||| c.toNat <<< s), i + 1, none)
        else readUvarintLoop fuel (i + 1) c (u64 (x ||| (c &&& 0x7f).toNat <<< s)) (s + 7) (t + 1) :
          Prog (Nat × Nat × Option Err)).clean rest := by
  rw [readUvarintLoop, Prog.clean_read1]; rfl

theorem clean_uvarintLoop (fuel i : Nat) (b : UInt8) (x t v : Nat) (rest : Bytes)
    (hf : fuel + i = 10) (hi : i < 10) (hx : x < 2 ^ (7 * i)) (hv : v < 2 ^ (64 - 7 * i)) (ht : t = i) :
    (readUvarintLoop fuel i b x (7 * i) t).clean (putUvarint v ++ rest) =
      some ((x + v * 2 ^ (7 * i), i + (putUvarint v).length, none), rest) := by
  induction fuel generalizing i b x t v with
  | zero => omega
  | succ fuel ih =>
    have hi9 : i ≤ 9 := by omega
    have hlt64 : x + v * 2 ^ (7 * i) < 2 ^ 64 := by
      have h1 : 2 ^ 64 = 2 ^ (64 - 7 * i) * 2 ^ (7 * i) := by rw [← Nat.pow_add]; congr 1; omega
      have h2 : (v + 1) * 2 ^ (7 * i) ≤ 2 ^ (64 - 7 * i) * 2 ^ (7 * i) := Nat.mul_le_mul_right _ hv
      rw [Nat.add_mul] at h2
      omega
    by_cases h : v < 128
    · rw [putUvarint_lt h]
      rw [List.cons_append, List.nil_append, clean_uvarintLoop_step]
      have hb : v.toUInt8 < 0x80 := by
        rw [UInt8.lt_iff_toNat_lt, toUInt8_toNat]
        have : (0x80 : UInt8).toNat = 128 := rfl
        omega
      have h9 : (i == 9 && decide (v.toUInt8 > 1)) = false := by
        by_cases hi' : i = 9
        · subst hi'
          have : v < 2 := by simpa using hv
          have : ¬ v.toUInt8 > 1 := by
            rw [gt_iff_lt, UInt8.lt_iff_toNat_lt, toUInt8_toNat]
            have : (1 : UInt8).toNat = 1 := rfl
            omega
          simp [this]
        · simp [hi']
      rw [if_pos hb, h9]
      simp only [Bool.false_eq_true, if_false, Prog.clean_pure]
      rw [toUInt8_toNat, Nat.mod_eq_of_lt (by omega : v < 256), or_add hx, u64_of_lt hlt64]
      simp
    · rw [putUvarint_ge h]
      rw [List.cons_append, clean_uvarintLoop_step, if_neg (high8 v), low7, or_add hx]
      have hi8 : i ≤ 8 := by
        by_cases hi' : i = 9
        · subst hi'; simp at hv; omega
        · omega
      have hle : x + v % 128 * 2 ^ (7 * i) < 2 ^ (7 * (i + 1)) := by
        have h1 : 2 ^ (7 * (i + 1)) = 128 * 2 ^ (7 * i) := by
          rw [Nat.mul_add, Nat.pow_add]; simp [Nat.mul_comm]
        have h2 : (v % 128 + 1) * 2 ^ (7 * i) ≤ 128 * 2 ^ (7 * i) :=
          Nat.mul_le_mul_right _ (by omega)
        rw [Nat.add_mul] at h2
        omega
      have h64 : x + v % 128 * 2 ^ (7 * i) < 2 ^ 64 :=
        Nat.lt_of_lt_of_le hle (Nat.pow_le_pow_right (by omega) (by omega))
      rw [u64_of_lt h64]
      have hv' : v / 128 < 2 ^ (64 - 7 * (i + 1)) := by
        rw [Nat.div_lt_iff_lt_mul (by omega)]
        have : 2 ^ (64 - 7 * i) = 2 ^ (64 - 7 * (i + 1)) * 128 := by
          rw [show (128 : Nat) = 2 ^ 7 from rfl, ← Nat.pow_add]; congr 1; omega
        omega
      have := ih (i + 1) (v.toUInt8 ||| 0x80) (x + v % 128 * 2 ^ (7 * i)) (t + 1) (v / 128)
        (by omega) (by omega) hle hv' (by omega)
      rw [Nat.mul_add, Nat.mul_one] at this
      simp only [List.length_cons, List.length_nil, Nat.zero_add]
      rw [this, Nat.pow_add]
      have hval : x + v % 128 * 2 ^ (7 * i) + v / 128 * (2 ^ (7 * i) * 2 ^ 7) = x + v * 2 ^ (7 * i) := by
        have : v = v % 128 + 128 * (v / 128) := (Nat.mod_add_div v 128).symm
        conv => rhs; rw [this]
        rw [Nat.add_mul, Nat.add_assoc]; congr 2
        rw [Nat.mul_comm 128, Nat.mul_assoc, Nat.mul_comm 128]
      rw [hval]
      congr 2; congr 1; congr 1; omega

theorem clean_readUvarint (v : Nat) (rest : Bytes) (hv : v < 2 ^ 64) :
    readUvarint.clean (putUvarint v ++ rest) = some ((v, (putUvarint v).length, none), rest) := by
  have := clean_uvarintLoop 10 0 0 0 0 v rest (by omega) (by omega) (by simp) (by simpa using hv) rfl
  simpa [readUvarint] using this

theorem putUvarint_length_le {v : Nat} (hv : v < 2 ^ 64) : (putUvarint v).length ≤ 10 := by
  have aux : ∀ (k v : Nat), v < 2 ^ (7 * k) → 1 ≤ k → (putUvarint v).length ≤ k := by
    intro k
    induction k with
    | zero => intro v _ h; omega
    | succ k ih =>
      intro v hv _
      by_cases h : v < 128
      · rw [putUvarint_lt h]; simp
      · rw [putUvarint_ge h, List.length_cons]
        have h1 : v / 128 < 2 ^ (7 * k) := by
          rw [Nat.div_lt_iff_lt_mul (by omega)]
          have : 2 ^ (7 * (k + 1)) = 2 ^ (7 * k) * 128 := by rw [Nat.mul_add, Nat.pow_add]
          omega
        have hk : 1 ≤ k := by
          cases k with
          | zero => simp at h1; omega
          | succ => omega
        exact Nat.succ_le_succ (ih _ h1 hk)
  exact aux 10 v (Nat.lt_of_lt_of_le hv (Nat.pow_le_pow_right (by omega) (by omega))) (by omega)

/-! ## Strings and byte blocks -/

theorem clean_readString (s rest : Bytes) (hs : s.length ≤ maxAlloc) :
    readString.clean (stringToBytes s ++ rest) = some ((s, (stringToBytes s).length, none), rest) := by
  have h64 : s.length < 2 ^ 64 := Nat.lt_of_le_of_lt hs (by decide)
  rw [stringToBytes, u64_of_lt h64, List.append_assoc]
  simp only [readString, Prog.bind_eq]
  rw [Prog.clean_bind_of (clean_readUvarint _ _ h64)]
  simp only
  rw [Prog.clean_make _ _ _ _ (by omega), Prog.clean_readFull _ _ _ _ rfl]
  simp

theorem clean_readBytesArray (s rest : Bytes) (hs : s.length ≤ maxAlloc) :
    readBytesArray.clean (bytesArrayToBytes s ++ rest) = some ((s, (bytesArrayToBytes s).length, none), rest) := by
  have h64 : s.length < 2 ^ 64 := Nat.lt_of_le_of_lt hs (by decide)
  rw [bytesArrayToBytes, u64_of_lt h64, List.append_assoc]
  simp only [readBytesArray, Prog.bind_eq]
  rw [Prog.clean_bind_of (clean_readUvarint _ _ h64)]
  simp only
  rw [Prog.clean_make _ _ _ _ (by omega), Prog.clean_readFull _ _ _ _ rfl]
  simp [Nat.add_comm]

theorem clean_readStringLoop (strs : List Bytes) (acc : List Bytes) (n : Nat) (rest : Bytes)
    (hs : ∀ s ∈ strs, s.length ≤ maxAlloc) :
    (readStringLoop strs.length acc n).clean ((strs.map stringToBytes).flatten ++ rest) =
      some ((acc.reverse ++ strs, n + (strs.map stringToBytes).flatten.length, none), rest) := by
  induction strs generalizing acc n with
  | nil => simp [readStringLoop]
  | cons s strs ih =>
    simp only [List.length_cons, readStringLoop, Prog.bind_eq, List.map_cons, List.flatten_cons, List.append_assoc]
    rw [Prog.clean_bind_of (clean_readString _ _ (hs s (by simp)))]
    simp only
    rw [ih _ _ (fun t ht => hs t (by simp [ht]))]
    simp [Nat.add_assoc]

theorem clean_readStringArray (strs : List Bytes) (rest : Bytes) (hs : ∀ s ∈ strs, s.length ≤ maxAlloc)
    (hl : strs.length * 16 ≤ maxAlloc) :
    readStringArray.clean (stringArrayToBytes strs ++ rest) =
      some ((strs, (stringArrayToBytes strs).length, none), rest) := by
  have h64 : strs.length < 2 ^ 64 := Nat.lt_of_le_of_lt (Nat.le_trans (by omega) hl) (by decide)
  rw [stringArrayToBytes, u64_of_lt h64, List.append_assoc]
  simp only [readStringArray, Prog.bind_eq]
  rw [Prog.clean_bind_of (clean_readUvarint _ _ h64)]
  simp only
  rw [Prog.clean_make _ _ _ _ hl, clean_readStringLoop _ _ _ _ hs]
  simp

theorem clean_readUvarIntLoop (xs : List Nat) (acc : List Nat) (n : Nat) (rest : Bytes)
    (hx : ∀ x ∈ xs, x < 2 ^ 64) :
    (readUvarIntLoop xs.length acc n).clean ((xs.map fun x => putUvarint (u64 x)).flatten ++ rest) =
      some ((acc.reverse ++ xs, n + (xs.map fun x => putUvarint (u64 x)).flatten.length, none), rest) := by
  induction xs generalizing acc n with
  | nil => simp [readUvarIntLoop]
  | cons s xs ih =>
    simp only [List.length_cons, readUvarIntLoop, Prog.bind_eq, List.map_cons, List.flatten_cons, List.append_assoc]
    rw [u64_of_lt (hx s (by simp)), Prog.clean_bind_of (clean_readUvarint _ _ (hx s (by simp)))]
    simp only
    rw [ih _ _ (fun t ht => hx t (by simp [ht]))]
    simp [Nat.add_assoc]

theorem clean_readUvarIntArray (xs : List Nat) (rest : Bytes) (hx : ∀ x ∈ xs, x < 2 ^ 64)
    (hl : xs.length * 8 ≤ maxAlloc) :
    readUvarIntArray.clean (uvarintArrayToBytes xs ++ rest) =
      some ((xs, (uvarintArrayToBytes xs).length, none), rest) := by
  have h64 : xs.length < 2 ^ 64 := Nat.lt_of_le_of_lt (Nat.le_trans (by omega) hl) (by decide)
  rw [uvarintArrayToBytes, u64_of_lt h64, List.append_assoc]
  simp only [readUvarIntArray, Prog.bind_eq]
  rw [Prog.clean_bind_of (clean_readUvarint _ _ h64)]
  simp only
  rw [Prog.clean_make _ _ _ _ hl, clean_readUvarIntLoop _ _ _ _ hx]
  simp

/-! ## Sizes -/

theorem length_le_stringToBytes (s : Bytes) : s.length ≤ (stringToBytes s).length := by
  simp [stringToBytes]

theorem length_le_flatten {α : Type} (f : α → Bytes) (l : List α) (h : ∀ x ∈ l, 1 ≤ (f x).length) :
    l.length ≤ (l.map f).flatten.length := by
  induction l with
  | nil => simp
  | cons x l ih =>
    have h1 := h x (by simp)
    have h2 := ih fun y hy => h y (by simp [hy])
    simp only [List.map_cons, List.flatten_cons, List.length_append, List.length_cons]
    omega

theorem stringToBytes_pos (s : Bytes) : 1 ≤ (stringToBytes s).length := by
  have := putUvarint_length_pos (u64 s.length)
  simp only [stringToBytes, List.length_append]; omega

theorem mem_length_le_flatten {α : Type} (f : α → Bytes) (l : List α) {x : α} (hx : x ∈ l) :
    (f x).length ≤ (l.map f).flatten.length := by
  induction l with
  | nil => simp at hx
  | cons y l ih =>
    simp only [List.map_cons, List.flatten_cons, List.length_append]
    rcases List.mem_cons.1 hx with rfl | h
    · omega
    · have := ih h; omega

theorem length_le_stringArray (strs : List Bytes) : strs.length ≤ (stringArrayToBytes strs).length := by
  have := length_le_flatten stringToBytes strs fun s _ => stringToBytes_pos s
  simp only [stringArrayToBytes, List.length_append]; omega

theorem mem_le_stringArray {strs : List Bytes} {s : Bytes} (h : s ∈ strs) :
    s.length ≤ (stringArrayToBytes strs).length := by
  have := mem_length_le_flatten stringToBytes strs h
  have := length_le_stringToBytes s
  simp only [stringArrayToBytes, List.length_append]; omega

theorem length_le_uvarintArray (xs : List Nat) : xs.length ≤ (uvarintArrayToBytes xs).length := by
  have := length_le_flatten (fun x => putUvarint (u64 x)) xs fun s _ => putUvarint_length_pos _
  simp only [uvarintArrayToBytes, List.length_append]; omega

/-! ## Little endian -/

theorem leBytes_length (k n : Nat) : (leBytes k n).length = k := by
  induction k generalizing n with
  | zero => rfl
  | succ k ih => simp [leBytes, ih]

theorem leNat_leBytes (k n : Nat) : leNat (leBytes k n) = n % 256 ^ k := by
  induction k generalizing n with
  | zero => simp [leBytes, leNat, Nat.mod_one]
  | succ k ih =>
    simp only [leBytes, leNat, ih, toUInt8_toNat]
    rw [Nat.pow_succ, Nat.mul_comm (256 ^ k) 256, Nat.mod_mul]

theorem leNat_lt (b : Bytes) : leNat b < 256 ^ b.length := by
  induction b with
  | nil => simp [leNat]
  | cons x b ih =>
    simp only [leNat, List.length_cons, Nat.pow_succ]
    have := x.toNat_lt
    omega

theorem leBytes_leNat (b : Bytes) : leBytes b.length (leNat b) = b := by
  induction b with
  | nil => rfl
  | cons x b ih =>
    simp only [leNat, List.length_cons, leBytes]
    have hx := x.toNat_lt
    congr 1
    · apply UInt8.toNat_inj.1; rw [toUInt8_toNat]; omega
    · rw [show (x.toNat + 256 * leNat b) / 256 = leNat b by omega, ih]

end Rap
