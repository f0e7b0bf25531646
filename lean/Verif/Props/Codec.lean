import Verif.Proof.Binary

/-!
# C01, C02, C03: integers, strings, arrays, and the error-tracking reader

Everything is stated on bytes in memory (`Flat`), followed by arbitrary bytes `rest`; `fin` is the error the source
reports at its end. `Props/Delivery.lean` extends it to sources that deliver pieces.
-/

namespace Rap

/-- C01: a 64-bit integer is read back, with the number of bytes written, and what follows is left unread. -/
theorem C01_uvarint_roundtrip (v : Nat) (hv : v < 2 ^ 64) (rest : Bytes) (fin : Err) :
    readUvarint.run (⟨putUvarint v ++ rest, fin⟩ : Flat) =
      .ok ((v, (putUvarint v).length, none), ⟨rest, fin⟩) :=
  Prog.clean_flat fin (clean_readUvarint v rest hv)

example : putUvarint 300 = [0xAC, 0x02] := by
  rw [putUvarint_ge (by decide), putUvarint_lt (by decide)]; decide

/-- C01: at most `k` bytes are used exactly when the integer fits in `k` groups of 7 bits. -/
theorem C01_uvarint_length (v k : Nat) (hk : 1 ≤ k) : (putUvarint v).length ≤ k ↔ v < 2 ^ (7 * k) := by
  induction k generalizing v with
  | zero => omega
  | succ k ih =>
    by_cases h : v < 128
    · rw [putUvarint_lt h]
      have : 2 ^ 7 ≤ 2 ^ (7 * (k + 1)) := Nat.pow_le_pow_right (by omega) (by omega)
      simp only [List.length_singleton]; omega
    · rw [putUvarint_ge h, List.length_cons]
      by_cases hk0 : k = 0
      · subst hk0
        have := putUvarint_length_pos (v / 128)
        omega
      · have h1 := ih (v / 128) (by omega)
        have h2 : 2 ^ (7 * (k + 1)) = 128 * 2 ^ (7 * k) := by
          rw [Nat.mul_add, Nat.pow_add]; omega
        rw [h2]
        have h3 : v / 128 < 2 ^ (7 * k) ↔ v < 128 * 2 ^ (7 * k) := by
          rw [Nat.div_lt_iff_lt_mul (by omega), Nat.mul_comm]
        omega

/-- C01: between 1 and 10 bytes. -/
theorem C01_uvarint_length_bounds (v : Nat) (hv : v < 2 ^ 64) :
    1 ≤ (putUvarint v).length ∧ (putUvarint v).length ≤ 10 :=
  ⟨putUvarint_length_pos v, putUvarint_length_le hv⟩

example : (putUvarint (2 ^ 64 - 1)).length = 10 := by
  have h1 := putUvarint_length_le (v := 2 ^ 64 - 1) (by decide)
  have h2 := (C01_uvarint_length (2 ^ 64 - 1) 9 (by omega)).1
  have h3 : ¬ (putUvarint (2 ^ 64 - 1)).length ≤ 9 := fun h => absurd (h2 h) (by decide)
  omega

/-- C02: a string. The bound is Go's allocation limit (2^48 bytes). -/
theorem C02_string_roundtrip (s rest : Bytes) (fin : Err) (hs : s.length ≤ maxAlloc) :
    readString.run (⟨stringToBytes s ++ rest, fin⟩ : Flat) =
      .ok ((s, (stringToBytes s).length, none), ⟨rest, fin⟩) :=
  Prog.clean_flat fin (clean_readString s rest hs)

example : readString.run (⟨stringToBytes [0xff, 0x00] ++ [7], .eof⟩ : Flat) =
    .ok (([0xff, 0x00], 3, none), ⟨[7], .eof⟩) := by
  rw [C02_string_roundtrip _ _ _ (by decide)]
  simp [stringToBytes, u64, putUvarint_lt]

/-- C02: a block of bytes. -/
theorem C02_bytes_roundtrip (s rest : Bytes) (fin : Err) (hs : s.length ≤ maxAlloc) :
    readBytesArray.run (⟨bytesArrayToBytes s ++ rest, fin⟩ : Flat) =
      .ok ((s, (bytesArrayToBytes s).length, none), ⟨rest, fin⟩) :=
  Prog.clean_flat fin (clean_readBytesArray s rest hs)

example : (List.replicate 300 (5 : UInt8)).length ≤ maxAlloc := by rw [List.length_replicate]; decide

/-- C02: a list of strings. The bounds are Go's allocation limit for the slice (16 bytes per string) and for each
string. -/
theorem C02_stringArray_roundtrip (strs : List Bytes) (rest : Bytes) (fin : Err)
    (hs : ∀ s ∈ strs, s.length ≤ maxAlloc) (hl : strs.length * 16 ≤ maxAlloc) :
    readStringArray.run (⟨stringArrayToBytes strs ++ rest, fin⟩ : Flat) =
      .ok ((strs, (stringArrayToBytes strs).length, none), ⟨rest, fin⟩) :=
  Prog.clean_flat fin (clean_readStringArray strs rest hs hl)

example : (∀ s ∈ ([[1, 2], [], [3]] : List Bytes), s.length ≤ maxAlloc) ∧
    ([[1, 2], [], [3]] : List Bytes).length * 16 ≤ maxAlloc := by decide

/-- C02: a list of 64-bit integers. -/
theorem C02_uvarintArray_roundtrip (xs : List Nat) (rest : Bytes) (fin : Err) (hx : ∀ x ∈ xs, x < 2 ^ 64)
    (hl : xs.length * 8 ≤ maxAlloc) :
    readUvarIntArray.run (⟨uvarintArrayToBytes xs ++ rest, fin⟩ : Flat) =
      .ok ((xs, (uvarintArrayToBytes xs).length, none), ⟨rest, fin⟩) :=
  Prog.clean_flat fin (clean_readUvarIntArray xs rest hx hl)

example : (∀ x ∈ [0, 300, 2 ^ 63], x < 2 ^ 64) ∧ [0, 300, 2 ^ 63].length * 8 ≤ maxAlloc := by decide

/-! ## C03 -/

/-- C03: after a failure, a read of any size delivers nothing, reports the same error, and leaves everything (source,
stored error, count) as it is. -/
theorem C03_failed_read_repeats {σ : Type} [Src σ] (er : ER σ) (e : Err) (h : er.err = some e) (n : Nat) :
    Src.read n er = ([], some e, er) ∧ (n ≠ 0 → Src.readFull n er = ([], some e, er)) := by
  have : ER.doRead n er = ([], some e, er) := by simp [ER.doRead, h]
  exact ⟨this, fun h0 => by simp only [Src.readFull, if_neg h0, this]⟩

/-- C03: no code whatsoever that uses a failed reader changes its state: nothing is taken from the source. -/
theorem C03_failed_stays_failed {σ α : Type} [Src σ] (p : Prog α) (er : ER σ) (e : Err) (h : er.err = some e) :
    ∀ a er', p.run er = .ok (a, er') → er' = er := by
  induction p with
  | pure a => intro a er' h'; simp only [Prog.run, Except.ok.injEq, Prod.mk.injEq] at h'; exact h'.2.symm
  | panic x => intro a er' h'; simp [Prog.run] at h'
  | read n k ih =>
    intro a er' h'
    simp only [Prog.run, (C03_failed_read_repeats er e h n).1] at h'
    exact ih _ _ _ _ h'
  | readFull n k ih =>
    intro a er' h'
    by_cases h0 : n = 0
    · subst h0
      simp only [Prog.run, Src.readFull, if_true] at h'
      exact ih _ _ _ _ h'
    · simp only [Prog.run, (C03_failed_read_repeats er e h n).2 h0] at h'
      exact ih _ _ _ _ h'
  | erErr k ih => intro a er' h'; exact ih _ _ _ h'

/-- C03: a read that fails records its error. -/
theorem C03_failure_is_recorded {σ : Type} [Src σ] (er : ER σ) (n : Nat) (b : Bytes) (e : Err) (er' : ER σ)
    (h : Src.read n er = (b, some e, er')) : er'.err = some e := by
  simp only [Src.read, ER.doRead] at h
  split at h
  · rename_i x hx
    simp only [Prod.mk.injEq] at h
    rw [← h.2.2, hx, h.2.1]
  · rename_i hx
    simp only [Prod.mk.injEq] at h
    rw [← h.2.2]; exact h.2.1

/-- C03: whatever code runs on the reader, the reported total is the number of bytes taken from the source. -/
theorem C03_count_is_bytes_taken {α : Type} (p : Prog α) (er : ER Flat) (a : α) (er' : ER Flat)
    (h : p.run er = .ok (a, er')) : er'.n + er'.src.data.length = er.n + er.src.data.length := by
  have hread : ∀ n (er : ER Flat), (ER.doRead n er).2.2.n + (ER.doRead n er).2.2.src.data.length =
      er.n + er.src.data.length := by
    intro n er
    simp only [ER.doRead]
    split
    · rfl
    · simp only [Src.readFull]
      split
      · rename_i hn
        simp only [List.length_take, List.length_drop]; omega
      · simp
  induction p generalizing er with
  | pure a => simp only [Prog.run, Except.ok.injEq, Prod.mk.injEq] at h; rw [h.2]
  | panic x => simp [Prog.run] at h
  | read n k ih =>
    have := ih _ _ _ h
    rw [this]; exact hread n er
  | readFull n k ih =>
    by_cases h0 : n = 0
    · subst h0
      simp only [Prog.run, Src.readFull, if_true] at h
      exact ih _ _ _ h
    · simp only [Prog.run, Src.readFull, if_neg h0] at h
      rw [ih _ _ _ h, hread n er]
  | erErr k ih => exact ih _ _ h

/-- A reader that runs out: two bytes asked for four, then for one. -/
example : (Src.read 4 (ER.new (⟨[1, 2], .eof⟩ : Flat))).2.2.err = some .unexpectedEOF ∧
    (Src.read 4 (ER.new (⟨[1, 2], .eof⟩ : Flat))).2.2.n = 2 := by decide

end Rap
