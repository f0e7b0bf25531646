import Verif.Proof.Encoders

/-! # Capture times -/

namespace Rap

theorem clean_decTime64Loop (ts : List F64) (rest : Bytes) :
    (decTime64Loop ts.length).clean (encTime64 ts ++ rest) = some (ts, rest) := by
  induction ts with
  | nil => rfl
  | cons t ts ih =>
    simp only [encTime64, List.map_cons, List.flatten_cons, List.append_assoc, List.length_cons, decTime64Loop]
    rw [Prog.clean_readFull _ _ _ _ (leBytes_length 8 _)]
    simp only [Option.isSome_none, Bool.false_eq_true, if_false, ofNat_leNat_leBytes 64 8 rfl, Prog.bind_eq]
    simp only [encTime64] at ih
    rw [Prog.clean_bind_of ih]
    rfl

theorem clean_decTime32Loop (ts : List F64) (rest : Bytes) :
    (decTime32Loop ts.length).clean (encTime32 ts ++ rest) = some (ts.map near32, rest) := by
  induction ts with
  | nil => rfl
  | cons t ts ih =>
    simp only [encTime32, List.map_cons, List.flatten_cons, List.append_assoc, List.length_cons, decTime32Loop,
      Prog.bind_eq]
    rw [Prog.clean_bind_of (clean_readF32 _ _ _)]
    simp only [Prog.bind_eq]
    simp only [encTime32] at ih
    rw [Prog.clean_bind_of ih]
    rfl

theorem clean_decTimeBstLoop (gap gap' total cur : F64) (ts : List F64) (buf rest : Bytes) (hb : buf.length = 2) :
    (decTimeBstLoop gap' ts.length cur buf).clean (encTimeLoop gap total ts ++ rest) =
      some (timeSums gap' cur (timeCodes gap total ts), rest) := by
  induction ts generalizing total cur buf with
  | nil => rfl
  | cons t ts ih =>
    simp only [encTimeLoop, List.append_assoc, List.length_cons, decTimeBstLoop, Prog.bind_eq, timeCodes, timeSums]
    rw [Prog.clean_bind_of (clean_readInto buf _ _ (by rw [bstEnc_length, hb]) (by omega))]
    simp only [Prog.bind_eq]
    rw [Prog.clean_bind_of (ih _ _ _ (bstEnc_length _ _ _ _))]
    rfl

theorem timeCodes_length (gap total : F64) (ts : List F64) : (timeCodes gap total ts).length = ts.length := by
  induction ts generalizing total with
  | nil => rfl
  | cons t ts ih => simp [timeCodes, ih]

theorem timeSums_length (gap cur : F64) (bs : List Bytes) : (timeSums gap cur bs).length = bs.length := by
  induction bs generalizing cur with
  | nil => rfl
  | cons t ts ih => simp [timeSums, ih]

theorem bstTimes_length (ts : List F64) : (bstTimes ts).length = ts.length := by
  match ts with
  | [] => rfl
  | [t] => rfl
  | t :: u :: ts => simp [bstTimes, timeSums_length, timeCodes_length]

theorem storedTimes_length (tech : Nat) (ts : List F64) : (storedTimes tech ts).length = ts.length := by
  unfold storedTimes
  split
  · rfl
  · split
    · simp
    · exact bstTimes_length ts

theorem encTimeLoop_length (gap total : F64) (ts : List F64) : (encTimeLoop gap total ts).length = 2 * ts.length := by
  induction ts generalizing total with
  | nil => rfl
  | cons t ts ih => simp [encTimeLoop, ih, bstEnc_length]; omega

theorem flatten_length_const {α : Type} (f : α → Bytes) (n : Nat) (hf : ∀ x, (f x).length = n) (l : List α) :
    ((l.map f).flatten).length = n * l.length := by
  induction l with
  | nil => simp
  | cons a l ih => simp only [List.map_cons, List.flatten_cons, List.length_append, hf, ih, List.length_cons,
      Nat.mul_add, Nat.mul_one]; omega

theorem encTime_count (tech : Nat) (ht : tech ≤ 2) (ts : List F64) : ts.length ≤ (encTime tech ts).length := by
  simp only [encTime, List.length_cons, List.length_append]
  have h64 := flatten_length_const (fun t : F64 => leBytes 8 t.toNat) 8 (fun _ => leBytes_length _ _) ts
  have h32 := flatten_length_const putF32 4 putF32_length ts
  split
  · simp only [encTime64, h64]; omega
  · split
    · simp only [encTime32, h32]; omega
    · rw [if_pos (by omega)]
      match ts with
      | [] => simp
      | [t] => simp
      | t :: u :: ts => simp [encTimeBst, encTimeLoop_length]; omega

theorem clean_decTimeBst (ts : List F64) (rest : Bytes) (h : ts.length * 8 ≤ maxAlloc) :
    (decTimeBst ts.length).clean (encTimeBst ts ++ rest) = some ((bstTimes ts, none), rest) := by
  match ts, h with
  | [], _ => rfl
  | [t], _ =>
    simp only [encTimeBst, List.length_cons, List.length_nil, decTimeBst, Prog.bind_eq, bstTimes]
    rw [Prog.clean_bind_of (clean_readF32 _ _ _)]
    rfl
  | t :: u :: ts, h =>
    simp only [encTimeBst, decTimeBst, List.length_cons, Prog.bind_eq, bstTimes, List.append_assoc]
    rw [Prog.clean_bind_of (clean_readF32 _ _ _)]
    simp only [Nat.add_eq_zero_iff, Nat.succ_ne_self, and_false, if_false, Prog.bind_eq]
    rw [Prog.clean_bind_of (clean_readF32 _ _ _)]
    simp only [Prog.bind_eq]
    rw [Prog.clean_make _ _ _ _ (by simpa using h)]
    have := clean_decTimeBstLoop (maxGap (t :: u :: ts)) (near32 (maxGap (t :: u :: ts))) (startTime (t :: u :: ts))
      (near32 (startTime (t :: u :: ts))) (u :: ts) [0, 0] rest rfl
    rw [List.length_cons] at this
    simp only [near32] at this
    rw [Prog.clean_bind_of this]
    rfl

theorem clean_decTime (tech : Nat) (ht : tech ≤ 2) (ts : List F64) (rest : Bytes)
    (h : (encTime tech ts).length ≤ sizeLimit) :
    decTime.clean (encTime tech ts ++ rest) = some ((storedTimes tech ts, none), rest) := by
  have hc := encTime_count tech ht ts
  have hm : ts.length * 8 ≤ maxAlloc := by simp only [sizeLimit, maxAlloc] at *; omega
  have h64 : ts.length < 2 ^ 64 := by simp only [sizeLimit] at *; omega
  simp only [encTime, List.cons_append, List.append_assoc, decTime, u64_of_lt h64]
  rw [Prog.clean_read1]
  simp only [Prog.bind_eq]
  rw [Prog.clean_bind_of (clean_readUvarint _ _ h64)]
  have h3 : tech = 0 ∨ tech = 1 ∨ tech = 2 := by omega
  rcases h3 with rfl | rfl | rfl
  · simp only [if_true, List.headD_cons]
    show ((Prog.make ts.length 8).bind _).clean _ = _
    rw [Prog.clean_make _ _ _ _ hm]
    rw [Prog.clean_bind_of (clean_decTime64Loop ts rest)]
    rfl
  · show ((Prog.make ts.length 8).bind _).clean _ = _
    rw [Prog.clean_make _ _ _ _ hm]
    simp only [Prog.bind_eq]
    show (Prog.bind _ _).clean (encTime32 ts ++ rest) = _
    rw [Prog.clean_bind_of (clean_decTime32Loop ts rest)]
    rfl
  · show (decTimeBst ts.length).clean (encTimeBst ts ++ rest) = _
    rw [clean_decTimeBst ts rest hm]
    rfl

end Rap
