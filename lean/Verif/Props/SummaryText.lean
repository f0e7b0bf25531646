import Verif.Props.Summary
import Verif.Proof.Json

/-!
# C40: the first lines of a summary
-/

namespace Rap

/-- A size in bytes, in kilobytes from 1024 bytes on, in megabytes from 1024 kilobytes on. `two` is formatting with two
decimals. -/
def SizeText (two : F64 → Bytes) (size : Nat) (text : Bytes) : Prop :=
  if size < 2 ^ 10 then ∃ d, text = d ++ b!"b" ∧ IsDecimal d size
  else if size < 2 ^ 20 then ∃ x, text = two x ++ b!"kb" ∧ number64 x = .fin (size / 2 ^ 10)
  else ∃ x, text = two x ++ b!"mb" ∧ number64 x = .fin (size / 2 ^ 20)

theorem f1024_val : f1024.isFinite = true ∧ f1024.toRat = 1024 := by decide +kernel

theorem rn_share {n j : Nat} (hn : n ≤ 2 ^ 53) (hj : j ≤ 1074) : rn b64 ((n : ℚ) / 2 ^ j) = n / 2 ^ j := by
  refine rn_dyadic hn (j := 1074 - j) ?_ ?_
  · rw [abs_of_nonneg (by positivity), mul_assoc]
    have h1 : (2 : ℚ) ^ (1074 - j) * 2 ^ j = 2 ^ 1074 := by rw [← pow_add, Nat.sub_add_cancel hj]
    have h2 : (1 : ℚ) = 2 ^ 1074 * tiny := one_tiny
    rw [← h1] at h2
    have hq : (2 : ℚ) ^ j ≠ 0 := by positivity
    generalize (2 : ℚ) ^ (1074 - j) = P at h2
    generalize (2 : ℚ) ^ j = Q at h2 hq
    generalize tiny = t at h2
    rw [div_eq_iff hq]
    calc (n : ℚ) = n * 1 := (mul_one _).symm
      _ = n * (P * Q * t) := by rw [← h2]
      _ = _ := by ring
  · rw [abs_of_nonneg (by positivity)]
    have h1 : (n : ℚ) ≤ 2 ^ 53 := by exact_mod_cast hn
    have h2 : (1 : ℚ) ≤ 2 ^ j := one_le_pow₀ (by norm_num)
    refine le_trans (div_le_self (by positivity) h2) ?_
    refine le_trans ?_ big_ge
    linarith

theorem div_1024 {x : F64} {n j : Nat} (hn : n ≤ 2 ^ 53) (hj : j + 10 ≤ 1074) (hx : number64 x = .fin (n / 2 ^ j)) :
    number64 (x.div f1024) = .fin (n / 2 ^ (j + 10)) := by
  have hf : x.isFinite = true := (F64.finite_number x).2 ⟨_, hx⟩
  have hr : x.toRat = n / 2 ^ j := by rw [F64.number_fin hf, Number.fin.injEq] at hx; exact hx
  have hi := F64.is_div hf f1024_val.1 (by rw [f1024_val.2]; norm_num)
  have he : (n : ℚ) / 2 ^ j / 1024 = n / 2 ^ (j + 10) := by rw [pow_add, div_div]; norm_num
  rw [f1024_val.2, hr, he] at hi
  have hm := hi.moderate (by
    rw [abs_of_nonneg (by positivity)]
    have h1 : (n : ℚ) ≤ 2 ^ 53 := by exact_mod_cast hn
    have h2 : (1 : ℚ) ≤ 2 ^ (j + 10) := one_le_pow₀ (by norm_num)
    refine le_trans (div_le_self (by positivity) h2) ?_
    refine le_trans ?_ big_ge
    linarith)
  rw [F64.number_fin hm.1, hm.2.1, rn_share hn hj]

theorem lt_1024 {x : F64} {q : ℚ} (hx : number64 x = .fin q) : x.lt f1024 = true ↔ q < 1024 := by
  have hf : x.isFinite = true := (F64.finite_number x).2 ⟨_, hx⟩
  have hr : x.toRat = q := by rw [F64.number_fin hf, Number.fin.injEq] at hx; exact hx
  rw [F64.lt_iff hf f1024_val.1, hr, f1024_val.2]

theorem sizeOf_spec {size : Nat} (h : size ≤ 2 ^ 53) :
    (size < 2 ^ 10 → sizeOf (size : Int) = Size.bytes size) ∧
    (¬ size < 2 ^ 10 → size < 2 ^ 20 → ∃ x, sizeOf (size : Int) = Size.kilo x ∧ number64 x = .fin (size / 2 ^ 10)) ∧
    (¬ size < 2 ^ 20 → ∃ x, sizeOf (size : Int) = Size.mega x ∧ number64 x = .fin (size / 2 ^ 20)) := by
  have hi : number64 (F64.ofInt size) = .fin ((size : ℚ) / 2 ^ 0) := by
    rw [pow_zero, div_one]
    exact_mod_cast ofInt_integral (size : Int) (by simpa using h)
  have hk := div_1024 h (by omega) hi
  rw [Nat.zero_add] at hk
  have hm := div_1024 h (by omega) hk
  rw [show 10 + 10 = 20 from rfl] at hm
  have hlt := lt_1024 hk
  rw [Rap.sizeOf]
  dsimp only
  generalize (F64.ofInt (size : Int)).div f1024 = e at *
  generalize e.div f1024 = e' at *
  have h10 : (size : Int) < 1024 ↔ size < 2 ^ 10 := by constructor <;> intro h <;> [exact_mod_cast h; exact_mod_cast h]
  have h20 : e.lt f1024 = true ↔ size < 2 ^ 20 := by
    rw [hlt, div_lt_iff₀ (by positivity)]
    constructor
    · intro h; have : (size : ℚ) < (2 ^ 20 : Nat) := by push_cast; linarith
      exact_mod_cast this
    · intro h; have : (size : ℚ) < (2 ^ 20 : Nat) := by exact_mod_cast h
      push_cast at this; linarith
  refine ⟨fun h => if_pos (h10.2 h), fun h h' => ⟨e, ?_, hk⟩, fun h => ⟨e', ?_, hm⟩⟩
  · rw [if_neg (fun h' => h (h10.1 h'))]
    exact if_pos (h20.2 h')
  · rw [if_neg (fun h' => h (lt_trans (h10.1 h') (by norm_num)))]
    exact if_neg (fun h' => h (h20.1 h'))

theorem printSize_text (two : F64 → Bytes) {size : Nat} (h : size ≤ 2 ^ 53) : SizeText two size (printSize two size) := by
  obtain ⟨h1, h2, h3⟩ := sizeOf_spec h
  rw [SizeText, printSize]
  by_cases h10 : size < 2 ^ 10
  · rw [if_pos h10, h1 h10]
    exact ⟨_, rfl, decimal_natCast _⟩
  · rw [if_neg h10]
    by_cases h20 : size < 2 ^ 20
    · obtain ⟨x, hx, hv⟩ := h2 h10 h20
      rw [if_pos h20, hx]
      exact ⟨x, rfl, hv⟩
    · obtain ⟨x, hx, hv⟩ := h3 h20
      rw [if_neg h20, hx]
      exact ⟨x, rfl, hv⟩

set_option maxRecDepth 4000 in
/-- C40: a summary starts with the name of the recording, the size of the file in a fitting unit, and the duration. -/
theorem C40_first_lines (two : F64 → Bytes) (rec : Rec) (size : Nat) (out : Bytes) (hs : size ≤ 2 ^ 53)
    (ho : printSummary two rec size = .ok out) : ∃ name text d rest,
    out = b!"Name:                    " ++ name ++ b!"\nFile Size:               " ++ text ++
      b!"\nDuration:                " ++ two d ++ b!"s\nSub Recordings:          " ++ rest ∧
    (rec.theName ≠ [] → name = rec.theName) ∧ (rec.theName = [] → name = b!"[No Name]") ∧
    SizeText two size text ∧ recordingDuration rec = .ok d := by
  rw [printSummary] at ho
  cases hd : recordingDuration rec with
  | error e => rw [hd] at ho; simp [bind, Except.bind] at ho
  | ok d =>
    cases hm : summarize rec with
    | error e => rw [hd, hm] at ho; simp [bind, Except.bind] at ho
    | ok s =>
      rw [hd, hm] at ho
      simp only [bind, Except.bind, Except.ok.injEq] at ho
      refine ⟨if rec.theName = [] then b!"[No Name]" else rec.theName, printSize two size, d, ?_, ?_,
        fun h => if_neg h, fun h => if_pos h, printSize_text two hs, rfl⟩
      · exact V1.decimal rec.children.length ++ b!"\n" ++
          b!"Total Position Captures: " ++ V1.decimal s.position ++ b!"\n" ++
          b!"Total Euler Captures:    " ++ V1.decimal s.euler ++ b!"\n" ++
          b!"Total Event Captures:    " ++ V1.decimal s.event ++ b!"\n" ++
          b!"Total Enum Captures:     " ++ V1.decimal s.enum ++ b!"\n" ++
          b!"Total Other Captures:    " ++ V1.decimal s.other ++ b!"\n"
      · rw [← ho]
        simp only [List.append_assoc]
        rfl

/-- A file of 2560 bytes is "2.50kb"; `two` here writes the bit pattern. -/
example : ∃ rec out, printSummary (fun x => V1.decimal x.toNat) rec 2560 = .ok out ∧ 150 < out.length :=
  ⟨.mk [] [] [some (.position [] [(0, ⟨0, 0, 0⟩)])] [] [] [] [], _, rfl, by decide +kernel⟩

end Rap
