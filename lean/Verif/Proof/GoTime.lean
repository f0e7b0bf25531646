import Verif.Proof.Calendar
import Verif.Proof.GoLaws
import Mathlib.Data.Rat.Floor

/-!
# Times as texts
-/

namespace Rap

/-! ## Reading -/

theorem takeDigits_field {n v : Nat} {b r : Bytes} (hn : 0 < n) (h : Field n b v) : takeDigits n (b ++ r) = some (v, r) := by
  obtain ⟨h1, h2, h3⟩ := h
  have hb : b ≠ [] := by rintro rfl; simp at h1; omega
  rw [takeDigits, if_pos (by rw [List.length_append]; omega), ← h1, List.take_left, List.drop_left, readDigits_eq.2 ⟨hb, h2, h3⟩]
  rfl

theorem takeHour_field {v : Nat} {b r : Bytes} (h : Field 2 b v) : takeHour (b ++ r) = some (v, r) := by
  rw [takeHour, takeDigits_field (by decide) h]; rfl

theorem takeChar_self (c : UInt8) (r : Bytes) : takeChar c (c :: r) = some r := by simp [takeChar]

theorem digitsValue_lt : (b : Bytes) → Digits b → digitsValue b < 10 ^ b.length := by
  intro b
  induction b using List.reverseRecOn with
  | nil => intro _; decide
  | append_singleton b c ih =>
    intro h
    have h1 := ih fun d hd => h d (by simp [hd])
    have h2 := h c (by simp)
    rw [digitsValue, List.foldl_append]
    simp only [List.foldl_cons, List.foldl_nil, List.length_append, List.length_cons, List.length_nil, Nat.zero_add, pow_succ]
    rw [digitsValue] at h1
    omega

theorem digitsValue_zeros (j : Nat) : digitsValue (List.replicate j 48) = 0 := by
  induction j with
  | zero => rfl
  | succ j ih =>
    rw [List.replicate_succ, digitsValue, List.foldl_cons]
    exact ih

theorem digits_zeros (j : Nat) : Digits (List.replicate j 48) := by
  intro c hc
  rw [List.eq_of_mem_replicate hc]; decide

/-- The first nine digits of a fraction. -/
theorem nine_digits {fr : Bytes} (h : Digits fr) : digitsValue ((fr ++ List.replicate 9 48).take 9) = digitsValue fr * 10 ^ 9 / 10 ^ fr.length := by
  have h1 : digitsValue (fr ++ List.replicate 9 48) = digitsValue fr * 10 ^ 9 := by
    rw [digitsValue_append _ _ (digits_zeros 9), digitsValue_zeros]; simp
  have h2 : Digits (fr ++ List.replicate 9 48) := by
    intro c hc
    rcases List.mem_append.1 hc with h' | h'
    · exact h c h'
    · exact digits_zeros 9 c h'
  have h3 := List.take_append_drop 9 (fr ++ List.replicate 9 48)
  have h4 : ((fr ++ List.replicate 9 48).drop 9).length = fr.length := by simp
  have h6 : Digits ((fr ++ List.replicate 9 48).drop 9) := fun c hc => h2 c (List.mem_of_mem_drop hc)
  have h5 := digitsValue_lt _ h6
  rw [h4] at h5
  rw [← h1]
  conv_rhs => rw [← h3, digitsValue_append _ _ h6, h4]
  rw [Nat.mul_comm, Nat.mul_add_div (by positivity), Nat.div_eq_of_lt h5, Nat.add_zero]

theorem takeNano_fraction {f fr r : Bytes} (h : FractionText f fr) {c : UInt8} (hc : c ≠ 46 ∧ c ≠ 44 ∧ ¬ (48 ≤ c.toNat ∧ c.toNat ≤ 57)) :
    takeNano (f ++ c :: r) = (digitsValue fr * 10 ^ 9 / 10 ^ fr.length, c :: r) := by
  rcases h with ⟨rfl, rfl⟩ | ⟨h1, h2, rfl⟩
  · rw [List.nil_append, takeNano, if_neg (by simp [hc.1, hc.2.1])]
    simp [digitsValue]
  · have hd : (fr ++ c :: r).takeWhile (fun (a : UInt8) => decide (48 ≤ a.toNat) && decide (a.toNat ≤ 57)) = fr := by
      rw [List.takeWhile_append_of_pos (by intro a ha; simpa using h2 a ha), List.takeWhile_cons_of_neg (by simpa using hc.2.2), List.append_nil]
    rw [List.cons_append, takeNano]
    simp only [hd]
    rw [if_pos ⟨.inl trivial, h1⟩, List.drop_left, ← nine_digits h2]
    rfl

theorem takeZone_offset {t : Bytes} {m : Int} (h : OffsetText t m) : ∃ c r, t = c :: r ∧ (c ≠ 46 ∧ c ≠ 44 ∧ ¬ (48 ≤ c.toNat ∧ c.toNat ≤ 57)) ∧
    takeZone t = some (m, []) := by
  rcases h with ⟨rfl, rfl⟩ | ⟨c, a, b, h, m, hc, ha, hb, hh, hm, rfl, rfl⟩
  · exact ⟨90, [], rfl, by decide, rfl⟩
  · refine ⟨c, _, rfl, by rcases hc with rfl | rfl <;> decide, ?_⟩
    have e : takeZone (c :: (a ++ 58 :: b)) = ((takeDigits 2 (a ++ 58 :: b)).bind fun (h, r) => (takeChar 58 r).bind fun r =>
        (takeDigits 2 r).bind fun (m, r) =>
          if h ≤ 24 ∧ m ≤ 60 then
            if c = 43 then some (((60 * h + m : Nat) : Int), r)
            else if c = 45 then some (-((60 * h + m : Nat) : Int), r)
            else none
          else none) := by
      rcases hc with rfl | rfl <;> rfl
    have hb' := takeDigits_field (n := 2) (r := []) (by decide) hb
    rw [List.append_nil] at hb'
    rw [e, takeDigits_field (by decide) ha]
    simp only [Option.bind_some, takeChar_self, hb']
    rw [if_pos ⟨by omega, by omega⟩]
    rcases hc with rfl | rfl
    · simp
    · simp

theorem parse_text {t : Bytes} {v : ℚ} (h : TimeText t v) : goParseTime t = some (BitVec.ofInt 64 ⌊v * 1000000⌋) := by
  obtain ⟨ty, tm, td, th, tn, ts, f, fr, tz, y, mo, d, hr, mi, s, k, off, rfl, f1, f2, f3, f4, f5, f6, hv, b1, b2, b3, hf, hz, hd, rfl⟩ := h
  obtain ⟨c, r, rfl, hc, hz'⟩ := takeZone_offset hz
  obtain ⟨v1, v2, v3, v4⟩ := hv
  rw [goParseTime, takeDigits_field (by decide) f1]
  simp only [Option.bind_some, takeChar_self]
  rw [takeDigits_field (by decide) f2]
  simp only [Option.bind_some, takeChar_self]
  rw [takeDigits_field (by decide) f3]
  simp only [Option.bind_some, takeChar_self]
  rw [takeHour_field f4]
  simp only [Option.bind_some, takeChar_self]
  rw [takeDigits_field (by decide) f5]
  simp only [Option.bind_some, takeChar_self]
  rw [takeDigits_field (by decide) f6]
  simp only [Option.bind_some]
  rw [takeNano_fraction hf hc]
  simp only [hz', Option.bind_some]
  rw [daysIn_eq]
  rw [if_pos ⟨trivial, v1, v2, v3, v4, by omega, by omega, by omega⟩, (dayOf_iff.1 hd).2]
  congr 2
  rw [add_mul]
  have e : (digitsValue fr : ℚ) / 10 ^ fr.length * 1000000 = ((digitsValue fr * 1000000 : Nat) : ℚ) / ((10 ^ fr.length : Nat) : ℚ) := by
    push_cast; ring
  have e2 : ((86400 * k + 3600 * hr + 60 * mi + s - 60 * off : Int) : ℚ) * 1000000 =
    (((86400 * k + 3600 * hr + 60 * mi + s - 60 * off) * 1000000 : Int) : ℚ) := by push_cast; ring
  rw [e2, Int.floor_intCast_add, e, Rat.floor_natCast_div_natCast, Nat.div_div_eq_div_mul, Nat.mul_comm (10 ^ fr.length)]
  rw [show digitsValue fr * 10 ^ 9 = 1000 * (digitsValue fr * 1000000) by ring, Nat.mul_div_mul_left _ _ (by decide : 0 < 1000)]
  push_cast
  rfl

/-! ## Characters -/

theorem digits_chars {b : Bytes} (h : Digits b) : ∀ c ∈ b, c ∈ b!"0123456789-T:.Z+" := by
  intro c hc
  obtain ⟨h1, h2⟩ := h c hc
  have every : ∀ n : Fin 256, 48 ≤ n.val → n.val ≤ 57 → UInt8.ofNat n.val ∈ b!"0123456789-T:.Z+" := by decide +kernel
  have := every ⟨c.toNat, c.toNat_lt⟩ h1 h2
  simpa using this

theorem timeText_chars {t : Bytes} {v : ℚ} (h : TimeText t v) : ∀ c ∈ t, c ∈ b!"0123456789-T:.Z+" := by
  obtain ⟨ty, tm, td, th, tn, ts, f, fr, tz, y, mo, d, hr, mi, s, k, off, rfl, f1, f2, f3, f4, f5, f6, -, -, -, -, hf, hz, -, -⟩ := h
  have hf' : ∀ c ∈ f, c ∈ b!"0123456789-T:.Z+" := by
    rcases hf with ⟨rfl, -⟩ | ⟨-, h2, rfl⟩
    · simp
    · intro c hc
      rcases List.mem_cons.1 hc with rfl | hc
      · decide
      · exact digits_chars h2 c hc
  have hz' : ∀ c ∈ tz, c ∈ b!"0123456789-T:.Z+" := by
    rcases hz with ⟨rfl, -⟩ | ⟨c, a, b, h, m, hc, ha, hb, -, -, rfl, -⟩
    · decide
    · intro x hx
      rcases List.mem_cons.1 hx with rfl | hx
      · rcases hc with rfl | rfl <;> decide
      rcases List.mem_append.1 hx with hx | hx
      · exact digits_chars ha.2.1 x hx
      rcases List.mem_cons.1 hx with rfl | hx
      · decide
      · exact digits_chars hb.2.1 x hx
  intro c hc
  simp only [List.mem_append, List.mem_cons] at hc
  rcases hc with hc | rfl | hc | rfl | hc | rfl | hc | rfl | hc | rfl | hc | hc | hc
  · exact digits_chars f1.2.1 c hc
  · decide
  · exact digits_chars f2.2.1 c hc
  · decide
  · exact digits_chars f3.2.1 c hc
  · decide
  · exact digits_chars f4.2.1 c hc
  · decide
  · exact digits_chars f5.2.1 c hc
  · decide
  · exact digits_chars f6.2.1 c hc
  · exact hf' c hc
  · exact hz' c hc

theorem mem_takeWhile {α : Type} {p : α → Bool} {l : List α} {x : α} (h : x ∈ l.takeWhile p) : p x = true :=
  List.all_eq_true.1 List.all_takeWhile x h

/-- Nothing but printable characters, and no quotes or backslashes, before the rest. -/
def PlainBefore (s r : Bytes) : Prop := ∃ p, s = p ++ r ∧ PlainText p

theorem PlainBefore.trans {a b c : Bytes} (h : PlainBefore a b) (h' : PlainBefore b c) : PlainBefore a c := by
  obtain ⟨p, rfl, hp⟩ := h
  obtain ⟨q, rfl, hq⟩ := h'
  refine ⟨p ++ q, by simp, fun c hc => ?_⟩
  rcases List.mem_append.1 hc with hc | hc
  · exact hp c hc
  · exact hq c hc

theorem digits_plain {b : Bytes} (h : Digits b) : PlainText b := by
  intro c hc
  obtain ⟨h1, h2⟩ := h c hc
  have every : ∀ n : Fin 256, 48 ≤ n.val → n.val ≤ 57 → 32 ≤ UInt8.ofNat n.val ∧ UInt8.ofNat n.val ≠ 34 ∧ UInt8.ofNat n.val ≠ 92 := by
    decide +kernel
  have := every ⟨c.toNat, c.toNat_lt⟩ h1 h2
  simpa using this

theorem takeDigits_plain {n v : Nat} {s r : Bytes} (h : takeDigits n s = some (v, r)) : PlainBefore s r := by
  rw [takeDigits] at h
  split at h
  · rw [Option.map_eq_some_iff] at h
    obtain ⟨w, h1, h2⟩ := h
    cases h2
    exact ⟨s.take n, (List.take_append_drop n s).symm, digits_plain (readDigits_eq.1 h1).2.1⟩
  · cases h

theorem takeHour_plain {v : Nat} {s r : Bytes} (h : takeHour s = some (v, r)) : PlainBefore s r := by
  rw [takeHour, Option.or_eq_some_iff] at h
  rcases h with h | ⟨-, h⟩
  · exact takeDigits_plain h
  · exact takeDigits_plain h

theorem takeChar_plain {c : UInt8} (hc : 32 ≤ c ∧ c ≠ 34 ∧ c ≠ 92) {s r : Bytes} (h : takeChar c s = some r) : PlainBefore s r := by
  cases s with
  | nil => cases h
  | cons a s =>
    rw [takeChar] at h
    split at h
    · next e =>
      cases h
      subst e
      exact ⟨[a], rfl, fun d hd => by rw [List.mem_singleton.1 hd]; exact hc⟩
    · cases h

theorem takeNano_plain (s : Bytes) : PlainBefore s (takeNano s).2 := by
  have same : PlainBefore s s := ⟨[], rfl, by simp [PlainText]⟩
  cases s with
  | nil => exact same
  | cons c r =>
    rw [takeNano]
    split
    · next h =>
      have hd : Digits (r.takeWhile fun (a : UInt8) => decide (48 ≤ a.toNat) && decide (a.toNat ≤ 57)) := by
        intro x hx
        have := mem_takeWhile hx
        simpa using this
      generalize hw : r.takeWhile (fun (a : UInt8) => decide (48 ≤ a.toNat) && decide (a.toNat ≤ 57)) = w at hd
      obtain ⟨q, hq⟩ : w <+: r := by rw [← hw]; exact List.takeWhile_prefix _
      refine ⟨c :: w, ?_, ?_⟩
      · dsimp only
        rw [← hq, List.drop_left]; rfl
      · intro x hx
        rcases List.mem_cons.1 hx with rfl | hx
        · rcases h.1 with rfl | rfl <;> decide
        · exact digits_plain hd x hx
    · exact same

theorem takeZone_plain {m : Int} {s r : Bytes} (h : takeZone s = some (m, r)) : PlainBefore s r := by
  unfold takeZone at h
  split at h
  · cases h
    exact ⟨[90], rfl, by simp only [PlainText]; decide⟩
  · next c q _ =>
    simp only [Option.bind_eq_some_iff, Prod.exists] at h
    obtain ⟨hh, r1, h1, r2, h2, mm, r3, h3, h4⟩ := h
    have hp := (takeDigits_plain h1).trans ((takeChar_plain (by decide) h2).trans (takeDigits_plain h3))
    have hc : ∀ {c : UInt8}, (c = 43 ∨ c = 45) → ∀ {q : Bytes}, PlainBefore q r3 → PlainBefore (c :: q) r3 := by
      rintro c hc q ⟨p, rfl, hp⟩
      refine ⟨c :: p, rfl, fun x hx => ?_⟩
      rcases List.mem_cons.1 hx with rfl | hx
      · rcases hc with rfl | rfl <;> decide
      · exact hp x hx
    split at h4
    · split at h4
      · next e => cases h4; exact hc (.inl e) hp
      · split at h4
        · next e => cases h4; exact hc (.inr e) hp
        · cases h4
    · cases h4
  · cases h

theorem parse_plain {s : Bytes} {t : BitVec 64} (h : goParseTime s = some t) : PlainText s := by
  rw [goParseTime] at h
  simp only [Option.bind_eq_some_iff, Prod.exists] at h
  obtain ⟨y, r1, h1, r2, h2, mo, r3, h3, r4, h4, d, r5, h5, r6, h6, hr, r7, h7, r8, h8, mi, r9, h9, r10, h10, se, r11, h11, off, r12, h12, h13⟩ := h
  split at h13
  · next hc =>
    obtain ⟨rfl, -⟩ := hc
    have hp := (takeDigits_plain h1).trans ((takeChar_plain (by decide) h2).trans ((takeDigits_plain h3).trans
      ((takeChar_plain (by decide) h4).trans ((takeDigits_plain h5).trans ((takeChar_plain (by decide) h6).trans
      ((takeHour_plain h7).trans ((takeChar_plain (by decide) h8).trans ((takeDigits_plain h9).trans
      ((takeChar_plain (by decide) h10).trans ((takeDigits_plain h11).trans ((takeNano_plain _).trans (takeZone_plain h12))))))))))))
    obtain ⟨p, hp, hpl⟩ := hp
    rw [List.append_nil] at hp
    rw [hp]; exact hpl
  · cases h13

/-! ## Writing -/

theorem field_fixed {p r : Nat} (h : r < 10 ^ p) : Field p (fixedDigits p r) r := by
  obtain ⟨h1, h2, h3⟩ := fixedDigits_spec p r h
  exact ⟨h1, h2, h3⟩

theorem nanoText_fraction {ns : Nat} (h : ns < 10 ^ 9) : ∃ fr, FractionText (nanoText ns) fr ∧ (digitsValue fr : ℚ) / 10 ^ fr.length = ns / 10 ^ 9 := by
  rw [nanoText]
  split
  · next h0 => exact ⟨[], .inl ⟨rfl, rfl⟩, by rw [h0]; simp [digitsValue]⟩
  · next h0 =>
    obtain ⟨h1, h2, h3⟩ := field_fixed h
    generalize fixedDigits 9 ns = b at h1 h2 h3
    have hz : ∃ j, b = (b.reverse.dropWhile (· == 48)).reverse ++ List.replicate j 48 := by
      have e := List.takeWhile_append_dropWhile (p := (· == (48 : UInt8))) (l := b.reverse)
      refine ⟨(b.reverse.takeWhile (· == 48)).length, ?_⟩
      have e2 : b.reverse.takeWhile (· == 48) = List.replicate (b.reverse.takeWhile (· == 48)).length 48 := by
        rw [List.eq_replicate_iff]
        refine ⟨rfl, fun c hc => ?_⟩
        simpa using mem_takeWhile hc
      have e3 := congrArg List.reverse e
      rw [List.reverse_append, List.reverse_reverse] at e3
      rw [← e3]
      conv_lhs => rw [e2]
      simp
    obtain ⟨j, hj⟩ := hz
    generalize (b.reverse.dropWhile (· == 48)).reverse = fr at hj
    have hv : digitsValue fr * 10 ^ j = ns := by
      rw [← h3, hj, digitsValue_append _ _ (digits_zeros j), digitsValue_zeros]; simp
    have hl : fr.length + j = 9 := by rw [← h1, hj]; simp
    have hd : Digits fr := fun c hc => h2 c (by rw [hj]; simp [hc])
    refine ⟨fr, .inr ⟨?_, hd, rfl⟩, ?_⟩
    · rintro rfl
      exact h0 (by rw [← hv]; simp [digitsValue])
    · rw [← hv, ← hl, pow_add]
      push_cast
      field_simp

theorem zoneText_offset {m : Int} (h : |m| < 1440) : OffsetText (zoneText m) m := by
  rw [zoneText]
  split
  · next h0 => exact .inl ⟨rfl, h0⟩
  · next h0 =>
    have hn : m.natAbs < 1440 := by rw [Int.abs_eq_natAbs] at h; omega
    refine .inr ⟨_, _, _, m.natAbs / 60, m.natAbs % 60, ?_, field_fixed (by omega), field_fixed (by omega), by omega, by omega, rfl, ?_⟩
    · split <;> simp
    · split
      · rw [if_neg (by decide)]; omega
      · rw [if_pos rfl]; omega

theorem civil_year {k : Int} (h1 : -700000 ≤ k) (h2 : k ≤ 2000000) : 0 ≤ (civil k).1 ∧ (civil k).1 ≤ 9999 := by
  obtain ⟨⟨v1, v2, v3, v4⟩, e⟩ := civil_spec k
  generalize civil k = p at *
  obtain ⟨y, m, d⟩ := p
  dsimp only at *
  have h31 : monthDays y m ≤ 31 := by rw [monthDays]; split <;> [split; split] <;> decide
  have hb : daysBefore m y ≤ 335 := by
    rw [daysBefore]
    cases isLeap y
    · interval_cases m <;> decide
    · interval_cases m <;> decide
  rw [dayNumber] at e
  omega

theorem goTime_text {zone : Int → Int} (hz : ∀ s, |zone s| < 1440) (n : BitVec 64) : TimeText (goTime zone n) ((n.toInt : ℚ) / 10 ^ 9) := by
  have hn1 : -2 ^ 63 ≤ n.toInt := BitVec.le_toInt n
  have hn2 : n.toInt < 2 ^ 63 := BitVec.toInt_lt
  rw [goTime]
  generalize n.toInt = i at hn1 hn2
  have hz' := hz (i / 1000000000)
  dsimp only
  generalize hoff : zone (i / 1000000000) = off at hz'
  have ho : -1440 < off ∧ off < 1440 := abs_lt.1 hz'
  generalize ht : i / 1000000000 + 60 * off = t
  have hy := civil_year (k := t / 86400) (by omega) (by omega)
  have hs := civil_spec (t / 86400)
  have hd := dayOf_civil (t / 86400)
  generalize civil (t / 86400) = p at hy hs hd
  obtain ⟨y, m, d⟩ := p
  dsimp only at hy hs hd ⊢
  obtain ⟨⟨v1, v2, v3, v4⟩, -⟩ := hs
  dsimp only at v1 v2 v3 v4
  have h31 : monthDays y m ≤ 31 := by rw [monthDays]; split <;> [split; split] <;> decide
  have hyn : ((y.toNat : Nat) : Int) = y := by omega
  obtain ⟨fr, hf, hfv⟩ := nanoText_fraction (ns := (i % 1000000000).toNat) (by omega)
  refine ⟨_, _, _, _, _, _, _, fr, _, y.toNat, m, d, _, _, _, t / 86400, off, rfl, field_fixed (by omega), field_fixed (by omega),
    field_fixed (by omega), field_fixed ?_, field_fixed ?_, field_fixed ?_, ⟨v1, v2, v3, by rw [hyn]; exact v4⟩, ?_, ?_, ?_, hf, zoneText_offset hz',
    by rw [hyn]; exact hd, ?_⟩
  · omega
  · omega
  · omega
  · omega
  · omega
  · omega
  · rw [hfv]
    have e1 : (86400 * (t / 86400) + 3600 * (((t % 86400).toNat / 3600 : Nat) : Int) + 60 * (((t % 86400).toNat / 60 % 60 : Nat) : Int) +
        (((t % 86400).toNat % 60 : Nat) : Int) - 60 * off : Int) = i / 1000000000 := by omega
    rw [e1]
    have e2 : (((i % 1000000000).toNat : Nat) : ℚ) = ((i % 1000000000 : Int) : ℚ) := by
      have : (((i % 1000000000).toNat : Nat) : Int) = i % 1000000000 := by omega
      exact_mod_cast this
    rw [e2]
    have e3 : (1000000000 * (i / 1000000000) + i % 1000000000 : Int) = i := Int.mul_ediv_add_emod i _
    have e4 : (i : ℚ) = 1000000000 * ((i / 1000000000 : Int) : ℚ) + ((i % 1000000000 : Int) : ℚ) := by
      exact_mod_cast e3.symm
    rw [e4]
    norm_num
    ring

/-- What `goTime` writes is read with its microseconds. -/
theorem time_law {zone : Int → Int} (hz : ∀ s, |zone s| < 1440) (n : BitVec 64) : PlainText (goTime zone n) ∧ Utf8 (goTime zone n) ∧
    ¬ b!"0x" <+: goTime zone n ∧ goParseTime (goTime zone n) = some (BitVec.ofInt 64 (n.toInt / 1000)) := by
  have ht := goTime_text hz n
  have hp := parse_text ht
  have hc := timeText_chars ht
  refine ⟨parse_plain hp, utf8_ascii _ fun c h => ?_, ?_, ?_⟩
  · have every : ∀ c ∈ b!"0123456789-T:.Z+", c < 128 := by decide
    exact every c (hc c h)
  · rintro ⟨r, hr⟩
    have := hc 120 (by rw [← hr]; simp)
    revert this; decide
  · rw [hp]
    congr 2
    have : (n.toInt : ℚ) / 10 ^ 9 * 1000000 = (n.toInt : ℚ) / ((1000 : Nat) : ℚ) := by push_cast; ring
    rw [this, Rat.floor_intCast_div_natCast]
    rfl

end Rap
