import Verif.Proof.ParseFloat

/-!
# Texts of floats: only literals are read
-/

namespace Rap
open FloatText

/-- Digits and underscores, in any order. -/
def Loose (hex : Bool) (A : Bytes) : Prop := ∀ c ∈ A, Digit hex c ∨ c = 95

theorem loose_split (hex : Bool) (s : Bytes) : ∃ A r, s = A ++ r ∧ Loose hex A ∧ ∀ c r', r = c :: r' → c ≠ 95 ∧ ¬ Digit hex c := by
  induction s with
  | nil => exact ⟨[], [], rfl, fun c h => (by cases h), fun c r' h => (by cases h)⟩
  | cons c s ih =>
    by_cases h : Digit hex c ∨ c = 95
    · obtain ⟨A, r, rfl, h1, h2⟩ := ih
      refine ⟨c :: A, r, rfl, fun d hd => ?_, h2⟩
      rcases List.mem_cons.mp hd with rfl | hd
      · exact h
      · exact h1 d hd
    · refine ⟨[], c :: s, rfl, fun c h => (by cases h), fun d r' hd => ?_⟩
      cases hd
      exact ⟨fun h' => h (.inr h'), fun h' => h (.inl h')⟩

theorem read_loose {hex : Bool} {A : Bytes} (r : Bytes) : Loose hex A → ∀ m : Mantissa, readMantissa hex (A ++ r) m =
    readMantissa hex r ⟨more hex m.value (strip A), if m.dot then m.behind + (strip A).length else m.behind, m.dot,
      m.digit || !(strip A).isEmpty, m.under || A.contains 95⟩ := by
  induction A with
  | nil => intro _ m; simp [strip, more]
  | cons c A ih =>
    intro h m
    have ih := ih fun d hd => h d (by simp [hd])
    rcases h c (by simp) with hc | rfl
    · have h1 := (digit_chars hc).1
      rw [List.cons_append, read_digit hc, ih, strip_other h1]
      simp only [more, List.foldl_cons, List.length_cons]
      congr 2
      · split_ifs <;> omega
      · simp
      · simp [Ne.symm h1]
    · rw [List.cons_append, read_under, ih, strip_under]
      simp

theorem exp_loose {A : Bytes} (r : Bytes) : Loose false A → ∀ v k u, KeptNat v k →
    ∃ k', KeptNat (more false v (strip A)) k' ∧ readExponent (A ++ r) k u = readExponent r k' (u || A.contains 95) := by
  have step : ∀ (c : UInt8) (v k : Nat), Digit false c → KeptNat v k →
      KeptNat (base false * v + digit c) (if k < 10000 then k * 10 + (c.toNat - 48) else k) := by
    intro c v k hc hk
    have h1 := (digit_false c).mpr hc
    have h2 : digit c = c.toNat - 48 := by rw [digit, if_pos h1.2]
    rw [h2]
    unfold KeptNat at hk ⊢
    simp only [base, Bool.false_eq_true, if_false]
    split_ifs with h3 <;> omega
  induction A with
  | nil => intro _ v k u hk; exact ⟨k, hk, by simp⟩
  | cons c A ih =>
    intro h v k u hk
    have ih := ih fun d hd => h d (by simp [hd])
    rcases h c (by simp) with hc | rfl
    · have h1 := (digit_chars hc).1
      obtain ⟨k', i1, i2⟩ := ih _ _ u (step c v k hc hk)
      refine ⟨k', by rw [strip_other h1]; exact i1, ?_⟩
      rw [List.cons_append, readExponent, if_neg h1, if_pos ((digit_false c).mpr hc), i2]
      congr 1
      simp [Ne.symm h1]
    · obtain ⟨k', i1, i2⟩ := ih v k true hk
      refine ⟨k', by rw [strip_under]; exact i1, ?_⟩
      rw [List.cons_append, readExponent, if_pos rfl, i2]
      congr 1
      simp

theorem under_loose {hex : Bool} {A r : Bytes} (hr : ∀ c r', r = c :: r' → c ≠ 95 ∧ ¬ Digit hex c) : Loose hex A → ∀ saw,
    underscoreLoop hex (A ++ r) saw = true →
    (A = [] ∨ Run hex A (strip A) ∨ ∃ A', A = 95 :: A' ∧ saw = .digit ∧ Run hex A' (strip A')) ∧
    (A ≠ [] → underscoreLoop hex r .digit = true) := by
  induction A with
  | nil => intro _ saw _; exact ⟨.inl rfl, fun h => absurd rfl h⟩
  | cons c A ih =>
    intro h saw hs
    have ih := ih fun d hd => h d (by simp [hd])
    rw [List.cons_append] at hs
    rcases h c (by simp) with hc | rfl
    · have h1 := (digit_chars hc).1
      rw [under_digit hc] at hs
      obtain ⟨i1, i2⟩ := ih _ hs
      rw [strip_other h1]
      refine ⟨.inr (.inl ?_), fun _ => ?_⟩
      · rcases i1 with rfl | i1 | ⟨A', rfl, -, i1⟩
        · exact .one hc
        · exact .more hc i1
        · rw [strip_under]; exact .under hc i1
      · by_cases hA : A = []
        · subst hA; exact hs
        · exact i2 hA
    · rw [under_under] at hs
      by_cases hd : saw = .digit
      · rw [if_pos hd] at hs
        obtain ⟨i1, i2⟩ := ih _ hs
        rcases i1 with rfl | i1 | ⟨A', rfl, h', -⟩
        · exfalso
          cases r with
          | nil => simp [underscoreLoop] at hs
          | cons d r =>
            obtain ⟨h1, h2⟩ := hr d r rfl
            rw [List.nil_append, under_other h2 h1, if_pos rfl] at hs
            cases hs
        · refine ⟨.inr (.inr ⟨A, rfl, hd, i1⟩), fun _ => i2 ?_⟩
          obtain ⟨_, _, rfl, -⟩ := run_ne i1
          simp
        · cases h'
      · rw [if_neg hd] at hs; cases hs

theorem loose_dec {A : Bytes} (h : Loose false A) : ∀ c ∈ A, DecChar c := fun c hc => (h c hc).imp id .inl

/-- Texts without underscores pass the check. -/
theorem under_none {hex : Bool} {s : Bytes} : (95 : UInt8) ∉ s → ∀ saw, saw ≠ .under → underscoreLoop hex s saw = true := by
  induction s with
  | nil => intro _ saw h; cases saw <;> simp_all [underscoreLoop]
  | cons c s ih =>
    intro h saw hs
    have hc : c ≠ 95 := fun h' => h (by simp [h'])
    have h' : (95 : UInt8) ∉ s := fun h' => h (by simp [h'])
    by_cases hd : Digit hex c
    · rw [under_digit hd]; exact ih h' _ (by decide)
    · rw [under_other hd hc, if_neg hs]; exact ih h' _ (by decide)

/-- What the loop over the mantissa accepts. -/
theorem mant_sound {hex : Bool} {body r : Bytes} {m : Mantissa} (h : readMantissa hex body ⟨0, 0, false, false, false⟩ = (m, r))
    (hd : m.digit = true) : ∃ t, body = t ++ r ∧ Stop hex m.dot r ∧ m.under = t.contains 95 ∧ (∀ c ∈ t, Digit hex c ∨ c = 95 ∨ c = 46) ∧
    ∀ saw, underscoreLoop hex body saw = true → (∃ saw', underscoreLoop hex r saw' = true) ∧
      (Mant hex t ((m.value : ℚ) / base hex ^ m.behind) ∨
        ∃ t', t = 95 :: t' ∧ saw = .digit ∧ t'.head? ≠ some 46 ∧ Mant hex t' ((m.value : ℚ) / base hex ^ m.behind)) := by
  have hb : (base hex : ℚ) ≠ 0 := by cases hex <;> simp [base]
  have hdot : ¬ Digit hex 46 := fun h => (digit_chars h).2 rfl
  have hne : ∀ {A ds : Bytes} (B : Bytes), Run hex A ds → (A ++ B).head? ≠ some 46 := by
    intro A ds B h
    obtain ⟨c, r, rfl, hc, -⟩ := run_ne h
    simp only [List.cons_append, List.head?_cons, ne_eq, Option.some.injEq]
    rintro rfl; exact hdot hc
  obtain ⟨A, R, rfl, hA, hR⟩ := loose_split hex body
  rw [read_loose R hA] at h
  by_cases hp : ∃ R', R = 46 :: R'
  · obtain ⟨R', rfl⟩ := hp
    rw [read_dot _ _ _ rfl] at h
    obtain ⟨B, r', rfl, hB, hr'⟩ := loose_split hex R'
    rw [read_loose r' hB, read_stop (fun c x hx => ⟨(hr' c x hx).1, (hr' c x hx).2, fun _ => rfl⟩)] at h
    obtain ⟨rfl, rfl⟩ := Prod.mk.inj h
    have hval : more hex (more hex 0 (strip A)) (strip B) = value hex (strip A ++ strip B) := by simp [value, more]
    simp only [hval, if_true, Nat.zero_add, Bool.false_eq_true, if_false, Bool.false_or] at hd ⊢
    refine ⟨A ++ 46 :: B, by simp, fun c x hx => ⟨(hr' c x hx).1, (hr' c x hx).2, fun _ => rfl⟩, by simp, ?_, ?_⟩
    · intro c hc
      simp only [List.mem_append, List.mem_cons] at hc
      rcases hc with hc | rfl | hc
      · exact (hA c hc).imp id .inl
      · exact .inr (.inr rfl)
      · exact (hB c hc).imp id .inl
    · intro saw hs
      obtain ⟨u1, u2⟩ := under_loose hR hA saw hs
      have hs1 : ∃ saw1, underscoreLoop hex (46 :: (B ++ r')) saw1 = true := by
        by_cases hA0 : A = []
        · subst hA0; exact ⟨saw, hs⟩
        · exact ⟨_, u2 hA0⟩
      obtain ⟨saw1, hs1⟩ := hs1
      rw [under_other hdot (by decide)] at hs1
      by_cases hw : saw1 = .under
      · rw [if_pos hw] at hs1; cases hs1
      rw [if_neg hw] at hs1
      obtain ⟨v1, v2⟩ := under_loose hr' hB _ hs1
      refine ⟨?_, ?_⟩
      · by_cases hB0 : B = []
        · subst hB0; exact ⟨_, hs1⟩
        · exact ⟨_, v2 hB0⟩
      · have hq : ((value hex (strip A ++ strip B) : Nat) : ℚ) / base hex ^ (strip B).length =
            value hex (strip A) + (value hex (strip B) : ℚ) / base hex ^ (strip B).length := by
          rw [value_append]; push_cast; field_simp
        have hM : ∀ {A' : Bytes}, Run hex A' (strip A') → strip A' = strip A →
            Mant hex (A' ++ 46 :: B) (((value hex (strip A ++ strip B) : Nat) : ℚ) / base hex ^ (strip B).length) := by
          intro A' hA' he
          rw [he] at hA'
          rcases v1 with rfl | v1 | ⟨B', -, h', -⟩
          · have := Mant.point hA'
            simpa [strip] using this
          · rw [hq]; exact .both hA' v1
          · cases h'
        rcases u1 with rfl | u1 | ⟨A', rfl, hsaw, u1⟩
        · rcases v1 with rfl | v1 | ⟨B', -, h', -⟩
          · simp [strip] at hd
          · exact .inl (.behind v1)
          · cases h'
        · exact .inl (hM u1 rfl)
        · exact .inr ⟨A' ++ 46 :: B, by simp, hsaw, hne _ u1, hM u1 (strip_under A').symm⟩
  · have hst : Stop hex false R := fun c x hx => ⟨(hR c x hx).1, (hR c x hx).2, fun h => absurd ⟨x, by rw [hx, h]⟩ hp⟩
    rw [read_stop hst] at h
    obtain ⟨rfl, rfl⟩ := Prod.mk.inj h
    simp only [Bool.false_eq_true, if_false, Bool.false_or] at hd ⊢
    refine ⟨A, rfl, hst, rfl, fun c hc => (hA c hc).imp id .inl, ?_⟩
    intro saw hs
    obtain ⟨u1, u2⟩ := under_loose hR hA saw hs
    refine ⟨?_, ?_⟩
    · by_cases hA0 : A = []
      · subst hA0; exact ⟨saw, hs⟩
      · exact ⟨_, u2 hA0⟩
    · rw [pow_zero, div_one]
      rcases u1 with rfl | u1 | ⟨A', rfl, hsaw, u1⟩
      · simp [strip] at hd
      · exact .inl (.whole u1)
      · rw [strip_under]
        refine .inr ⟨A', rfl, hsaw, ?_, .whole u1⟩
        have := hne [] u1
        rwa [List.append_nil] at this

/-- What the part for the exponent accepts. -/
theorem exp_sound {hex under under' : Bool} {r : Bytes} {e : Int} (h : readExpPart hex under r = some (e, under', [])) :
    (r = [] ∧ hex = false ∧ e = 0 ∧ under' = under) ∨
    (under' = (under || r.contains 95) ∧ (hex = false → ∀ c ∈ r, DecChar c) ∧
      ∀ saw, underscoreLoop hex r saw = true → ∃ e0, Exp (letters hex) r e0 ∧ KeptInt e0 e) := by
  cases r with
  | nil =>
    cases hex
    · simp [readExpPart] at h; exact .inl ⟨rfl, rfl, h.1.symm, h.2.symm⟩
    · simp [readExpPart] at h
  | cons c r =>
    right
    by_cases hc : c ∈ letters hex
    swap
    · have := mt (letter_iff hex c).mp hc
      unfold readExpPart at h
      simp only [if_neg this] at h
      cases hex <;> simp at h
    obtain ⟨c1, c2, c3⟩ := letter_chars hc
    have h43 : ¬ Digit hex 43 := by cases hex <;> decide
    have h45 : ¬ Digit hex 45 := by cases hex <;> decide
    have hcd : hex = false → DecChar c := by
      rintro rfl
      simp [letters] at hc; unfold DecChar; tauto
    have digits : ∀ (sign : Int) (x : Bytes), readExpDigits sign under x = some (e, under', []) →
        under' = (under || x.contains 95) ∧ Loose false x ∧
        ∀ saw, saw ≠ .digit → underscoreLoop hex x saw = true → ∃ ds k, Run false x ds ∧ KeptNat (value false ds) k ∧ e = sign * k := by
      intro sign x hx
      cases x with
      | nil => simp [readExpDigits] at hx
      | cons d x =>
        rw [readExpDigits] at hx
        split_ifs at hx with hd
        obtain ⟨A, R, hs, hA, hR⟩ := loose_split false (d :: x)
        rw [hs] at hx ⊢
        obtain ⟨k, k1, k2⟩ := exp_loose R hA 0 0 under (.inl ⟨rfl, by decide⟩)
        have hend : ∀ k u, readExponent R k u = (k, u, R) := by
          intro k u
          cases R with
          | nil => rfl
          | cons y R =>
            obtain ⟨y1, y2⟩ := hR y R rfl
            rw [readExponent, if_neg y1, if_neg (mt (digit_false y).mp y2)]
        rw [k2, hend] at hx
        simp only [Option.some.injEq, Prod.mk.injEq] at hx
        obtain ⟨rfl, rfl, rfl⟩ := hx
        rw [List.append_nil] at hs ⊢
        refine ⟨rfl, hA, fun saw hsaw hu => ?_⟩
        have hA' : Loose hex A := fun c hc => (hA c hc).imp (digit_hex · hex) id
        have := (under_loose (r := []) (fun c x hx => (by cases hx)) hA' saw (by rwa [List.append_nil])).1
        rcases this with rfl | h1 | ⟨_, _, h', _⟩
        · cases hs
        · exact ⟨_, k, run_of_chars h1 hA, k1, rfl⟩
        · exact absurd h' hsaw
    unfold readExpPart at h
    simp only [if_pos ((letter_iff hex c).mpr hc)] at h
    have skip : ∀ (c : UInt8) (x : Bytes) (saw : Saw), ¬ Digit hex c → c ≠ 95 → underscoreLoop hex (c :: x) saw = true →
        underscoreLoop hex x .other = true := by
      intro c x saw h1 h2 h3
      rw [under_other h1 h2] at h3
      split_ifs at h3
      exact h3
    split at h
    · rename_i x
      obtain ⟨d1, d2, d3⟩ := digits 1 _ h
      refine ⟨by rw [d1]; simp [Ne.symm c2], fun hh d hd => ?_, fun saw hs => ?_⟩
      · rcases List.mem_cons.mp hd with rfl | hd
        · exact hcd hh
        · rcases List.mem_cons.mp hd with rfl | hd
          · unfold DecChar; tauto
          · exact loose_dec d2 d hd
      · obtain ⟨ds, k, e1, e2, rfl⟩ := d3 .other (by decide) (skip 43 x _ h43 (by decide) (skip c _ saw c1 c2 hs))
        refine ⟨_, .plus hc e1, ?_⟩
        unfold KeptNat at e2; unfold KeptInt
        rw [abs_of_nonneg (by positivity)]
        omega
    · rename_i x
      obtain ⟨d1, d2, d3⟩ := digits (-1) _ h
      refine ⟨by rw [d1]; simp [Ne.symm c2], fun hh d hd => ?_, fun saw hs => ?_⟩
      · rcases List.mem_cons.mp hd with rfl | hd
        · exact hcd hh
        · rcases List.mem_cons.mp hd with rfl | hd
          · unfold DecChar; tauto
          · exact loose_dec d2 d hd
      · obtain ⟨ds, k, e1, e2, rfl⟩ := d3 .other (by decide) (skip 45 x _ h45 (by decide) (skip c _ saw c1 c2 hs))
        refine ⟨_, .minus hc e1, ?_⟩
        unfold KeptNat at e2; unfold KeptInt
        rw [abs_neg, abs_of_nonneg (by positivity)]
        omega
    · obtain ⟨d1, d2, d3⟩ := digits 1 _ h
      refine ⟨by rw [d1]; simp [Ne.symm c2], fun hh d hd => ?_, fun saw hs => ?_⟩
      · rcases List.mem_cons.mp hd with rfl | hd
        · exact hcd hh
        · exact loose_dec d2 d hd
      · obtain ⟨ds, k, e1, e2, rfl⟩ := d3 .other (by decide) (skip c _ saw c1 c2 hs)
        refine ⟨_, .plain hc e1, ?_⟩
        unfold KeptNat at e2; unfold KeptInt
        rw [abs_of_nonneg (by positivity)]
        omega

/-- Only literals are read. -/
theorem readUnsigned_sound {neg : Bool} {s : Bytes} {n : ReadNumber} (h : readUnsigned neg s = some n) :
    ∃ q e, Literal s q e ∧ n.Is neg q e := by
  unfold readUnsigned at h
  rcases hp : splitPrefix s with ⟨hex, body⟩
  rcases hm : readMantissa hex body ⟨0, 0, false, false, false⟩ with ⟨m, r⟩
  simp only [hp, hm] at h
  split_ifs at h with hd
  simp only [Bool.not_eq_true', Bool.not_eq_false] at hd
  rcases he : readExpPart hex m.under r with _ | ⟨e, under', rest⟩
  · rw [he] at h; cases h
  rw [he] at h
  simp only at h
  split_ifs at h with hu
  simp only [Bool.or_eq_true, Bool.and_eq_true, Bool.not_eq_true', List.isEmpty_eq_false_iff, ne_eq, not_or, not_and, Bool.not_eq_false,
    Decidable.not_not] at hu
  obtain ⟨hu, rfl⟩ := hu
  cases h
  obtain ⟨t, rfl, m1, m2, m3, m4⟩ := mant_sound hm hd
  have e1 := exp_sound he
  have hcontains : under' = (t ++ r).contains 95 := by
    rcases e1 with ⟨rfl, -, -, rfl⟩ | ⟨e1, -⟩
    · rw [m2, List.append_nil]
    · rw [e1, m2, List.contains_append]
  cases hex with
  | false =>
    have hs : s = t ++ r := by
      unfold splitPrefix at hp
      split at hp
      · split_ifs at hp
        · simp at hp
        · exact (Prod.mk.inj hp).2
      · exact (Prod.mk.inj hp).2
    subst hs
    have hdec : ∀ c ∈ t ++ r, DecChar c := by
      intro c hc
      rcases List.mem_append.mp hc with hc | hc
      · have := m3 c hc; unfold DecChar; tauto
      · rcases e1 with ⟨rfl, -⟩ | ⟨-, e1, -⟩
        · cases hc
        · exact e1 rfl c hc
    have hloop : underscoreLoop false (t ++ r) .start = true := by
      by_cases h95 : (95 : UInt8) ∈ t ++ r
      · rw [← underscoreOK_dec hdec]; exact hu (by rw [hcontains]; simpa using h95)
      · exact under_none h95 _ (by decide)
    obtain ⟨⟨saw', w⟩, hM⟩ := m4 _ hloop
    have hM : Mant false t ((m.value : ℚ) / base false ^ m.behind) := by
      rcases hM with hM | ⟨_, _, h', _⟩
      · exact hM
      · cases h'
    rcases e1 with ⟨rfl, -, rfl, -⟩ | ⟨-, -, e1⟩
    · rw [List.append_nil]
      exact ⟨_, _, .decimal hM, rfl, _, .inl ⟨rfl, by simp⟩, rfl, by simp⟩
    · obtain ⟨e0, x1, x2⟩ := e1 _ w
      exact ⟨_, _, .exponent hM x1, rfl, _, x2, rfl, rfl⟩
  | true =>
    have hs : ∃ x, (x = 120 ∨ x = 88) ∧ s = 48 :: x :: (t ++ r) := by
      unfold splitPrefix at hp
      split at hp
      · rename_i c d r'
        split_ifs at hp with hc
        · exact ⟨c, (lower_iff c).2.2.mp hc, by rw [(Prod.mk.inj hp).2]⟩
        · simp at hp
      · simp at hp
    obtain ⟨x, hx, rfl⟩ := hs
    have hl : lowerByte x = 120 := (lower_iff x).2.2.mpr hx
    have hok : underscoreOK (48 :: x :: (t ++ r)) = underscoreLoop true (t ++ r) .digit := by
      rw [underscoreOK, if_pos (.inr (.inr hl)), hl, decide_eq_true rfl]
    have hloop : underscoreLoop true (t ++ r) .digit = true := by
      by_cases h95 : (95 : UInt8) ∈ t ++ r
      · rw [← hok]; exact hu (by rw [hcontains]; simpa using h95)
      · exact under_none h95 _ (by decide)
    obtain ⟨⟨saw', w⟩, hM⟩ := m4 _ hloop
    rcases e1 with ⟨-, h', -⟩ | ⟨-, -, e1⟩
    · cases h'
    obtain ⟨e0, x1, x2⟩ := e1 _ w
    rcases hM with hM | ⟨t', rfl, -, ht, hM⟩
    · exact ⟨_, _, .hex hx hM x1, rfl, _, x2, rfl, rfl⟩
    · exact ⟨_, _, .hexUnder hx ht hM x1, rfl, _, x2, rfl, rfl⟩

end Rap
