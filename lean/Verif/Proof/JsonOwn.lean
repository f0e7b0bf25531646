import Verif.Model.JsonOwn
import Verif.Spec.JsonOwn
import Verif.Proof.JsonEncode
import Verif.Proof.GoTime
import Verif.Props.GoJson
import Verif.Props.Unmarshal

/-!
# What the library writes, Go's own reader reads
-/

namespace Rap

open FloatText

/-! ## Numbers -/

theorem fixed_length {x : F64} (hx : x.isFinite = true) : (fixedText b64 6 x.fp).length ≤ 2000 := by
  have hm := (F64.finite_iff x).1 hx
  obtain ⟨h1, h2⟩ := FP.notNaN_of_finite hm
  rw [fixedText, if_neg (by simp [h1]), if_neg (by simp [h2])]
  dsimp only
  refine sign_length _ ?_
  have hmag : magInt 52 x.fp.m ≤ 2 ^ 1074 * 10 ^ 400 :=
    (magInt_lt.2 hm).le.trans (show magInt 52 b64.infMag ≤ 2 ^ 1074 * 10 ^ 400 by decide +kernel)
  have hn : fixedMag b64 6 x.fp ≤ 10 ^ 400 * 10 ^ 6 + 1 := by
    have hd : magInt 52 x.fp.m * 10 ^ 6 / 2 ^ 1074 ≤ 10 ^ 400 * 10 ^ 6 := by
      refine Nat.div_le_of_le_mul ?_
      rw [← Nat.mul_assoc]
      exact Nat.mul_le_mul_right _ hmag
    have : fixedMag b64 6 x.fp = rne (magInt 52 x.fp.m * 10 ^ 6) (2 ^ b64.scale) := rfl
    rw [this, b64_scale]
    rcases rne_cases (magInt 52 x.fp.m * 10 ^ 6) (2 ^ 1074) with h | h
    · rw [h]; exact Nat.le_succ_of_le hd
    · rw [h]; exact Nat.succ_le_succ hd
  generalize fixedMag b64 6 x.fp = n at hn
  have h3 := (fixedDigits_spec 6 (n % 10 ^ 6) (Nat.mod_lt _ (by decide))).1
  have h4 : n / 10 ^ 6 < 10 ^ 407 := by
    refine lt_of_le_of_lt (Nat.div_le_self _ _) (lt_of_le_of_lt hn ?_)
    decide +kernel
  have h5 := decimalNat_length (k := 407) (by decide) h4
  rw [List.length_append, List.length_cons, h3]
  omega

theorem integer_length {t : Bytes} {i : Int} (h : IsInteger t i) (hi : i.natAbs ≤ 2 ^ 53) : t.length ≤ 2000 := by
  rcases h with ⟨h1, h⟩ | ⟨h1, d, rfl, h⟩
  · exact (decimal_length (k := 20) h (by decide) (by omega)).trans (by decide)
  · have := decimal_length (k := 20) h (by decide) (by omega)
    rw [List.length_cons]
    omega

theorem single_length {f : F32} {t : Bytes} (h : jsonFloat b32 f.fp = some t) : t.length ≤ 2000 :=
  jsonFloat_length b32_mb (by decide) (by decide +kernel) (by decide +kernel) h

theorem goText {t : Bytes} {d : F64} (hl : t.length ≤ 2000) (h : JsonNumber t d) : GoNumberText t d :=
  (goNumber_iff fun _ => modest_short hl).2 h

/-- The laws of `goMarshal` hold for the numbers that Go's decoder reads. -/
theorem goMarshal_lawful_go {time : BitVec 64 → Bytes} {parseTime : Bytes → Option (BitVec 64)}
    (h : ∀ n, PlainText (time n) ∧ Utf8 (time n) ∧ ¬ b!"0x" <+: time n ∧ parseTime (time n) = some (BitVec.ofInt 64 (n.toInt / 1000))) :
    (goMarshal time).Lawful (goReader parseTime) GoNumberText where
  number_text t d h := by
    obtain ⟨minus, v, h1⟩ := validNumber_iff.1 (goNumber_valid h)
    exact numberText_chars h1
  number_unique t d d' h h' := by
    rw [GoNumberText] at h h'
    rw [h] at h'
    exact Option.some.inj h'
  number_finite t d h := (F64.finite_number d).1 (goNumber_finite h)
  quote := (goMarshal_lawful h).quote
  quote_any := (goMarshal_lawful h).quote_any
  integer t i h hi := by
    obtain ⟨d, h1, h2⟩ := jsonNumber_integer h hi
    exact ⟨d, goText (integer_length h hi) h1, h2⟩
  float64 x q h := jsonFloat64_go ((F64.finite_number x).2 ⟨_, h⟩)
  float64_none := (goMarshal_lawful h).float64_none
  float32 f q h := by
    obtain ⟨t, d, r, h1, h2, h3⟩ := single_law h
    exact ⟨t, d, r, h1, goText (single_length h1) h2, h3⟩
  float32_exact f i h hi := by
    obtain ⟨t, d, h1, h2, h3⟩ := single_exact h hi
    exact ⟨t, d, h1, goText (single_length h1) h2, h3⟩
  float32_none := (goMarshal_lawful h).float32_none
  time := h
  fixed x q h := by
    obtain ⟨d, r, h1, h2, h3, -⟩ := jsonNumber_six h
    exact ⟨d, r, goText (fixed_length ((F64.finite_number x).2 ⟨_, h⟩)) h1, h2, h3⟩
  fixed_none := (goMarshal_lawful h).fixed_none

/-! ## Integers and float32s -/

theorem literalOf_plain {t : Bytes} (h : ∀ c ∈ t, c ∈ b!"0123456789+-.eE") : literalOf t = t := by
  have hs : ∀ c ∈ t, isJsonSpace c = false := by
    intro c hc
    have : ∀ c ∈ b!"0123456789+-.eE", isJsonSpace c = false := by decide
    exact this c (h c hc)
  have h1 : skipSpace t = t := by
    cases t with
    | nil => rfl
    | cons c r => exact skipSpace_other (hs c (.head _)) r
  rw [literalOf, h1]
  clear h h1
  induction t with
  | nil => rfl
  | cons c r ih =>
    rw [List.takeWhile_cons_of_pos (by simp [hs c (.head _)]), ih fun c hc => hs c (.tail _ hc)]

theorem goInt32_integer {t : Bytes} {i : BitVec 32} (h : IsInteger t i.toInt) : goInt32 t = some i := by
  have hl := i.toInt_lt
  have hg := i.le_toInt
  obtain ⟨d, hd, -⟩ := jsonNumber_integer h (by omega)
  obtain ⟨v, h1, -⟩ := jsonNumber_iff.1 hd
  rw [goInt32, literalOf_plain (numberText_chars h1).2]
  have : atoiText t = some i.toInt := by
    refine atoiText_eq.2 ⟨by omega, by omega, ?_⟩
    rcases h with ⟨h1, h⟩ | ⟨h1, d, rfl, h⟩
    · exact .inr (.inr ⟨i.toInt.toNat, readDigits_eq.2 ⟨h.1, h.2.1, h.2.2.1⟩, by omega⟩)
    · exact .inl ⟨d, (-i.toInt).toNat, rfl, readDigits_eq.2 ⟨h.1, h.2.1, h.2.2.1⟩, by omega⟩
  rw [this, Option.bind_some, if_pos ⟨by omega, by omega⟩, BitVec.ofInt_toInt]

/-- A text whose nearest float is known is read as this float. -/
theorem parse_mag {f : Fmt} (hf : 0 < f.mb) (hi : 0 < f.infMag) (ho : f.infMag % 2 = 0) {L : Nat} (hL : 5 * L ≤ 10000) (hl : f.limit ≤ 2 ^ L)
    (hs : f.scale + 1 < L) {t : Bytes} (ht : t.length ≤ L) {x : FP} {v : ℚ} (hx : x.m < f.infMag) (h : NumberText t x.s v)
    (hn : NearMag f.mb (v * 2 ^ f.scale) x.m) : goParseFloat f t = some x := by
  have hpos := scale_pos f
  have hv0 := numberText_nonneg h
  obtain ⟨e, hsig⟩ := numberText_signed h
  have hnear := rnMag_near hf (v * 2 ^ f.scale)
  rw [abs_of_nonneg (mul_nonneg hv0 hpos.le)] at hnear
  have hm : rnMag f (v * 2 ^ f.scale) = x.m := by
    rw [rnMag, hnear.unique hn]
    exact Nat.min_eq_left hx.le
  have hlt : v < f.limit := by
    by_contra hc
    have := rnMag_above hf hi ho (q := v) (by rw [abs_of_nonneg hv0]; exact not_lt.1 hc)
    omega
  obtain ⟨y, h1, h2⟩ := (parse_number hf hi ho hL hl hs hsig (.inr ht)).2 hlt
  rw [h1]
  obtain ⟨-, hval, hsg⟩ := h2
  obtain ⟨g1, -⟩ := rn_mag f (signed x.s v)
  have g2 : rnMag f (signed x.s v * 2 ^ f.scale) = x.m := by
    rw [← hm]
    cases x.s
    · rfl
    · rw [signed, if_pos rfl, neg_mul, rnMag_neg]
  have g3 : |y.val f| * 2 ^ f.scale = magInt f.mb y.m := by
    rw [FP.val, FP.int, abs_div, abs_of_pos hpos, div_mul_cancel₀ _ hpos.ne']
    split
    · push_cast; rw [abs_neg, abs_of_nonneg (by positivity)]
    · push_cast; rw [abs_of_nonneg (by positivity)]
  rw [hval, g1, g2] at g3
  have g4 : x.m = y.m := magInt_inj.1 (by exact_mod_cast g3)
  obtain ⟨s, m⟩ := y
  obtain ⟨s', m'⟩ := x
  dsimp only at hsg g4
  rw [hsg, g4]

theorem goFloat32_written {f : F32} {t : Bytes} (h : jsonFloat b32 f.fp = some t) : goFloat32 t = some f := by
  have hx : f.fp.m < b32.infMag := by
    by_contra hc
    rw [jsonFloat, if_pos (not_lt.1 hc)] at h
    cases h
  obtain ⟨t', v, h1, h2, h3, -⟩ := jsonFloat_text b32_mb (by decide) hx
  rw [h] at h1
  cases h1
  rw [goFloat32, literalOf_plain (numberText_chars h2).2, goParseFloat32,
    parse_mag b32_mb (by decide) (by decide) (L := 2000) (by decide) b32_limit_le (by decide) (single_length h) hx h2 h3,
    Option.map_some, F32.ofFP_fp]

/-! ## Depth and names -/

theorem means_nests {X : JsonExt} {j : JVal} {p : Property} (h : Means X j p) : ∀ n, NestsProp n p → Nests n j := by
  refine Means.rec (motive_1 := fun j p _ => ∀ n, NestsProp n p → Nests n j)
    (motive_2 := fun l l' _ => ∀ n, (∀ p ∈ l', NestsProp n p) → ∀ v ∈ l, Nests n v)
    ?_ ?_ ?_ ?_ ?_ ?_ ?_ ?_ ?_ ?_ ?_ ?_ ?_ ?_ h
  · intros; exact .num
  · intros; exact .num
  · intros; exact .bool
  · intros; exact .str
  · intros; exact .str
  · intros; exact .str
  · intros; exact .str
  · intro d x y hd n hn
    cases hn
    refine .obj fun m hm => ?_
    have := hd.mem_iff.1 hm
    simp only [List.mem_cons, List.not_mem_nil, or_false] at this
    rcases this with rfl | rfl <;> exact .num
  · intro d x y z hd n hn
    cases hn
    refine .obj fun m hm => ?_
    have := hd.mem_iff.1 hm
    simp only [List.mem_cons, List.not_mem_nil, or_false] at this
    rcases this with rfl | rfl | rfl <;> exact .num
  · intro d kvs _ _ _ _ _ ih n hn
    cases hn with
    | block hn =>
      refine .obj fun m hm => ih _ ?_ _ (List.mem_map_of_mem hm)
      intro p hp
      obtain ⟨kv, hkv, rfl⟩ := List.mem_map.1 hp
      exact hn kv hkv
  · intro bs _ n hn
    cases hn
    refine .arr fun v hv => ?_
    obtain ⟨b, -, rfl⟩ := List.mem_map.1 hv
    exact .bool
  · intro items props c _ _ _ _ ih n hn
    cases hn with
    | array hn => exact .arr fun v hv => ih _ hn v hv
  · intro n _ v hv
    cases hv
  · intro j p l l' _ _ h1 h2 n hn v hv
    rcases List.mem_cons.1 hv with rfl | hv
    · exact h1 n (hn p (.head _))
    · exact h2 n (fun p hp => hn p (.tail _ hp)) v hv

theorem means_proper {X : JsonExt} {j : JVal} {p : Property} (h : Means X j p) : j.Proper := by
  refine Means.rec (motive_1 := fun j p _ => j.Proper) (motive_2 := fun l l' _ => ∀ v ∈ l, v.Proper)
    ?_ ?_ ?_ ?_ ?_ ?_ ?_ ?_ ?_ ?_ ?_ ?_ ?_ ?_ h
  · intros; trivial
  · intros; trivial
  · intros; trivial
  · intros; trivial
  · intros; trivial
  · intros; trivial
  · intros; trivial
  · intro d x y hd
    rw [JVal.Proper, proper_members_names]
    refine ⟨(hd.map (·.1)).nodup_iff.2 (by simp), fun m hm => ?_⟩
    have := hd.mem_iff.1 hm
    simp only [List.mem_cons, List.not_mem_nil, or_false] at this
    rcases this with rfl | rfl <;> trivial
  · intro d x y z hd
    rw [JVal.Proper, proper_members_names]
    refine ⟨(hd.map (·.1)).nodup_iff.2 (by simp), fun m hm => ?_⟩
    have := hd.mem_iff.1 hm
    simp only [List.mem_cons, List.not_mem_nil, or_false] at this
    rcases this with rfl | rfl | rfl <;> trivial
  · intro d kvs h1 _ _ _ _ ih
    rw [JVal.Proper, proper_members_names]
    exact ⟨h1, fun m hm => ih _ (List.mem_map_of_mem hm)⟩
  · intro bs _
    rw [JVal.Proper, properItems_iff]
    intro v hv
    obtain ⟨b, -, rfl⟩ := List.mem_map.1 hv
    trivial
  · intro items props c _ _ _ _ ih
    rw [JVal.Proper, properItems_iff]
    exact ih
  · intro v hv
    cases hv
  · intro j p l l' _ _ h1 h2 v hv
    rcases List.mem_cons.1 hv with rfl | hv
    · exact h1
    · exact h2 v hv

section Deep

variable {M : MarshalExt} {X : JsonExt} {N : Bytes → F64 → Prop}

mutual
theorem deep_of_marshal (hM : M.Lawful X N) : (p : Property) → ∀ t n, marshal M p = pure t → t ≠ [] → NestsProp n p →
    ∃ j, JText N t j ∧ Nests n j
  | .str s, t, n, h, _, hn => by
    rw [marshal] at h
    obtain ⟨s', hs⟩ := str_text_any hM s
    exact GoE.pure_inj.1 h ▸ ⟨_, hs, .str⟩
  | .int32 i, t, n, h, _, hn => by
    rw [marshal] at h
    obtain ⟨d, h1, h2⟩ := hM.integer _ i.toInt (decimal_spec _) (by have := i.toInt_lt; have := i.le_toInt; omega)
    exact GoE.pure_inj.1 h ▸ ⟨_, .num h1, .num⟩
  | .f32 f, t, n, h, _, hn => by
    rw [marshal, GoE.get_pure] at h
    by_cases hf : ∃ q, number32 f = .fin q
    · obtain ⟨q, hq⟩ := hf
      obtain ⟨t', d, r, g1, g2, -⟩ := hM.float32 f q hq
      rw [h, Option.some.injEq] at g1
      exact ⟨_, .num (g1 ▸ g2), .num⟩
    · rw [hM.float32_none f fun q hq => hf ⟨q, hq⟩] at h
      simp at h
  | .bool b, t, n, h, _, hn => by
    rw [marshal] at h
    cases b
    · exact GoE.pure_inj.1 h ▸ ⟨_, .false, .bool⟩
    · exact GoE.pure_inj.1 h ▸ ⟨_, .true, .bool⟩
  | .byte b, t, n, h, _, hn => by
    rw [marshal] at h
    obtain ⟨s', hs⟩ := str_text_any hM (b!"0x" ++ hexEncode [b])
    exact GoE.pure_inj.1 h ▸ ⟨_, hs, .str⟩
  | .vec2 x y, t, n, h, _, hn => by
    have hf : ∀ x t, M.float64 x = some t → ∃ q, number64 x = .fin q := by
      intro x t hx
      by_contra hn
      rw [hM.float64_none x fun q hq => hn ⟨q, hq⟩] at hx
      simp at hx
    have h0 := h
    rw [marshal, GoE.bind_pure_iff] at h
    obtain ⟨tx, h1, h⟩ := h
    rw [GoE.bind_pure_iff] at h
    obtain ⟨ty, h2, -⟩ := h
    rw [GoE.get_pure] at h1 h2
    obtain ⟨p, hp⟩ := hf _ _ h1
    obtain ⟨q, hq⟩ := hf _ _ h2
    obtain ⟨t', j, g1, g2, g3, g4, -⟩ := carried_of_portable hM (.vec2 hp hq)
    rw [h0] at g1
    exact ⟨j, GoE.pure_inj.1 g1 ▸ g3, means_nests g4 n hn⟩
  | .vec3 x y z, t, n, h, _, hn => by
    have hf : ∀ x t, M.float64 x = some t → ∃ q, number64 x = .fin q := by
      intro x t hx
      by_contra hn
      rw [hM.float64_none x fun q hq => hn ⟨q, hq⟩] at hx
      simp at hx
    have h0 := h
    rw [marshal, GoE.bind_pure_iff] at h
    obtain ⟨tx, h1, h⟩ := h
    rw [GoE.bind_pure_iff] at h
    obtain ⟨ty, h2, h⟩ := h
    rw [GoE.bind_pure_iff] at h
    obtain ⟨tz, h3, -⟩ := h
    rw [GoE.get_pure] at h1 h2 h3
    obtain ⟨p, hp⟩ := hf _ _ h1
    obtain ⟨q, hq⟩ := hf _ _ h2
    obtain ⟨r, hr⟩ := hf _ _ h3
    obtain ⟨t', j, g1, g2, g3, g4, -⟩ := carried_of_portable hM (.vec3 hp hq hr)
    rw [h0] at g1
    exact ⟨j, GoE.pure_inj.1 g1 ▸ g3, means_nests g4 n hn⟩
  | .block kvs, t, n, h, _, hn => by
    rw [marshal, GoE.bind_pure_iff] at h
    obtain ⟨ts, h1, h⟩ := h
    cases hn with
    | @block n _ hn =>
      obtain ⟨ms, d, rfl, g3, g4, g5⟩ := deep_of_members hM kvs ts n h1 hn
      exact GoE.pure_inj.1 h ▸ ⟨_, object_text g3 g4, .obj g5⟩
  | .time t', t, n, h, _, hn => by
    rw [marshal] at h
    obtain ⟨s', hs⟩ := str_text_any hM (M.time (t' * 1000))
    exact GoE.pure_inj.1 h ▸ ⟨_, hs, .str⟩
  | .array c props, t, n, h, _, hn => by
    rw [marshal, GoE.bind_pure_iff] at h
    obtain ⟨ts, h1, h⟩ := h
    cases hn with
    | @array n _ _ hn =>
      obtain ⟨js, g, g'⟩ := deep_of_items hM props ts n h1 hn
      exact GoE.pure_inj.1 h ▸ ⟨_, array_text g, .arr g'⟩
  | .raw base data, t, n, h, ht, hn => by
    rw [marshal] at h
    by_cases h5 : base = 5
    · rw [if_pos h5] at h
      rw [GoE.bind_pure_iff] at h
      obtain ⟨b, -, h⟩ := h
      obtain ⟨s', hs⟩ := str_text_any hM (b!"0x" ++ hexEncode b)
      exact GoE.pure_inj.1 h ▸ ⟨_, hs, .str⟩
    · rw [if_neg h5] at h
      split at h
      · rw [GoE.bind_pure_iff] at h
        obtain ⟨b, -, h⟩ := h
        have e : b.map (fun c => boolText (c &&& 1 == 1)) = (b.map fun c => (c &&& 1 == 1)).map boolText := by
          rw [List.map_map]; rfl
        rw [e] at h
        refine GoE.pure_inj.1 h ▸ ⟨_, array_text (bools_text _), ?_⟩
        cases hn with
        | binary => exact absurd rfl h5
        | raw =>
          refine .arr fun v hv => ?_
          obtain ⟨b, -, rfl⟩ := List.mem_map.1 hv
          exact .bool
      · exact absurd (GoE.pure_inj.1 h).symm ht
  | .nil, t, n, h, _, hn => by
    rw [marshal] at h
    exact GoE.pure_inj.1 h ▸ ⟨_, .null, .null⟩

theorem deep_of_members (hM : M.Lawful X N) : (kvs : List (Bytes × Property)) → ∀ ts n, marshalMembers M kvs = pure ts →
    (∀ kv ∈ kvs, NestsProp n kv.2) →
    ∃ (ms : List (Bytes × Bytes)) (d : List (Bytes × JVal)), ts = (ms.map fun m => m.1 ++ [58] ++ m.2) ∧
    List.Forall₂ KeyText (ms.map (·.1)) (d.map (·.1)) ∧ List.Forall₂ (JText N) (ms.map (·.2)) (d.map (·.2)) ∧
    ∀ m ∈ d, Nests n m.2
  | [], ts, n, h, hn => by
    rw [marshalMembers] at h
    exact ⟨[], [], (GoE.pure_inj.1 h).symm, .nil, .nil, by simp⟩
  | (k, p) :: kvs, ts, n, h, hn => by
    rw [marshalMembers, GoE.bind_pure_iff] at h
    obtain ⟨t, h1, h⟩ := h
    rw [GoE.bind_pure_iff] at h
    obtain ⟨t', h2, h⟩ := h
    obtain ⟨ht, rfl⟩ := nested_iff h2
    rw [GoE.bind_pure_iff] at h
    obtain ⟨us, h3, h⟩ := h
    obtain ⟨j, hj, hd⟩ := deep_of_marshal hM p _ n h1 ht (hn (k, p) (.head _))
    obtain ⟨ms, d, rfl, g3, g4, g5⟩ := deep_of_members hM kvs us n h3 fun kv hkv => hn kv (.tail _ hkv)
    obtain ⟨k', hk⟩ := key_text_any hM k
    exact ⟨(M.str k, _) :: ms, (k', j) :: d, (GoE.pure_inj.1 h).symm, .cons hk g3, .cons hj g4, by
      intro m hm
      rcases List.mem_cons.1 hm with rfl | hm
      · exact hd
      · exact g5 m hm⟩

theorem deep_of_items (hM : M.Lawful X N) : (ps : List Property) → ∀ ts n, marshalItems M ps = pure ts →
    (∀ p ∈ ps, NestsProp n p) → ∃ js, List.Forall₂ (JText N) ts js ∧ ∀ v ∈ js, Nests n v
  | [], ts, n, h, hn => by
    rw [marshalItems] at h
    exact GoE.pure_inj.1 h ▸ ⟨[], .nil, by simp⟩
  | p :: ps, ts, n, h, hn => by
    rw [marshalItems, GoE.bind_pure_iff] at h
    obtain ⟨t, h1, h⟩ := h
    rw [GoE.bind_pure_iff] at h
    obtain ⟨t', h2, h⟩ := h
    obtain ⟨ht, rfl⟩ := nested_iff h2
    rw [GoE.bind_pure_iff] at h
    obtain ⟨us, h3, h⟩ := h
    obtain ⟨j, hj, hd⟩ := deep_of_marshal hM p _ n h1 ht (hn p (.head _))
    obtain ⟨js, g, g'⟩ := deep_of_items hM ps us n h3 fun p hp => hn p (.tail _ hp)
    refine GoE.pure_inj.1 h ▸ ⟨j :: js, .cons hj g, fun v hv => ?_⟩
    rcases List.mem_cons.1 hv with rfl | hv
    · exact hd
    · exact g' v hv
end

end Deep

/-! ## What is written is UTF-8 -/

theorem numberChars_utf8 {t : Bytes} (h : ∀ c ∈ t, c ∈ b!"0123456789+-.eE") : Utf8 t := by
  refine utf8_ascii t fun c hc => ?_
  have : ∀ c ∈ b!"0123456789+-.eE", c < 128 := by decide
  exact this c (h c hc)

theorem jsonFloat_utf8 {f : Fmt} (hf : 0 < f.mb) (hs : f.scale ≤ 1074) {x : FP} {t : Bytes} (h : jsonFloat f x = some t) : Utf8 t := by
  have hx : x.m < f.infMag := by
    by_contra hc
    rw [jsonFloat, if_pos (not_lt.1 hc)] at h
    cases h
  obtain ⟨t', v, h1, h2, -⟩ := jsonFloat_text hf hs hx
  rw [h] at h1
  cases h1
  exact numberChars_utf8 (numberText_chars h2).2

theorem boolText_utf8 (b : Bool) : Utf8 (boolText b) := by
  cases b <;> exact utf8_ascii _ (by decide)

theorem str_utf8 (time : BitVec 64 → Bytes) (s : Bytes) : Utf8 ((goMarshal time).str s) := stringText_utf8 s

theorem around_utf8 {a b : UInt8} {u : Bytes} (ha : a < 128) (hb : b < 128) (h : Utf8 u) : Utf8 ([a] ++ u ++ [b]) :=
  ((utf8_ascii [a] (by simpa using ha)).append h).append (utf8_ascii [b] (by simpa using hb))

mutual
theorem marshal_utf8 (time : BitVec 64 → Bytes) : (p : Property) → ∀ t, marshal (goMarshal time) p = pure t → Utf8 t
  | .str s, t, h => by
    rw [marshal] at h
    exact GoE.pure_inj.1 h ▸ str_utf8 time s
  | .int32 i, t, h => by
    rw [marshal] at h
    obtain ⟨d, hd, -⟩ := jsonNumber_integer (decimal_spec i.toInt) (by have := i.toInt_lt; have := i.le_toInt; omega)
    obtain ⟨v, h1, -⟩ := jsonNumber_iff.1 hd
    exact GoE.pure_inj.1 h ▸ numberChars_utf8 (numberText_chars h1).2
  | .f32 f, t, h => by
    rw [marshal, GoE.get_pure] at h
    exact jsonFloat_utf8 b32_mb (by decide) h
  | .bool b, t, h => by
    rw [marshal] at h
    exact GoE.pure_inj.1 h ▸ boolText_utf8 b
  | .byte b, t, h => by
    rw [marshal] at h
    exact GoE.pure_inj.1 h ▸ str_utf8 time _
  | .vec2 x y, t, h => by
    rw [marshal, GoE.bind_pure_iff] at h
    obtain ⟨tx, h1, h⟩ := h
    rw [GoE.bind_pure_iff] at h
    obtain ⟨ty, h2, h⟩ := h
    rw [GoE.get_pure] at h1 h2
    rw [← GoE.pure_inj.1 h]
    exact ((((utf8_ascii _ (by decide)).append (jsonFloat_utf8 b64_mb (by decide) h1)).append (utf8_ascii _ (by decide))).append
      (jsonFloat_utf8 b64_mb (by decide) h2)).append (utf8_ascii _ (by decide))
  | .vec3 x y z, t, h => by
    rw [marshal, GoE.bind_pure_iff] at h
    obtain ⟨tx, h1, h⟩ := h
    rw [GoE.bind_pure_iff] at h
    obtain ⟨ty, h2, h⟩ := h
    rw [GoE.bind_pure_iff] at h
    obtain ⟨tz, h3, h⟩ := h
    rw [GoE.get_pure] at h1 h2 h3
    rw [← GoE.pure_inj.1 h]
    exact ((((((utf8_ascii _ (by decide)).append (jsonFloat_utf8 b64_mb (by decide) h1)).append (utf8_ascii _ (by decide))).append
      (jsonFloat_utf8 b64_mb (by decide) h2)).append (utf8_ascii _ (by decide))).append
      (jsonFloat_utf8 b64_mb (by decide) h3)).append (utf8_ascii _ (by decide))
  | .block kvs, t, h => by
    rw [marshal, GoE.bind_pure_iff] at h
    obtain ⟨ts, h1, h⟩ := h
    rw [← GoE.pure_inj.1 h]
    exact around_utf8 (by decide) (by decide) (commas_utf8 (members_utf8 time kvs ts h1))
  | .time u, t, h => by
    rw [marshal] at h
    exact GoE.pure_inj.1 h ▸ str_utf8 time _
  | .array c props, t, h => by
    rw [marshal, GoE.bind_pure_iff] at h
    obtain ⟨ts, h1, h⟩ := h
    rw [← GoE.pure_inj.1 h]
    exact around_utf8 (by decide) (by decide) (commas_utf8 (items_utf8 time props ts h1))
  | .raw base data, t, h => by
    rw [marshal] at h
    split_ifs at h
    · rw [GoE.bind_pure_iff] at h
      obtain ⟨b, -, h⟩ := h
      exact GoE.pure_inj.1 h ▸ str_utf8 time _
    · rw [GoE.bind_pure_iff] at h
      obtain ⟨b, -, h⟩ := h
      rw [← GoE.pure_inj.1 h]
      refine around_utf8 (by decide) (by decide) (commas_utf8 fun t ht => ?_)
      obtain ⟨c, -, rfl⟩ := List.mem_map.1 ht
      exact boolText_utf8 _
    · exact GoE.pure_inj.1 h ▸ .nil
  | .nil, t, h => by
    rw [marshal] at h
    exact GoE.pure_inj.1 h ▸ utf8_ascii _ (by decide)

theorem members_utf8 (time : BitVec 64 → Bytes) : (kvs : List (Bytes × Property)) → ∀ ts, marshalMembers (goMarshal time) kvs = pure ts →
    ∀ t ∈ ts, Utf8 t
  | [], ts, h => by
    rw [marshalMembers] at h
    rw [← GoE.pure_inj.1 h]
    simp
  | (k, p) :: rest, ts, h => by
    rw [marshalMembers, GoE.bind_pure_iff] at h
    obtain ⟨t, h1, h⟩ := h
    rw [GoE.bind_pure_iff] at h
    obtain ⟨t', h2, h⟩ := h
    rw [GoE.bind_pure_iff] at h
    obtain ⟨ts', h3, h⟩ := h
    have e : t = t' := by
      rw [nested] at h2
      split_ifs at h2
      · cases h2
      · exact GoE.pure_inj.1 h2
    subst e
    rw [← GoE.pure_inj.1 h]
    intro u hu
    rcases List.mem_cons.1 hu with rfl | hu
    · exact ((str_utf8 time k).append (utf8_ascii [58] (by decide))).append (marshal_utf8 time p t h1)
    · exact members_utf8 time rest ts' h3 u hu

theorem items_utf8 (time : BitVec 64 → Bytes) : (ps : List Property) → ∀ ts, marshalItems (goMarshal time) ps = pure ts →
    ∀ t ∈ ts, Utf8 t
  | [], ts, h => by
    rw [marshalItems] at h
    rw [← GoE.pure_inj.1 h]
    simp
  | p :: rest, ts, h => by
    rw [marshalItems, GoE.bind_pure_iff] at h
    obtain ⟨t, h1, h⟩ := h
    rw [GoE.bind_pure_iff] at h
    obtain ⟨t', h2, h⟩ := h
    rw [GoE.bind_pure_iff] at h
    obtain ⟨ts', h3, h⟩ := h
    have e : t = t' := by
      rw [nested] at h2
      split_ifs at h2
      · cases h2
      · exact GoE.pure_inj.1 h2
    subst e
    rw [← GoE.pure_inj.1 h]
    intro u hu
    rcases List.mem_cons.1 hu with rfl | hu
    · exact marshal_utf8 time p _ h1
    · exact items_utf8 time rest ts' h3 u hu
end

/-! ## Together -/

/-- A text of the grammar, not too deep and without repeated names, is read by Go's decoder. -/
theorem unmarshal_text {t : Bytes} {j : JVal} (h1 : JText GoNumberText t j) (h2 : Utf8 t) (h3 : j.Proper) (h4 : Nests 10000 j) :
    jsonUnmarshal t = some j := by
  have : jsonTree t = some j := jsonTree_iff.2 ⟨t, (coerced_utf8 h2).2 rfl, h1, h4⟩
  rw [jsonUnmarshal, this, Option.map_some, asMaps_of_proper _ j (Nat.lt_succ_self _) h3]

/-- The value types read depends on what the text is read as only. -/
theorem unmarshalLike_congr {U U' : UnmarshalExt} (X : JsonExt) {t : Bytes} (h1 : U.value t = U'.value t) (h2 : U.int32 t = U'.int32 t)
    (h3 : U.float32 t = U'.float32 t) (p : Property) : unmarshalLike U X p t = unmarshalLike U' X p t := by
  cases p <;> simp only [unmarshalLike, decodeString, unmarshalInt32, unmarshalFloat32, unmarshalBool, unmarshalByte, unmarshalVector2,
    unmarshalVector3, unmarshalFields, unmarshalBlock, unmarshalTime, unmarshalArray, unmarshalRaw, h1, h2, h3]

open Classical in
/-- Go's reader of int32s and float32s, beside one that reads every text of the grammar. -/
noncomputable def wideUnmarshal : UnmarshalExt where
  value b := if h : ∃ j, JText GoNumberText b j then some h.choose else none
  int32 := goInt32
  float32 := goFloat32

theorem wideUnmarshal_lawful {time : BitVec 64 → Bytes} {X : JsonExt} (hM : (goMarshal time).Lawful X GoNumberText) :
    wideUnmarshal.Lawful (goMarshal time) GoNumberText where
  value b j := by
    constructor
    · intro h
      dsimp only [wideUnmarshal] at h
      split at h
      · rename_i h2
        rw [← Option.some.inj h]
        exact h2.choose_spec
      · simp at h
    · intro h
      have h2 : ∃ j, JText GoNumberText b j := ⟨j, h⟩
      dsimp only [wideUnmarshal]
      rw [dif_pos h2, jtext_unique hM.numbers h2.choose_spec h]
  int32 _ _ h := goInt32_integer h
  float32 _ _ h := goFloat32_written h

/-- What a property that its own type can read is written as. -/
theorem recoverable_text {time : BitVec 64 → Bytes} {X : JsonExt} (hM : (goMarshal time).Lawful X GoNumberText) {p : Property}
    (h : Recoverable X p) {n : Nat} (hn : NestsProp n p) :
    ∃ t j, marshal (goMarshal time) p = pure t ∧ JText GoNumberText t j ∧ j.Proper ∧ Nests n j := by
  have portable : ∀ {p}, Portable X p → NestsProp n p → ∃ t j, marshal (goMarshal time) p = pure t ∧ JText GoNumberText t j ∧
      j.Proper ∧ Nests n j := by
    intro p h hn
    obtain ⟨t, j, h1, -, h3, h4, -⟩ := carried_of_portable hM h
    exact ⟨t, j, h1, h3, means_proper h4, means_nests h4 n hn⟩
  cases h with
  | str h => exact ⟨_, _, by rw [marshal], str_text hM h, trivial, .str⟩
  | int32 => exact portable .int32 hn
  | f32 h =>
    obtain ⟨t, d, r, g1, g2, -⟩ := hM.float32 _ _ h
    exact ⟨t, .num d, by rw [marshal, g1]; rfl, .num g2, trivial, .num⟩
  | bool => exact portable .bool hn
  | byte => exact portable .byte hn
  | vec2 h1 h2 => exact portable (.vec2 h1 h2) hn
  | vec3 h1 h2 h3 => exact portable (.vec3 h1 h2 h3) hn
  | time h1 h2 => exact portable (.time h1 h2) hn
  | other h => exact portable h hn

end Rap
