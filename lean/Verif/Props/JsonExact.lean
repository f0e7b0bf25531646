import Verif.Spec.JsonExact
import Verif.Props.JsonText

/-!
# C43: exactly which properties the importer of JSON returns
-/

namespace Rap

section Exact

variable {X : JsonExt}

/-- The test of the importer for integers. -/
theorem integral_test {d : F64} : FP.eq b64 d.fp (F64.ofInt (toInt64 d)).fp = true ↔
    ∃ i : Int, number64 d = .fin i ∧ -2 ^ 63 ≤ i ∧ i < 2 ^ 63 := by
  have hlow : number64 (F64.ofInt (-2 ^ 63)) = .fin ((-2 ^ 63 : Int) : ℚ) := by decide +kernel
  constructor
  · intro he
    have he' := (eq_number64 _ _).1 he
    by_cases hq : ∃ i : Int, number64 d = .fin i
    · obtain ⟨i, hi⟩ := hq
      refine ⟨i, hi, ?_⟩
      have hf : d.isFinite = true := (F64.finite_number d).2 ⟨_, hi⟩
      have hr : d.toRat = i := by rw [F64.number_fin hf, Number.fin.injEq] at hi; exact hi
      by_contra hc
      have ht : toInt64 d = -2 ^ 63 := by
        rw [toInt64]
        simp only [tdiv_scale hf i hr, hf, Bool.true_and]
        rw [if_neg]
        simp only [Bool.and_eq_true, decide_eq_true_eq]
        exact hc
      rw [ht, hlow, hi, Number.fin.injEq] at he'
      have : i = -2 ^ 63 := by exact_mod_cast he'.1
      omega
    · exfalso
      cases hn : number64 d with
      | fin q =>
        rw [integral_false hn fun i hi => hq ⟨i, by rw [hn, hi]⟩] at he
        cases he
      | _ =>
        have hf : d.isFinite = false := by
          rw [Bool.eq_false_iff]
          intro hf
          rw [F64.number_fin hf] at hn
          cases hn
        have ht : toInt64 d = -2 ^ 63 := by
          rw [toInt64]
          simp only [hf, Bool.false_and]
          rfl
        rw [ht, hlow, hn] at he'
        cases he'.1
  · rintro ⟨i, hi, h1, h2⟩
    exact integral_true hi h1 h2

theorem number_becomes {d : F64} {p : Property} (h : numberProperty X d = pure p) : Becomes X (.num d) p := by
  rw [numberProperty] at h
  split at h
  · next he =>
    obtain ⟨i, hi, h1, h2⟩ := integral_test.1 he
    rw [toInt64_int hi h1 h2] at h
    split at h
    · next hr =>
      rw [GoE.pure_inj] at h
      subst h
      exact .int hi hr.1 hr.2
    · exact absurd h GoE.fail_ne
  · next he =>
    rw [GoE.bind_pure_iff] at h
    obtain ⟨f, hf, h⟩ := h
    rw [GoE.pure_inj] at h
    subst h
    refine .float (fun i hi => ?_) (GoE.get_pure.1 hf)
    by_contra hc
    exact he (integral_test.2 ⟨i, hi, by omega, by omega⟩)

theorem becomes_number {d : F64} {f : F32} (h : ∀ i : Int, number64 d = .fin i → i < -2 ^ 63 ∨ 2 ^ 63 ≤ i)
    (hf : X.float32 d = some f) : numberProperty X d = pure (.f32 f) := by
  rw [numberProperty, if_neg, hf]
  · rfl
  · intro he
    obtain ⟨i, hi, h1, h2⟩ := integral_test.1 he
    have := h i hi
    omega

theorem string_becomes (hX : X.Lawful) {s : Bytes} {p : Property} (h : stringProperty X s = pure p) : Becomes X (.str s) p := by
  by_cases h0 : b!"0x" <+: s
  · obtain ⟨text, rfl⟩ := h0
    by_cases ht : ∃ bytes, HexText text bytes
    · obtain ⟨bytes, ht⟩ := ht
      by_cases h1 : bytes.length = 1
      · obtain ⟨b, rfl⟩ := List.length_eq_one_iff.1 h1
        rw [string_byte ht, GoE.pure_inj] at h
        subst h
        exact .byte ht
      · rw [string_binary ht h1, GoE.pure_inj] at h
        subst h
        exact .binary ht h1
    · obtain ⟨n, hn⟩ := C43_bad_hex (X := X) (not_exists.1 ht)
      rw [getProperties] at hn
      rw [hn] at h
      exact absurd h GoE.fail_ne
  · rw [stringProperty, if_neg (fun h => h0 h.1), if_neg h0] at h
    split at h
    · next ht =>
      rw [GoE.bind_pure_iff] at h
      obtain ⟨s', hs, h⟩ := h
      rw [GoE.bind_pure_iff] at h
      obtain ⟨t, ht', h⟩ := h
      rw [GoE.pure_inj] at h
      subst h
      obtain ⟨t', ht⟩ := Option.isSome_iff_exists.1 ht
      have hs := GoE.get_pure.1 hs
      rw [requote_plain (hX.time_plain s t' ht), Option.some.injEq] at hs
      subst hs
      exact .time h0 (GoE.get_pure.1 ht')
    · next ht =>
      rw [GoE.bind_pure_iff] at h
      obtain ⟨t, hs, h⟩ := h
      rw [GoE.pure_inj] at h
      subst h
      exact .text h0 (by simpa using ht) (requote_iff.1 (GoE.get_pure.1 hs))

open Classical in
theorem itemBool_eq (j : JVal) : itemBool j = decide (IsTrue j) := by
  cases j with
  | bool b => cases b <;> simp [itemBool, IsTrue]
  | _ => simp [itemBool, IsTrue]

theorem found_perm {d : List (Bytes × JVal)} {l : List (Bytes × JVal)} (hl : d.length = l.length) (hs : ∀ a ∈ l, a ∈ d)
    (h : (l.map (·.1)).Nodup) : d.Perm l :=
  nodup_perm_length hl hs (List.Nodup.of_map _ h)

theorem assertFloat_pure {v : JVal} {x : F64} (h : assertFloat v = pure x) : v = .num x := by
  cases v with
  | num d => rw [assertFloat, GoE.pure_inj] at h; rw [h]
  | _ => exact absurd h GoE.panic_ne

theorem get_of_keys {d : List (Bytes × JVal)} {k : Bytes} (h : k ∈ d.map (·.1)) : ∃ v, mapGet d k = some v := by
  cases hg : mapGet d k with
  | some v => exact ⟨v, rfl⟩
  | none =>
    obtain ⟨⟨k', v⟩, hm, rfl⟩ := List.mem_map.1 h
    exact absurd hm (not_mem_of_mapGet hg v)

/-- An object becomes a vector, or its members are converted. -/
theorem object_cases {d : List (Bytes × JVal)} {p : Property} (h : getProperties X (.obj d) = pure p) :
    (∃ x y, d.Perm [(b!"x", .num x), (b!"y", .num y)] ∧ p = .vec2 x y) ∨
    (∃ x y z, d.Perm [(b!"x", .num x), (b!"y", .num y), (b!"z", .num z)] ∧ p = .vec3 x y z) ∨
    (¬ (d.map (·.1)).Perm [b!"x", b!"y"] ∧ ¬ (d.map (·.1)).Perm [b!"x", b!"y", b!"z"] ∧
      ∃ kvs, getMembers X d = pure kvs ∧ p = .block kvs) := by
  have hm : (getMembers X d >>= fun kvs => pure (.block kvs)) = (pure p : GoE Property) →
      ∃ kvs, getMembers X d = pure kvs ∧ p = .block kvs := by
    intro h
    rw [GoE.bind_pure_iff] at h
    obtain ⟨a, h1, h2⟩ := h
    rw [GoE.pure_inj] at h2
    exact ⟨a, h1, h2.symm⟩
  rw [getProperties] at h
  split at h
  · next x y hx hy =>
    split at h
    · next hl =>
      left
      rw [GoE.bind_pure_iff] at h
      obtain ⟨a, ha, h⟩ := h
      rw [GoE.bind_pure_iff] at h
      obtain ⟨b, hb, h⟩ := h
      rw [GoE.pure_inj] at h
      rw [assertFloat_pure ha] at hx
      rw [assertFloat_pure hb] at hy
      refine ⟨a, b, found_perm hl ?_ (by simp), h.symm⟩
      intro e he
      simp only [List.mem_cons, List.not_mem_nil, or_false] at he
      rcases he with rfl | rfl
      · exact mem_of_mapGet hx
      · exact mem_of_mapGet hy
    · next hl =>
      have h2 : ¬ (d.map (·.1)).Perm [b!"x", b!"y"] := fun hp => hl (by simpa using hp.length_eq)
      split at h
      · next z hz =>
        split at h
        · next hl3 =>
          right; left
          rw [GoE.bind_pure_iff] at h
          obtain ⟨a, ha, h⟩ := h
          rw [GoE.bind_pure_iff] at h
          obtain ⟨b, hb, h⟩ := h
          rw [GoE.bind_pure_iff] at h
          obtain ⟨c, hc, h⟩ := h
          rw [GoE.pure_inj] at h
          rw [assertFloat_pure ha] at hx
          rw [assertFloat_pure hb] at hy
          rw [assertFloat_pure hc] at hz
          refine ⟨a, b, c, found_perm hl3 ?_ (by simp), h.symm⟩
          intro e he
          simp only [List.mem_cons, List.not_mem_nil, or_false] at he
          rcases he with rfl | rfl | rfl
          · exact mem_of_mapGet hx
          · exact mem_of_mapGet hy
          · exact mem_of_mapGet hz
        · next hl3 => exact .inr (.inr ⟨h2, fun hp => hl3 (by simpa using hp.length_eq), hm h⟩)
      · next hz =>
        refine .inr (.inr ⟨h2, fun hp => ?_, hm h⟩)
        obtain ⟨v, hv⟩ := get_of_keys (d := d) (k := b!"z") (hp.mem_iff.2 (by decide))
        rw [hz] at hv
        cases hv
  · next hno =>
    refine .inr (.inr ⟨fun hp => ?_, fun hp => ?_, hm h⟩) <;>
    · obtain ⟨x, hx⟩ := get_of_keys (d := d) (k := b!"x") (hp.mem_iff.2 (by decide))
      obtain ⟨y, hy⟩ := get_of_keys (d := d) (k := b!"y") (hp.mem_iff.2 (by decide))
      exact hno x y hx hy

mutual
theorem becomes_of (hX : X.Lawful) : (j : JVal) → (p : Property) → getProperties X j = pure p → Becomes X j p
  | .obj d, p, h => by
    rcases object_cases h with ⟨x, y, hp, rfl⟩ | ⟨x, y, z, hp, rfl⟩ | ⟨h2, h3, kvs, hm, rfl⟩
    · exact .vec2 hp
    · exact .vec3 hp
    · have := becomes_members hX d kvs hm
      exact .block h2 h3 this.1 this.2
  | .arr [], p, h => by rw [getProperties.eq_def] at h; exact absurd h GoE.panic_ne
  | .arr (first :: rest), p, h => by
    rw [getProperties.eq_def] at h
    dsimp only at h
    split at h
    · next heq => cases heq
    · next b rest' heq =>
      cases heq
      rw [GoE.pure_inj] at h
      subst h
      rw [show rest.map itemBool = rest.map fun j => @decide (IsTrue j) (Classical.propDecidable _) from
        List.map_congr_left fun j _ => itemBool_eq j]
      exact .bools
    · next first' rest' hb heq =>
      cases heq
      rw [GoE.bind_pure_iff] at h
      obtain ⟨q, hq, h⟩ := h
      rw [GoE.bind_pure_iff] at h
      obtain ⟨qs, hqs, h⟩ := h
      rw [GoE.bind_pure_iff] at h
      obtain ⟨c, hc, h⟩ := h
      rw [GoE.pure_inj] at h
      subst h
      refine .array (fun b hfb => ?_) (.cons (becomes_of hX first q hq) (becomes_items hX rest qs hqs)) ?_
      · subst hfb; exact hb b rfl
      · cases hcode : q.code with
        | ok c' => rw [hcode] at hc; rw [show c' = c from GoE.pure_inj.1 hc]
        | error e => rw [hcode] at hc; exact absurd hc GoE.panic_ne
  | .str s, p, h => by rw [getProperties] at h; exact string_becomes hX h
  | .num d, p, h => by rw [getProperties] at h; exact number_becomes h
  | .bool b, p, h => by rw [getProperties, GoE.pure_inj] at h; subst h; exact .bool
  | .null, p, h => by rw [getProperties, GoE.pure_inj] at h; subst h; exact .null

theorem becomes_members (hX : X.Lawful) : (d : List (Bytes × JVal)) → (kvs : Block) → getMembers X d = pure kvs →
    d.map (·.1) = kvs.map (·.1) ∧ List.Forall₂ (Becomes X) (d.map (·.2)) (kvs.map (·.2))
  | [], kvs, h => by
    rw [getMembers, GoE.pure_inj] at h; subst h; exact ⟨rfl, .nil⟩
  | (k, v) :: rest, kvs, h => by
    rw [getMembers, GoE.bind_pure_iff] at h
    obtain ⟨p, hp, h⟩ := h
    rw [GoE.bind_pure_iff] at h
    obtain ⟨kvs', h', h⟩ := h
    rw [GoE.pure_inj] at h
    subst h
    have := becomes_members hX rest kvs' h'
    exact ⟨by simp [this.1], .cons (becomes_of hX v p hp) this.2⟩

theorem becomes_items (hX : X.Lawful) : (l : List JVal) → (ps : List Property) → getItems X l = pure ps →
    List.Forall₂ (Becomes X) l ps
  | [], ps, h => by rw [getItems, GoE.pure_inj] at h; subst h; exact .nil
  | v :: rest, ps, h => by
    rw [getItems, GoE.bind_pure_iff] at h
    obtain ⟨p, hp, h⟩ := h
    rw [GoE.bind_pure_iff] at h
    obtain ⟨ps', h', h⟩ := h
    rw [GoE.pure_inj] at h
    subst h
    exact .cons (becomes_of hX v p hp) (becomes_items hX rest ps' h')
end

theorem becomes_array {first : JVal} {rest : List JVal} {p : Property} {ps : List Property} {c : UInt8}
    (hb : ∀ b, first ≠ .bool b)
    (h : List.Forall₂ (fun v p => getProperties X v = pure p) (first :: rest) (p :: ps)) (hc : p.code = .ok c) :
    getProperties X (.arr (first :: rest)) = pure (.array c (p :: ps)) := by
  cases h with
  | cons h1 h2 =>
    rw [getProperties.eq_def]
    dsimp only
    have h3 : getItems X rest = pure ps := by rw [getItems_eq]; exact (GoE.each_pure rest).2 h2
    cases first with
    | bool b => exact absurd rfl (hb b)
    | _ => simp only [h1, h3, pure_bind, hc]; rfl

end Exact

/-- C43: exactly what the importer returns for every JSON value. It returns a property without an error precisely in the
cases of `Becomes`: besides the documented ones, null (the nil property), integers outside int64 (a float32), texts
with escapes (resolved once more), arrays that start with a boolean (everything that is not `true` counts as false) and
arrays whose later items are of other kinds than the first. -/
theorem C43_exact {X : JsonExt} (hX : X.Lawful) (j : JVal) (p : Property) : getProperties X j = pure p ↔ Becomes X j p := by
  refine ⟨becomes_of hX j p, fun h => ?_⟩
  refine Becomes.rec (motive_1 := fun j p _ => getProperties X j = pure p)
    (motive_2 := fun l ps _ => List.Forall₂ (fun v p => getProperties X v = pure p) l ps)
    ?null ?bool ?int ?float ?byte ?binary ?time ?text ?vec2 ?vec3 ?block ?bools ?array .nil (fun _ _ h1 h2 => .cons h1 h2) h
  case null => rw [getProperties]
  case bool => intro b; rw [getProperties]
  case int => intro d i h h1 h2; rw [getProperties]; exact number_int h h1 h2
  case float => intro d f h hf; rw [getProperties]; exact becomes_number h hf
  case byte => intro text b h; rw [getProperties]; exact string_byte h
  case binary => intro text bytes h hn; rw [getProperties]; exact string_binary h hn
  case time => intro s t h ht; rw [getProperties]; exact string_time hX h ht
  case text => intro s t h ht hs; exact (C43_texts h ht).1 t hs
  case vec2 => intro d x y h; exact object_vec2 h
  case vec3 => intro d x y z h; exact object_vec3 h
  case block =>
    intro d kvs h2 h3 hk _ ih
    rw [getProperties]
    have hm := getMembers_pure _ _ hk ih
    split
    · next x y hx hy =>
      rw [if_neg]
      · split
        · next z hz =>
          rw [if_neg]
          · rw [hm]; rfl
          · intro hl
            refine h3 (nodup_perm_length (by simpa using hl) ?_ (by decide))
            intro a ha
            simp only [List.mem_cons, List.not_mem_nil, or_false] at ha
            rcases ha with rfl | rfl | rfl
            · exact mem_keys_of_get hx
            · exact mem_keys_of_get hy
            · exact mem_keys_of_get hz
        · rw [hm]; rfl
      · intro hl
        refine h2 (nodup_perm_length (by simpa using hl) ?_ (by decide))
        intro a ha
        simp only [List.mem_cons, List.not_mem_nil, or_false] at ha
        rcases ha with rfl | rfl
        · exact mem_keys_of_get hx
        · exact mem_keys_of_get hy
    · rw [hm]; rfl
  case bools =>
    intro b items
    rw [getProperties.eq_def, show (items.map fun j => @decide (IsTrue j) (Classical.propDecidable _)) = items.map itemBool from
      List.map_congr_left fun j _ => (itemBool_eq j).symm]
  case array => intro first rest p ps c hb _ hc ih; exact becomes_array hb ih hc

/-- `[true, 1, "true", true, null]` becomes the booleans true, false, false, true, false. -/
example : sampleJson.Lawful ∧ Becomes sampleJson
    (.arr [.bool true, .num 0x3FF0000000000000, .str b!"true", .bool true, .null])
    (.newBoolArray [true, false, false, true, false]) := by
  refine ⟨sampleJson_lawful, ?_⟩
  rw [← C43_exact sampleJson_lawful, getProperties.eq_def]
  rfl

/-- `[null]` is not accepted (it crashes), `[1, null]` is. -/
example : (∀ p, ¬ Becomes sampleJson (.arr [.null]) p) ∧
    Becomes sampleJson (.arr [.num 0x3FF0000000000000, .null]) (.array 1 [.newInt 1, .nil]) := by
  constructor
  · intro p h
    rw [← C43_exact sampleJson_lawful, getProperties.eq_def] at h
    simp only [getProperties, getItems, pure_bind] at h
    exact absurd h GoE.panic_ne
  · refine .array (by simp) (.cons ?_ (.cons .null .nil)) rfl
    exact .int (i := 1) (by decide +kernel) (by decide) (by decide)

end Rap
