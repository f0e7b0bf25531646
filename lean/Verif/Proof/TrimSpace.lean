import Verif.Model.ParseFloat
import Verif.Spec.ParseFloat

/-!
# White space around texts
-/

namespace Rap
open FloatText

theorem spaceCodes_eq : spaceCodes = whiteSpace.map utf8 := by decide +kernel

theorem white_iff (w : Bytes) : White w ↔ w ∈ spaceCodes := by
  rw [spaceCodes_eq, List.mem_map, White]
  exact ⟨fun ⟨u, h, e⟩ => ⟨u, h, e.symm⟩, fun ⟨u, h, e⟩ => ⟨u, h, e.symm⟩⟩

theorem afterCode_some {codes : List Bytes} {s r : Bytes} (h : afterCode codes s = some r) : ∃ w ∈ codes, s = w ++ r := by
  unfold afterCode at h
  obtain ⟨w, hw, h⟩ := List.exists_of_findSome?_eq_some h
  split_ifs at h with hp
  rw [List.isPrefixOf_iff_prefix] at hp
  obtain ⟨x, rfl⟩ := hp
  rw [List.drop_left, Option.some.injEq] at h
  exact ⟨w, hw, by rw [h]⟩

theorem afterCode_none {codes : List Bytes} {s : Bytes} : afterCode codes s = none ↔ ∀ w ∈ codes, ¬ w <+: s := by
  unfold afterCode
  rw [List.findSome?_eq_none_iff]
  refine forall₂_congr fun w _ => ?_
  rw [← List.isPrefixOf_iff_prefix]
  split_ifs with h <;> simp [h]

/-- No code starts another. -/
def PrefixFree (codes : List Bytes) : Prop := ∀ w ∈ codes, ∀ w' ∈ codes, w <+: w' → w = w'

theorem afterCode_append {codes : List Bytes} (hf : PrefixFree codes) {w : Bytes} (hw : w ∈ codes) (r : Bytes) :
    afterCode codes (w ++ r) = some r := by
  cases h : afterCode codes (w ++ r) with
  | none => exact absurd (List.prefix_append w r) (afterCode_none.mp h w hw)
  | some r' =>
    obtain ⟨w', hw', he⟩ := afterCode_some h
    have h1 : w <+: w ++ r := List.prefix_append w r
    have h2 : w' <+: w ++ r := he ▸ List.prefix_append w' r'
    have : w = w' := by
      rcases List.prefix_or_prefix_of_prefix h1 h2 with h3 | h3
      · exact hf w hw w' hw' h3
      · exact (hf w' hw' w hw h3).symm
    subst this
    rw [List.append_cancel_left he]

theorem dropCodes_sound (codes : List Bytes) (hne : ∀ w ∈ codes, w ≠ []) : ∀ (fuel : Nat) (s : Bytes),
    (∃ a : List Bytes, (∀ w ∈ a, w ∈ codes) ∧ s = a.flatten ++ dropCodes codes fuel s) ∧
    (s.length ≤ fuel → ∀ w ∈ codes, ¬ w <+: dropCodes codes fuel s) := by
  intro fuel
  induction fuel with
  | zero =>
    intro s
    refine ⟨⟨[], by simp, rfl⟩, fun h w hw hp => ?_⟩
    have : s = [] := List.eq_nil_of_length_eq_zero (by omega)
    subst this
    exact hne w hw (List.prefix_nil.mp hp)
  | succ fuel ih =>
    intro s
    unfold dropCodes
    cases h : afterCode codes s with
    | none => exact ⟨⟨[], by simp, rfl⟩, fun _ => afterCode_none.mp h⟩
    | some r =>
      obtain ⟨w, hw, rfl⟩ := afterCode_some h
      obtain ⟨⟨a, ha, e⟩, h2⟩ := ih r
      refine ⟨⟨w :: a, ?_, ?_⟩, fun hl => h2 ?_⟩
      · intro x hx
        rcases List.mem_cons.mp hx with rfl | hx
        · exact hw
        · exact ha x hx
      · simp only [List.flatten_cons, List.append_assoc]
        rw [← e]
      · have := List.length_pos_of_ne_nil (hne w hw)
        rw [List.length_append] at hl
        omega

theorem dropCodes_append {codes : List Bytes} (hf : PrefixFree codes) (hne : ∀ w ∈ codes, w ≠ []) {t : Bytes} (ht : ∀ w ∈ codes, ¬ w <+: t) :
    ∀ (a : List Bytes), (∀ w ∈ a, w ∈ codes) → ∀ fuel, (a.flatten ++ t).length ≤ fuel → dropCodes codes fuel (a.flatten ++ t) = t := by
  intro a
  induction a with
  | nil =>
    intro _ fuel _
    cases fuel with
    | zero => rfl
    | succ fuel => rw [List.flatten_nil, List.nil_append, dropCodes, afterCode_none.mpr ht]
  | cons w a ih =>
    intro h fuel hl
    have hw := h w (by simp)
    have := List.length_pos_of_ne_nil (hne w hw)
    rw [List.flatten_cons, List.append_assoc] at hl ⊢
    rw [List.length_append] at hl
    cases fuel with
    | zero => omega
    | succ fuel =>
      rw [dropCodes, afterCode_append hf hw]
      exact ih (fun x hx => h x (by simp [hx])) fuel (by omega)

theorem reverse_flatten (a : List Bytes) : a.flatten.reverse = (a.reverse.map List.reverse).flatten := by
  induction a with
  | nil => rfl
  | cons w a ih => simp [ih]

theorem codes_ne : ∀ w ∈ spaceCodes, w ≠ [] := by decide

theorem codes_rev_ne : ∀ w ∈ spaceCodes.map List.reverse, w ≠ [] := by decide

theorem codes_free : PrefixFree spaceCodes := by unfold PrefixFree; decide +kernel

theorem codes_rev_free : PrefixFree (spaceCodes.map List.reverse) := by unfold PrefixFree; decide +kernel

theorem trim_sound (s : Bytes) : Trimmed s (goTrimSpace s) := by
  obtain ⟨⟨a, ha, e⟩, h2⟩ := dropCodes_sound spaceCodes codes_ne s.length s
  have h2 := h2 le_rfl
  unfold goTrimSpace
  generalize dropCodes spaceCodes s.length s = t at e h2 ⊢
  obtain ⟨⟨b, hb, e'⟩, h3⟩ := dropCodes_sound (spaceCodes.map List.reverse) codes_rev_ne t.length t.reverse
  have h3 := h3 (by simp)
  dsimp only
  generalize dropCodes (spaceCodes.map List.reverse) t.length t.reverse = u at e' h3
  have ht : t = u.reverse ++ (b.reverse.map List.reverse).flatten := by
    rw [← reverse_flatten, ← List.reverse_append, ← e', List.reverse_reverse]
  refine ⟨⟨a, b.reverse.map List.reverse, fun w hw => (white_iff w).mpr (ha w hw), ?_, ?_⟩, ?_⟩
  · intro w hw
    rw [List.mem_map] at hw
    obtain ⟨v, hv, rfl⟩ := hw
    obtain ⟨x, hx, rfl⟩ := List.mem_map.mp (hb v (by simpa using hv))
    rw [List.reverse_reverse, white_iff]
    exact hx
  · rw [← ht, ← e]
  · intro w hw
    rw [white_iff] at hw
    refine ⟨fun hp => ?_, fun hs => ?_⟩
    · exact h2 w hw (hp.trans (ht ▸ List.prefix_append _ _))
    · refine h3 w.reverse (List.mem_map.mpr ⟨w, hw, rfl⟩) ?_
      rwa [← List.reverse_suffix, List.reverse_reverse]

/-- Characters that are not white space, nor part of it. -/
def Solid (c : UInt8) : Prop := 33 ≤ c.toNat ∧ c.toNat < 128

theorem trim_solid {t : Bytes} (hne : t ≠ []) (ht : ∀ c ∈ t, Solid c) {a b : List Bytes} (ha : ∀ w ∈ a, White w) (hb : ∀ w ∈ b, White w) :
    goTrimSpace (a.flatten ++ (t ++ b.flatten)) = t := by
  have head : ∀ {codes : List Bytes}, (∀ w ∈ codes, ∃ c r, w = c :: r ∧ ¬ Solid c) → ∀ {c : UInt8} {r : Bytes}, Solid c → ∀ w ∈ codes,
      ¬ w <+: c :: r := by
    intro codes hc c r hs w hw hp
    obtain ⟨d, x, rfl, hd⟩ := hc w hw
    obtain ⟨y, hy⟩ := hp
    cases hy
    exact hd hs
  have h1 : ∀ w ∈ spaceCodes, ∃ c r, w = c :: r ∧ ¬ Solid c := by
    have : ∀ w ∈ spaceCodes, ¬ (33 ≤ (w.headD 33).toNat ∧ (w.headD 33).toNat < 128) ∧ w ≠ [] := by decide +kernel
    intro w hw
    obtain ⟨h1, h2⟩ := this w hw
    cases w with
    | nil => exact absurd rfl h2
    | cons c r => exact ⟨c, r, rfl, h1⟩
  have h2 : ∀ w ∈ spaceCodes.map List.reverse, ∃ c r, w = c :: r ∧ ¬ Solid c := by
    have : ∀ w ∈ spaceCodes.map List.reverse, ¬ (33 ≤ (w.headD 33).toNat ∧ (w.headD 33).toNat < 128) ∧ w ≠ [] := by decide +kernel
    intro w hw
    obtain ⟨h1, h2⟩ := this w hw
    cases w with
    | nil => exact absurd rfl h2
    | cons c r => exact ⟨c, r, rfl, h1⟩
  unfold goTrimSpace
  have e1 : dropCodes spaceCodes (a.flatten ++ (t ++ b.flatten)).length (a.flatten ++ (t ++ b.flatten)) = t ++ b.flatten := by
    refine dropCodes_append codes_free codes_ne ?_ a (fun w hw => (white_iff w).mp (ha w hw)) _ le_rfl
    cases t with
    | nil => exact absurd rfl hne
    | cons c r => exact head h1 (ht c (by simp))
  rw [e1]
  dsimp only
  rw [List.reverse_append, reverse_flatten]
  have e2 := dropCodes_append codes_rev_free codes_rev_ne (t := t.reverse) (by
    have hne' : t.reverse ≠ [] := by simpa using hne
    have ht' : ∀ c ∈ t.reverse, Solid c := fun c hc => ht c (by simpa using hc)
    generalize t.reverse = t' at hne' ht'
    cases t' with
    | nil => exact absurd rfl hne'
    | cons c r => exact head h2 (ht' c (by simp))) (b.reverse.map List.reverse) (by
    intro w hw
    obtain ⟨v, hv, rfl⟩ := List.mem_map.mp hw
    exact List.mem_map.mpr ⟨v, (white_iff v).mp (hb v (by simpa using hv)), rfl⟩) (t ++ b.flatten).length (by
    rw [← reverse_flatten]
    simp; omega)
  rw [e2, List.reverse_reverse]

end Rap
