import Verif.Model.JsonDecode
import Verif.Spec.JsonDecode
import Mathlib.Data.List.Nodup

/-!
# The last of the members with equal names
-/

namespace Rap

/-- The members that stay, as they were. -/
def keptMembers : List (Bytes × JVal) → List (Bytes × JVal)
  | [] => []
  | m :: ms => if m.1 ∈ (keptMembers ms).map (·.1) then keptMembers ms else m :: keptMembers ms

theorem kept_keys (d : List (Bytes × JVal)) (k : Bytes) : k ∈ (keptMembers d).map (·.1) ↔ k ∈ d.map (·.1) := by
  induction d with
  | nil => rfl
  | cons m d ih =>
    rw [keptMembers]
    split
    · next h =>
      rw [ih, List.map_cons, List.mem_cons]
      refine ⟨.inr, ?_⟩
      rintro (rfl | h')
      · exact ih.1 h
      · exact h'
    · rw [List.map_cons, List.map_cons, List.mem_cons, List.mem_cons, ih]

theorem asMapsMembers_eq (d : List (Bytes × JVal)) : asMapsMembers d = (keptMembers d).map fun m => (m.1, m.2.asMaps) := by
  induction d with
  | nil => rfl
  | cons m d ih =>
    obtain ⟨k, v⟩ := m
    have e : ((keptMembers d).map fun m => (m.1, m.2.asMaps)).map (·.1) = (keptMembers d).map (·.1) := by simp
    rw [asMapsMembers, keptMembers, ih, e]
    split <;> simp

theorem kept_nodup (d : List (Bytes × JVal)) : ((keptMembers d).map (·.1)).Nodup := by
  induction d with
  | nil => exact List.nodup_nil
  | cons m d ih =>
    rw [keptMembers]
    split
    · exact ih
    · next h => rw [List.map_cons]; exact List.nodup_cons.2 ⟨h, ih⟩

theorem kept_subset (d : List (Bytes × JVal)) : ∀ m ∈ keptMembers d, m ∈ d := by
  induction d with
  | nil => simp [keptMembers]
  | cons m d ih =>
    intro x hx
    rw [keptMembers] at hx
    split at hx
    · exact List.mem_cons_of_mem _ (ih x hx)
    · rcases List.mem_cons.1 hx with rfl | hx
      · simp
      · exact List.mem_cons_of_mem _ (ih x hx)

theorem kept_last (d : List (Bytes × JVal)) : LastMembers d (keptMembers d) := by
  refine ⟨kept_nodup d, ?_⟩
  induction d with
  | nil => simp [keptMembers]
  | cons a d ih =>
    intro m
    rw [keptMembers]
    constructor
    · intro hm
      have tail : m ∈ keptMembers d → ∃ pre post, a :: d = pre ++ m :: post ∧ m.1 ∉ post.map (·.1) := by
        intro hm
        obtain ⟨pre, post, h1, h2⟩ := (ih m).1 hm
        exact ⟨a :: pre, post, by rw [h1]; rfl, h2⟩
      split at hm
      · exact tail hm
      · next h =>
        rcases List.mem_cons.1 hm with rfl | hm
        · exact ⟨[], d, rfl, fun hk => h ((kept_keys d _).2 hk)⟩
        · exact tail hm
    · rintro ⟨pre, post, h1, h2⟩
      cases pre with
      | nil =>
        rw [List.nil_append, List.cons.injEq] at h1
        obtain ⟨rfl, rfl⟩ := h1
        rw [if_neg fun h => h2 ((kept_keys d _).1 h)]
        simp
      | cons b pre =>
        rw [List.cons_append, List.cons.injEq] at h1
        have := (ih m).2 ⟨pre, post, h1.2, h2⟩
        split
        · exact this
        · exact List.mem_cons_of_mem _ this

theorem asMapsItems_eq (l : List JVal) : asMapsItems l = l.map JVal.asMaps := by
  induction l with
  | nil => rfl
  | cons v l ih => rw [asMapsItems, ih]; rfl

theorem asMaps_lastOnly : ∀ (n : Nat) (j : JVal), SizeOf.sizeOf j < n → LastOnly j j.asMaps
  | 0, _, h => absurd h (by omega)
  | n + 1, j, h => by
    cases j with
    | null => exact .null
    | bool b => exact .bool
    | num d => exact .num
    | str s => exact .str
    | arr l =>
      rw [JVal.asMaps, asMapsItems_eq]
      refine .arr (List.forall₂_map_right_iff.2 (List.forall₂_same.2 fun v hv => asMaps_lastOnly n v ?_))
      have := List.sizeOf_lt_of_mem hv
      simp only [JVal.arr.sizeOf_spec] at h
      omega
    | obj d =>
      rw [JVal.asMaps, asMapsMembers_eq]
      refine .obj (kept_last d) (by simp) ?_
      rw [List.map_map]
      refine List.forall₂_map_right_iff.2 (List.forall₂_map_left_iff.2 (List.forall₂_same.2 fun m hm => asMaps_lastOnly n m.2 ?_))
      have := List.sizeOf_lt_of_mem (kept_subset d m hm)
      obtain ⟨k, v⟩ := m
      simp only [JVal.obj.sizeOf_spec, Prod.mk.sizeOf_spec] at h this
      simp only
      omega

theorem proper_members_names (d : List (Bytes × JVal)) : properMembers d ↔ ∀ m ∈ d, m.2.Proper := by
  induction d with
  | nil => simp [properMembers]
  | cons m d ih => rw [properMembers, ih]; simp

theorem properItems_iff (d : List JVal) : properItems d ↔ ∀ m ∈ d, m.Proper := by
  induction d with
  | nil => simp [properItems]
  | cons m d ih => rw [properItems, ih]; simp

theorem asMaps_proper : ∀ (n : Nat) (j : JVal), SizeOf.sizeOf j < n → j.asMaps.Proper
  | 0, _, h => absurd h (by omega)
  | n + 1, j, h => by
    cases j with
    | null => trivial
    | bool b => trivial
    | num d => trivial
    | str s => trivial
    | arr l =>
      rw [JVal.asMaps, asMapsItems_eq, JVal.Proper, properItems_iff]
      intro v hv
      obtain ⟨w, hw, rfl⟩ := List.mem_map.1 hv
      refine asMaps_proper n w ?_
      have := List.sizeOf_lt_of_mem hw
      simp only [JVal.arr.sizeOf_spec] at h
      omega
    | obj d =>
      rw [JVal.asMaps, asMapsMembers_eq, JVal.Proper, proper_members_names]
      refine ⟨by rw [List.map_map]; exact kept_nodup d, fun m hm => ?_⟩
      obtain ⟨w, hw, rfl⟩ := List.mem_map.1 hm
      refine asMaps_proper n w.2 ?_
      have := List.sizeOf_lt_of_mem (kept_subset d w hw)
      obtain ⟨k, v⟩ := w
      simp only [JVal.obj.sizeOf_spec, Prod.mk.sizeOf_spec] at h this
      simp only
      omega

theorem kept_of_nodup {d : List (Bytes × JVal)} (h : (d.map (·.1)).Nodup) : keptMembers d = d := by
  induction d with
  | nil => rfl
  | cons m d ih =>
    rw [List.map_cons, List.nodup_cons] at h
    rw [keptMembers, ih h.2, if_neg h.1]

theorem asMaps_of_proper : ∀ (n : Nat) (j : JVal), SizeOf.sizeOf j < n → j.Proper → j.asMaps = j
  | 0, _, h, _ => absurd h (by omega)
  | n + 1, j, h, hp => by
    cases j with
    | null => rfl
    | bool b => rfl
    | num d => rfl
    | str s => rfl
    | arr l =>
      rw [JVal.Proper, properItems_iff] at hp
      rw [JVal.asMaps, asMapsItems_eq]
      refine congrArg JVal.arr ((List.map_congr_left fun v hv => ?_).trans (List.map_id _))
      refine asMaps_of_proper n v ?_ (hp v hv)
      have := List.sizeOf_lt_of_mem hv
      simp only [JVal.arr.sizeOf_spec] at h
      omega
    | obj d =>
      rw [JVal.Proper, proper_members_names] at hp
      rw [JVal.asMaps, asMapsMembers_eq, kept_of_nodup hp.1]
      refine congrArg JVal.obj ((List.map_congr_left fun m hm => ?_).trans (List.map_id _))
      have := List.sizeOf_lt_of_mem hm
      obtain ⟨k, v⟩ := m
      simp only [JVal.obj.sizeOf_spec, Prod.mk.sizeOf_spec] at h this
      simp only [id, Prod.mk.injEq, true_and]
      exact asMaps_of_proper n v (by omega) (hp.2 _ hm)

end Rap
