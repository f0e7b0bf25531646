import Mathlib.Data.List.Sort
import Mathlib.Data.List.Forall2
import Verif.Spec.Describe
import Verif.Props.Summary

/-!
# Metadata as text: sorting and decimals
-/

namespace Rap

/-! ## Decimals -/

theorem decimal_text_unique : ∀ (n : Nat) (s t : Bytes), IsDecimal s n → IsDecimal t n → s = t := by
  have key : ∀ (s t : Bytes), (∀ c ∈ s, 48 ≤ c.toNat ∧ c.toNat ≤ 57) → (∀ c ∈ t, 48 ≤ c.toNat ∧ c.toNat ≤ 57) →
      s.head? ≠ some 48 → t.head? ≠ some 48 →
      s.foldl (fun v c => 10 * v + (c.toNat - 48)) 0 = t.foldl (fun v c => 10 * v + (c.toNat - 48)) 0 → s = t := by
    have pos : ∀ (s : Bytes), (∀ c ∈ s, 48 ≤ c.toNat ∧ c.toNat ≤ 57) → s.head? ≠ some 48 → s ≠ [] →
        0 < s.foldl (fun v c => 10 * v + (c.toNat - 48)) 0 := by
      intro s
      induction s using List.reverseRecOn with
      | nil => intro _ _ h; exact absurd rfl h
      | append_singleton s c ih =>
        intro hd hh _
        rw [List.foldl_append, List.foldl_cons, List.foldl_nil]
        by_cases hs : s = []
        · subst hs
          have := hd c (by simp)
          have h1 : c ≠ 48 := fun h => hh (by simp [h])
          have h2 : c.toNat ≠ 48 := fun h => h1 (UInt8.toNat.inj h)
          simp only [List.foldl_nil]; omega
        · have := ih (fun c hc => hd c (List.mem_append_left _ hc)) (by
            rwa [List.head?_append_of_ne_nil _ hs] at hh) hs
          omega
    intro s
    induction s using List.reverseRecOn with
    | nil =>
      intro t _ ht _ hh heq
      by_contra hne
      have := pos t ht hh (fun h => hne h.symm)
      simp only [List.foldl_nil] at heq; omega
    | append_singleton s c ih =>
      intro t hs ht hsh hth heq
      rcases List.eq_nil_or_concat' t with rfl | ⟨t, d, rfl⟩
      · have := pos _ hs hsh (by simp)
        simp only [List.foldl_nil] at heq; omega
      · rw [List.foldl_append, List.foldl_append, List.foldl_cons, List.foldl_nil, List.foldl_cons, List.foldl_nil] at heq
        have hc := hs c (by simp)
        have hd := ht d (by simp)
        have h1 : c = d := UInt8.toNat.inj (by omega)
        have h2 : s = t := by
          apply ih t (fun x hx => hs x (List.mem_append_left _ hx)) (fun x hx => ht x (List.mem_append_left _ hx))
          · by_cases h : s = []
            · simp [h]
            · rwa [List.head?_append_of_ne_nil _ h] at hsh
          · by_cases h : t = []
            · simp [h]
            · rwa [List.head?_append_of_ne_nil _ h] at hth
          · omega
        rw [h1, h2]
  rintro n s t ⟨h1, h2, h3, h4⟩ ⟨g1, g2, g3, g4⟩
  by_cases hs : s.head? = some 48
  · by_cases ht : t.head? = some 48
    · rw [h4 hs, g4 ht]
    · have e := h4 hs
      subst e
      have hn : n = 0 := by rw [← h3]; rfl
      by_cases hx : t = []
      · exact absurd hx g1
      · exfalso
        have := key [] t (by simp) g2 (by simp) ht (by rw [g3, hn]; rfl)
        exact g1 this.symm
  · by_cases ht : t.head? = some 48
    · have e := g4 ht
      subst e
      have hn : n = 0 := by rw [← g3]; rfl
      exfalso
      have := key [] s (by simp) h2 (by simp) hs (by rw [h3, hn]; rfl)
      exact h1 this.symm
    · exact key s t h2 g2 hs ht (by rw [h3, g3])

theorem integer_text_unique {i : Int} {s t : Bytes} (hs : IsInteger s i) (ht : IsInteger t i) : s = t := by
  rcases hs with ⟨h, hs⟩ | ⟨h, d, rfl, hs⟩ <;> rcases ht with ⟨g, ht⟩ | ⟨g, e, rfl, ht⟩
  · exact decimal_text_unique _ _ _ hs ht
  · omega
  · omega
  · rw [decimal_text_unique _ _ _ hs ht]

/-! ## Sorting -/

theorem bytes_lt_trans {a b c : Bytes} (h : a < b) (g : b < c) : a < c := List.lt_trans h g

theorem bytes_lt_asymm {a b : Bytes} (h : a < b) : ¬ b < a := List.lt_asymm h

theorem bytes_lt_total {a b : Bytes} (h : a ≠ b) (g : ¬ b < a) : a < b := by
  by_contra hn
  exact h (List.le_antisymm (List.not_lt.1 g) (List.not_lt.1 hn))

theorem insertEntry_perm {α : Type} (e : Bytes × α) (l : List (Bytes × α)) : (insertEntry e l).Perm (e :: l) := by
  induction l with
  | nil => exact List.Perm.refl _
  | cons f l ih =>
    rw [insertEntry]
    split
    · exact (ih.cons f).trans (List.Perm.swap e f l)
    · exact List.Perm.refl _

theorem sortEntries_perm {α : Type} (l : List (Bytes × α)) : (sortEntries l).Perm l := by
  induction l with
  | nil => exact List.Perm.refl _
  | cons e l ih => exact (insertEntry_perm e _).trans (ih.cons e)

theorem insertEntry_sorted {α : Type} (e : Bytes × α) (l : List (Bytes × α)) (hl : (l.map (·.1)).Pairwise (· < ·))
    (he : e.1 ∉ l.map (·.1)) : ((insertEntry e l).map (·.1)).Pairwise (· < ·) := by
  induction l with
  | nil => simp [insertEntry]
  | cons f l ih =>
    rw [List.map_cons, List.pairwise_cons] at hl
    rw [List.map_cons, List.mem_cons, not_or] at he
    rw [insertEntry]
    split
    · rename_i hlt
      rw [List.map_cons, List.pairwise_cons]
      refine ⟨fun k hk => ?_, ih hl.2 he.2⟩
      have := ((insertEntry_perm e l).map (·.1)).mem_iff.1 hk
      rcases List.mem_cons.1 this with rfl | hk
      · exact hlt
      · exact hl.1 k hk
    · rename_i hlt
      have hef : e.1 < f.1 := bytes_lt_total he.1 hlt
      rw [List.map_cons, List.map_cons, List.pairwise_cons, List.pairwise_cons]
      refine ⟨fun k hk => ?_, hl⟩
      rcases List.mem_cons.1 hk with rfl | hk
      · exact hef
      · exact bytes_lt_trans hef (hl.1 k hk)

theorem sortEntries_sorted {α : Type} (l : List (Bytes × α)) (hl : (l.map (·.1)).Nodup) :
    ((sortEntries l).map (·.1)).Pairwise (· < ·) := by
  induction l with
  | nil => simp [sortEntries]
  | cons e l ih =>
    rw [List.map_cons, List.nodup_cons] at hl
    refine insertEntry_sorted e _ (ih hl.2) fun h => hl.1 ?_
    exact ((sortEntries_perm l).map (·.1)).mem_iff.1 h

theorem sorted_unique {α : Type} {l m : List (Bytes × α)} (h : l.Perm m) (hl : (l.map (·.1)).Pairwise (· < ·))
    (hm : (m.map (·.1)).Pairwise (· < ·)) : l = m := by
  rw [List.pairwise_map] at hl hm
  refine h.eq_of_pairwise ?_ hl hm
  intro a b _ _ hab hba
  exact absurd hba (bytes_lt_asymm hab)

theorem sortEntries_perm_eq {α : Type} {l m : List (Bytes × α)} (h : l.Perm m) (hl : (l.map (·.1)).Nodup) :
    sortEntries l = sortEntries m :=
  sorted_unique (((sortEntries_perm l).trans h).trans (sortEntries_perm m).symm) (sortEntries_sorted l hl)
    (sortEntries_sorted m ((h.map (·.1)).nodup_iff.1 hl))

theorem describeEntries_eq (F : FmtExt) (kvs : Block) : describeEntries F kvs = kvs.map fun kv => (kv.1, describe F kv.2) := by
  induction kvs with
  | nil => rfl
  | cons kv kvs ih => obtain ⟨k, p⟩ := kv; rw [describeEntries, ih]; rfl

theorem insertEntry_map {α β : Type} (f : α → β) (e : Bytes × α) (l : List (Bytes × α)) :
    insertEntry (e.1, f e.2) (l.map fun kv => (kv.1, f kv.2)) = (insertEntry e l).map fun kv => (kv.1, f kv.2) := by
  induction l with
  | nil => rfl
  | cons g l ih =>
    rw [List.map_cons, insertEntry, insertEntry]
    dsimp only
    split
    · rw [List.map_cons, ih]
    · rfl

theorem sortEntries_map {α β : Type} (f : α → β) (l : List (Bytes × α)) :
    sortEntries (l.map fun kv => (kv.1, f kv.2)) = (sortEntries l).map fun kv => (kv.1, f kv.2) := by
  induction l with
  | nil => rfl
  | cons e l ih => rw [List.map_cons, sortEntries, ih, insertEntry_map, sortEntries]

/-- A block is described entry by entry, in the order of the keys. -/
theorem describe_block (F : FmtExt) (kvs : Block) : describe F (.block kvs) =
    (entryLines ((sortEntries kvs).map fun kv => (kv.1, describe F kv.2))).bind fun ls => .ok (b!"{\n" ++ ls ++ b!"}") := by
  rw [describe, describeEntries_eq, sortEntries_map]; rfl

end Rap
