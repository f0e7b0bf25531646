import Verif.Proof.Proto
import Mathlib.Data.List.GetD

/-!
# The messages of version 1, field by field
-/

namespace Rap.Wire
open V1

/-! ## One field of a message -/

/-- What fields do to a string. -/
def cString (num : Nat) (a : Bytes) (f : Nat × Value) : Option Bytes :=
  match f.2 with
  | .bytes v => if f.1 = num then (if utf8Valid v then some v else none) else some a
  | _ => some a

/-- What fields do to a float. -/
def cFloat (num : Nat) (a : F32) (f : Nat × Value) : Option F32 :=
  match f.2 with
  | .fixed32 n => if f.1 = num then some (BitVec.ofNat 32 n) else some a
  | _ => some a

/-- What fields do to an integer. -/
def cInt (num : Nat) (a : BitVec 32) (f : Nat × Value) : Option (BitVec 32) :=
  match f.2 with
  | .varint n => if f.1 = num then some (BitVec.ofNat 32 n) else some a
  | _ => some a

/-- What fields do to a list or map. -/
def cAdd {α : Type} (add : α → Bytes → Option α) (num : Nat) (a : α) (f : Nat × Value) : Option α :=
  match f.2 with
  | .bytes v => if f.1 = num then add a v else some a
  | _ => some a

theorem getLastD_cons' {α : Type} (a d : α) (l : List α) : (a :: l).getLastD d = l.getLastD a := by cases l <;> rfl

theorem fold_string (num : Nat) : (fs : List (Nat × Value)) → (a a' : Bytes) → (fs.foldlM (cString num) a = some a' ↔
    (∀ x ∈ bytesOf num fs, Utf8 x) ∧ (bytesOf num fs).getLastD a = a')
  | [], a, a' => by simp [bytesOf]
  | (k, v) :: fs, a, a' => by
    rw [List.foldlM_cons]
    have ih := fold_string num fs
    cases v with
    | bytes s =>
      by_cases hk : k = num
      · by_cases hs : utf8Valid s = true
        · have := utf8Valid_iff.mp hs
          subst hk
          have e : bytesOf k ((k, .bytes s) :: fs) = s :: bytesOf k fs := by simp [bytesOf]
          have e' : cString k a (k, .bytes s) = some s := by simp [cString, hs]
          rw [e, e', getLastD_cons', List.forall_mem_cons]
          simpa [this] using ih s a'
        · have := mt utf8Valid_iff.mpr hs
          simp [cString, bytesOf, hk, hs, this]
      · simpa [cString, bytesOf, hk] using ih a a'
    | _ => simpa [cString, bytesOf] using ih a a'

theorem fold_float (num : Nat) : (fs : List (Nat × Value)) → (a a' : F32) → (fs.foldlM (cFloat num) a = some a' ↔
    ((fixedOf num fs).map (BitVec.ofNat 32)).getLastD a = a')
  | [], a, a' => by simp [fixedOf]
  | (k, v) :: fs, a, a' => by
    rw [List.foldlM_cons]
    have ih := fold_float num fs
    cases v with
    | fixed32 s =>
      by_cases hk : k = num
      · subst hk
        have e : fixedOf k ((k, .fixed32 s) :: fs) = s :: fixedOf k fs := by simp [fixedOf]
        have e' : cFloat k a (k, .fixed32 s) = some (BitVec.ofNat 32 s) := by simp [cFloat]
        rw [e, e', List.map_cons, getLastD_cons']
        exact ih _ a'
      · simpa [cFloat, fixedOf, hk] using ih a a'
    | _ => simpa [cFloat, fixedOf] using ih a a'

theorem fold_int (num : Nat) : (fs : List (Nat × Value)) → (a a' : BitVec 32) → (fs.foldlM (cInt num) a = some a' ↔
    ((varintsOf num fs).map (BitVec.ofNat 32)).getLastD a = a')
  | [], a, a' => by simp [varintsOf]
  | (k, v) :: fs, a, a' => by
    rw [List.foldlM_cons]
    have ih := fold_int num fs
    cases v with
    | varint s =>
      by_cases hk : k = num
      · subst hk
        have e : varintsOf k ((k, .varint s) :: fs) = s :: varintsOf k fs := by simp [varintsOf]
        have e' : cInt k a (k, .varint s) = some (BitVec.ofNat 32 s) := by simp [cInt]
        rw [e, e', List.map_cons, getLastD_cons']
        exact ih _ a'
      · simpa [cInt, varintsOf, hk] using ih a a'
    | _ => simpa [cInt, varintsOf] using ih a a'

theorem fold_add {α : Type} (add : α → Bytes → Option α) (num : Nat) : (fs : List (Nat × Value)) → (a : α) →
    fs.foldlM (cAdd add num) a = (bytesOf num fs).foldlM add a
  | [], a => by simp [bytesOf]
  | (k, v) :: fs, a => by
    rw [List.foldlM_cons]
    have ih := fold_add add num fs
    cases v with
    | bytes s =>
      by_cases hk : k = num
      · subst hk
        simp only [cAdd, if_true, ih]
        simp [bytesOf]
      · simpa [cAdd, bytesOf, hk] using ih a
    | _ => simpa [cAdd, bytesOf] using ih a

theorem fold_list {α : Type} (dec : Bytes → Option α) : (bs : List Bytes) → (a a' : List α) →
    (bs.foldlM (fun l v => (dec v).map fun m => l ++ [m]) a = some a' ↔
      ∃ l, List.Forall₂ (fun x b => dec b = some x) l bs ∧ a' = a ++ l)
  | [], a, a' => by simp [eq_comm]
  | b :: bs, a, a' => by
    rw [List.foldlM_cons]
    simp only [Option.bind_eq_bind, Option.bind_eq_some_iff, Option.map_eq_some_iff]
    constructor
    · rintro ⟨_, ⟨x, hx, rfl⟩, h⟩
      obtain ⟨l, hl, rfl⟩ := (fold_list dec bs _ _).mp h
      exact ⟨x :: l, .cons hx hl, by simp⟩
    · rintro ⟨l, hl, rfl⟩
      cases hl with
      | @cons x _ l _ hx hl => exact ⟨_, ⟨x, hx, rfl⟩, (fold_list dec bs _ _).mpr ⟨l, hl, by simp⟩⟩

theorem fold_map (dec : Bytes → Option (Bytes × Bytes)) : (bs : List Bytes) → (a a' : List (Bytes × Bytes)) →
    (bs.foldlM (fun m v => (dec v).map fun kv => mapSet m kv.1 kv.2) a = some a' ↔
      ∃ kvs, List.Forall₂ (fun x b => dec b = some x) kvs bs ∧ a' = kvs.foldl (fun m kv => mapSet m kv.1 kv.2) a)
  | [], a, a' => by simp [eq_comm]
  | b :: bs, a, a' => by
    rw [List.foldlM_cons]
    simp only [Option.bind_eq_bind, Option.bind_eq_some_iff, Option.map_eq_some_iff]
    constructor
    · rintro ⟨_, ⟨x, hx, rfl⟩, h⟩
      obtain ⟨l, hl, rfl⟩ := (fold_map dec bs _ _).mp h
      exact ⟨x :: l, .cons hx hl, by simp⟩
    · rintro ⟨l, hl, rfl⟩
      cases hl with
      | @cons x _ l _ hx hl => exact ⟨_, ⟨x, hx, rfl⟩, (fold_map dec bs _ _).mpr ⟨l, hl, by simp⟩⟩

/-! ## Maps -/

theorem mapSet_keys (k v : Bytes) : (m : List (Bytes × Bytes)) → (m.map (·.1)).Nodup →
    ((mapSet m k v).map (·.1)).Nodup ∧ (∀ k' v', (k', v') ∈ mapSet m k v ↔ if k' = k then v' = v else (k', v') ∈ m)
  | [], _ => by
    refine ⟨by simp [mapSet], fun k' v' => ?_⟩
    simp only [mapSet, List.mem_singleton, Prod.mk.injEq, List.not_mem_nil]
    split_ifs with h <;> simp [h]
  | (k₀, v₀) :: m, h => by
    simp only [List.map_cons, List.nodup_cons] at h
    obtain ⟨i1, i2⟩ := mapSet_keys k v m h.2
    rw [mapSet]
    by_cases hk : k₀ = k
    · subst hk
      rw [if_pos rfl]
      refine ⟨by simpa using h, fun k' v' => ?_⟩
      simp only [List.mem_cons, Prod.mk.injEq]
      split_ifs with h1
      · subst h1
        simp only [true_and, or_iff_left_iff_imp]
        intro h2
        exact absurd (List.mem_map_of_mem (f := (·.1)) h2) h.1
      · simp [h1]
    · rw [if_neg hk]
      refine ⟨?_, fun k' v' => ?_⟩
      · simp only [List.map_cons, List.nodup_cons]
        refine ⟨?_, i1⟩
        intro h1
        obtain ⟨⟨k', v'⟩, h2, rfl⟩ := List.mem_map.mp h1
        rw [i2, if_neg hk] at h2
        exact h.1 (List.mem_map_of_mem (f := (·.1)) h2)
      · simp only [List.mem_cons, Prod.mk.injEq, i2]
        split_ifs with h1
        · subst h1
          simp [Ne.symm hk]
        · rfl

theorem fold_mapSet (kvs : List (Bytes × Bytes)) :
    ((kvs.foldl (fun m kv => mapSet m kv.1 kv.2) ([] : List (Bytes × Bytes))).map (·.1)).Nodup ∧
      ∀ k v, (k, v) ∈ kvs.foldl (fun m kv => mapSet m kv.1 kv.2) [] ↔ kvs.reverse.lookup k = some v := by
  induction kvs using List.reverseRecOn with
  | nil => simp
  | append_singleton kvs kv ih =>
    obtain ⟨i1, i2⟩ := mapSet_keys kv.1 kv.2 _ ih.1
    rw [List.foldl_append]
    refine ⟨i1, fun k v => ?_⟩
    change _ ∈ mapSet _ kv.1 kv.2 ↔ _
    rw [i2, List.reverse_append, List.reverse_singleton, List.singleton_append]
    obtain ⟨k₀, v₀⟩ := kv
    rw [List.lookup_cons]
    by_cases h : k = k₀
    · subst h; simp [eq_comm]
    · rw [if_neg h, ih.2]
      have : (k == k₀) = false := by simpa using h
      rw [this]

/-! ## Messages -/

theorem step_entry (s s' : Bytes × Bytes) (f : Nat × Value) :
    step entryFields s f = some s' ↔ cString 1 s.1 f = some s'.1 ∧ cString 2 s.2 f = some s'.2 := by
  obtain ⟨k, v⟩ := f
  obtain ⟨a, b⟩ := s
  obtain ⟨a', b'⟩ := s'
  match k with
  | 0 | 1 | 2 | k + 3 =>
    cases v <;> simp [step, entryFields, cString] <;> (try tauto)

theorem step_vector (s s' : VectorCapture) (f : Nat × Value) :
    step vectorFields s f = some s' ↔ cFloat 1 s.time f = some s'.time ∧ cFloat 2 s.x f = some s'.x ∧ cFloat 3 s.y f = some s'.y ∧
      cFloat 4 s.z f = some s'.z := by
  obtain ⟨k, v⟩ := f
  cases s
  cases s'
  match k with
  | 0 | 1 | 2 | 3 | 4 | k + 5 => cases v <;> simp [step, vectorFields, cFloat]

theorem step_life (s s' : LifeEvent) (f : Nat × Value) :
    step lifeFields s f = some s' ↔ cFloat 1 s.time f = some s'.time ∧ cInt 2 s.type f = some s'.type := by
  obtain ⟨k, v⟩ := f
  cases s
  cases s'
  match k with
  | 0 | 1 | 2 | k + 3 => cases v <;> simp [step, lifeFields, cFloat, cInt]

theorem step_event (s s' : CustomEvent) (f : Nat × Value) :
    step eventFields s f = some s' ↔ cFloat 1 s.time f = some s'.time ∧ cString 2 s.name f = some s'.name ∧
      cString 3 s.contents f = some s'.contents ∧ cAdd addEntry 4 s.data f = some s'.data := by
  obtain ⟨k, v⟩ := f
  cases s
  cases s'
  match k with
  | 0 | 1 | 2 | 3 | 4 | k + 5 =>
    cases v <;> simp [step, eventFields, cFloat, cString, cAdd, Option.map_eq_some_iff] <;> (try tauto)

theorem step_subject (order : List (Bytes × Bytes) → List (Bytes × Bytes)) (s s' : V1.Subject) (f : Nat × Value) :
    step (subjectFields order) s f = some s' ↔ cInt 1 s.id f = some s'.id ∧ cString 2 s.name f = some s'.name ∧
      cAdd addEntry 3 s.metadata f = some s'.metadata ∧
      cAdd (fun l v => (unmarshalEvent order v).map fun m => l ++ [m]) 4 s.events f = some s'.events ∧
      cAdd (fun l v => (unmarshalLife v).map fun m => l ++ [m]) 5 s.lifecycle f = some s'.lifecycle ∧
      cAdd (fun l v => (unmarshalVector v).map fun m => l ++ [m]) 6 s.positions f = some s'.positions ∧
      cAdd (fun l v => (unmarshalVector v).map fun m => l ++ [m]) 7 s.rotations f = some s'.rotations := by
  obtain ⟨k, v⟩ := f
  cases s
  cases s'
  match k with
  | 0 | 1 | 2 | 3 | 4 | 5 | 6 | 7 | k + 8 =>
    cases v <;> simp [step, subjectFields, cInt, cString, cAdd, Option.map_eq_some_iff] <;> (try tauto)

theorem step_recording (order : List (Bytes × Bytes) → List (Bytes × Bytes)) (s s' : V1.Recording) (f : Nat × Value) :
    step (recordingFields order) s f = some s' ↔ cString 1 s.name f = some s'.name ∧
      cAdd addEntry 2 s.metadata f = some s'.metadata ∧
      cAdd (fun l v => (unmarshalSubject order v).map fun m => l ++ [m]) 3 s.subjects f = some s'.subjects ∧
      cAdd (fun l v => (unmarshalEvent order v).map fun m => l ++ [m]) 4 s.events f = some s'.events := by
  obtain ⟨k, v⟩ := f
  cases s
  cases s'
  match k with
  | 0 | 1 | 2 | 3 | 4 | k + 5 =>
    cases v <;> simp [step, recordingFields, cString, cAdd, Option.map_eq_some_iff] <;> (try tauto)

theorem fold_entry : (fs : List (Nat × Value)) → (s s' : Bytes × Bytes) → (fs.foldlM (step entryFields) s = some s' ↔
    fs.foldlM (cString 1) s.1 = some s'.1 ∧ fs.foldlM (cString 2) s.2 = some s'.2)
  | [], s, s' => by cases s; cases s'; simp
  | f :: fs, s, s' => by
    simp only [List.foldlM_cons, Option.bind_eq_bind, Option.bind_eq_some_iff, step_entry, fold_entry fs]
    constructor
    · rintro ⟨s1, ⟨h1, h2⟩, k1, k2⟩
      exact ⟨⟨_, h1, k1⟩, _, h2, k2⟩
    · rintro ⟨⟨a, h1, k1⟩, b, h2, k2⟩
      exact ⟨(a, b), ⟨h1, h2⟩, k1, k2⟩

theorem fold_vector : (fs : List (Nat × Value)) → (s s' : VectorCapture) → (fs.foldlM (step vectorFields) s = some s' ↔
    fs.foldlM (cFloat 1) s.time = some s'.time ∧ fs.foldlM (cFloat 2) s.x = some s'.x ∧ fs.foldlM (cFloat 3) s.y = some s'.y ∧
      fs.foldlM (cFloat 4) s.z = some s'.z)
  | [], s, s' => by cases s; cases s'; simp
  | f :: fs, s, s' => by
    simp only [List.foldlM_cons, Option.bind_eq_bind, Option.bind_eq_some_iff, step_vector, fold_vector fs]
    constructor
    · rintro ⟨s1, ⟨h1, h2, h3, h4⟩, k1, k2, k3, k4⟩
      exact ⟨⟨_, h1, k1⟩, ⟨_, h2, k2⟩, ⟨_, h3, k3⟩, _, h4, k4⟩
    · rintro ⟨⟨a, h1, k1⟩, ⟨b, h2, k2⟩, ⟨c, h3, k3⟩, d, h4, k4⟩
      exact ⟨⟨a, b, c, d⟩, ⟨h1, h2, h3, h4⟩, k1, k2, k3, k4⟩

theorem fold_life : (fs : List (Nat × Value)) → (s s' : LifeEvent) → (fs.foldlM (step lifeFields) s = some s' ↔
    fs.foldlM (cFloat 1) s.time = some s'.time ∧ fs.foldlM (cInt 2) s.type = some s'.type)
  | [], s, s' => by cases s; cases s'; simp
  | f :: fs, s, s' => by
    simp only [List.foldlM_cons, Option.bind_eq_bind, Option.bind_eq_some_iff, step_life, fold_life fs]
    constructor
    · rintro ⟨s1, ⟨h1, h2⟩, k1, k2⟩
      exact ⟨⟨_, h1, k1⟩, _, h2, k2⟩
    · rintro ⟨⟨a, h1, k1⟩, b, h2, k2⟩
      exact ⟨⟨a, b⟩, ⟨h1, h2⟩, k1, k2⟩

theorem fold_event : (fs : List (Nat × Value)) → (s s' : CustomEvent) → (fs.foldlM (step eventFields) s = some s' ↔
    fs.foldlM (cFloat 1) s.time = some s'.time ∧ fs.foldlM (cString 2) s.name = some s'.name ∧
      fs.foldlM (cString 3) s.contents = some s'.contents ∧ fs.foldlM (cAdd addEntry 4) s.data = some s'.data)
  | [], s, s' => by cases s; cases s'; simp
  | f :: fs, s, s' => by
    simp only [List.foldlM_cons, Option.bind_eq_bind, Option.bind_eq_some_iff, step_event, fold_event fs]
    constructor
    · rintro ⟨s1, ⟨h1, h2, h3, h4⟩, k1, k2, k3, k4⟩
      exact ⟨⟨_, h1, k1⟩, ⟨_, h2, k2⟩, ⟨_, h3, k3⟩, _, h4, k4⟩
    · rintro ⟨⟨a, h1, k1⟩, ⟨b, h2, k2⟩, ⟨c, h3, k3⟩, d, h4, k4⟩
      exact ⟨⟨a, b, c, d⟩, ⟨h1, h2, h3, h4⟩, k1, k2, k3, k4⟩

theorem fold_subject (order : List (Bytes × Bytes) → List (Bytes × Bytes)) : (fs : List (Nat × Value)) → (s s' : V1.Subject) →
    (fs.foldlM (step (subjectFields order)) s = some s' ↔
      fs.foldlM (cInt 1) s.id = some s'.id ∧ fs.foldlM (cString 2) s.name = some s'.name ∧
      fs.foldlM (cAdd addEntry 3) s.metadata = some s'.metadata ∧
      fs.foldlM (cAdd (fun l v => (unmarshalEvent order v).map fun m => l ++ [m]) 4) s.events = some s'.events ∧
      fs.foldlM (cAdd (fun l v => (unmarshalLife v).map fun m => l ++ [m]) 5) s.lifecycle = some s'.lifecycle ∧
      fs.foldlM (cAdd (fun l v => (unmarshalVector v).map fun m => l ++ [m]) 6) s.positions = some s'.positions ∧
      fs.foldlM (cAdd (fun l v => (unmarshalVector v).map fun m => l ++ [m]) 7) s.rotations = some s'.rotations)
  | [], s, s' => by cases s; cases s'; simp
  | f :: fs, s, s' => by
    simp only [List.foldlM_cons, Option.bind_eq_bind, Option.bind_eq_some_iff, step_subject, fold_subject order fs]
    constructor
    · rintro ⟨s1, ⟨h1, h2, h3, h4, h5, h6, h7⟩, k1, k2, k3, k4, k5, k6, k7⟩
      exact ⟨⟨_, h1, k1⟩, ⟨_, h2, k2⟩, ⟨_, h3, k3⟩, ⟨_, h4, k4⟩, ⟨_, h5, k5⟩, ⟨_, h6, k6⟩, _, h7, k7⟩
    · rintro ⟨⟨a, h1, k1⟩, ⟨b, h2, k2⟩, ⟨c, h3, k3⟩, ⟨d, h4, k4⟩, ⟨e, h5, k5⟩, ⟨g, h6, k6⟩, i, h7, k7⟩
      exact ⟨⟨a, b, c, d, e, g, i⟩, ⟨h1, h2, h3, h4, h5, h6, h7⟩, k1, k2, k3, k4, k5, k6, k7⟩

theorem fold_recording (order : List (Bytes × Bytes) → List (Bytes × Bytes)) : (fs : List (Nat × Value)) → (s s' : V1.Recording) →
    (fs.foldlM (step (recordingFields order)) s = some s' ↔
      fs.foldlM (cString 1) s.name = some s'.name ∧ fs.foldlM (cAdd addEntry 2) s.metadata = some s'.metadata ∧
      fs.foldlM (cAdd (fun l v => (unmarshalSubject order v).map fun m => l ++ [m]) 3) s.subjects = some s'.subjects ∧
      fs.foldlM (cAdd (fun l v => (unmarshalEvent order v).map fun m => l ++ [m]) 4) s.events = some s'.events)
  | [], s, s' => by cases s; cases s'; simp
  | f :: fs, s, s' => by
    simp only [List.foldlM_cons, Option.bind_eq_bind, Option.bind_eq_some_iff, step_recording, fold_recording order fs]
    constructor
    · rintro ⟨s1, ⟨h1, h2, h3, h4⟩, k1, k2, k3, k4⟩
      exact ⟨⟨_, h1, k1⟩, ⟨_, h2, k2⟩, ⟨_, h3, k3⟩, _, h4, k4⟩
    · rintro ⟨⟨a, h1, k1⟩, ⟨b, h2, k2⟩, ⟨c, h3, k3⟩, d, h4, k4⟩
      exact ⟨⟨a, b, c, d⟩, ⟨h1, h2, h3, h4⟩, k1, k2, k3, k4⟩

/-! ## Decoders and the specification -/

theorem float_iff {num : Nat} {fs : List (Nat × Value)} {f : F32} : fs.foldlM (cFloat num) 0 = some f ↔ IsFloat num fs f := by
  have : ((fixedOf num fs).map (BitVec.ofNat 32)).getLastD 0 = BitVec.ofNat 32 ((fixedOf num fs).getLastD 0) := by
    rw [List.getLastD_eq_getLast?, List.getLastD_eq_getLast?, List.getLast?_map]
    cases (fixedOf num fs).getLast? <;> rfl
  rw [fold_float, this, IsFloat]

theorem int_iff {num : Nat} {fs : List (Nat × Value)} {f : BitVec 32} : fs.foldlM (cInt num) 0 = some f ↔ IsInt num fs f := by
  have : ((varintsOf num fs).map (BitVec.ofNat 32)).getLastD 0 = BitVec.ofNat 32 ((varintsOf num fs).getLastD 0) := by
    rw [List.getLastD_eq_getLast?, List.getLastD_eq_getLast?, List.getLast?_map]
    cases (varintsOf num fs).getLast? <;> rfl
  rw [fold_int, this, IsInt]

theorem string_iff {num : Nat} {fs : List (Nat × Value)} {s : Bytes} : fs.foldlM (cString num) [] = some s ↔ IsString num fs s :=
  fold_string num fs [] s

theorem entry_iff {kv : Bytes × Bytes} {b : Bytes} : unmarshalMessage entryFields ([], []) b = some kv ↔ Entry kv b := by
  simp only [unmarshalMessage_some, fold_entry, string_iff, Entry]

theorem vector_iff {v : VectorCapture} {b : Bytes} : unmarshalVector b = some v ↔ Vector v b := by
  simp only [unmarshalVector, unmarshalMessage_some, fold_vector, float_iff, Vector]

theorem life_iff {e : LifeEvent} {b : Bytes} : unmarshalLife b = some e ↔ Life e b := by
  simp only [unmarshalLife, unmarshalMessage_some, fold_life, float_iff, int_iff, Life]

theorem list_iff {α : Type} {dec : Bytes → Option α} {num : Nat} {fs : List (Nat × Value)} {l : List α} :
    fs.foldlM (cAdd (fun l v => (dec v).map fun m => l ++ [m]) num) [] = some l ↔ IsList (fun x b => dec b = some x) num fs l := by
  rw [fold_add, fold_list]
  simp [IsList]

theorem addEntry_eq : addEntry = fun m v => (unmarshalMessage entryFields ([], []) v).map fun kv => mapSet m kv.1 kv.2 := rfl

theorem map_sound {num : Nat} {fs : List (Nat × Value)} {m m' : List (Bytes × Bytes)}
    (h : fs.foldlM (cAdd addEntry num) [] = some m) (hp : m'.Perm m) : IsMap num fs m' := by
  rw [fold_add, addEntry_eq, fold_map] at h
  obtain ⟨kvs, h1, rfl⟩ := h
  obtain ⟨h2, h3⟩ := fold_mapSet kvs
  refine ⟨kvs, h1.imp fun _ _ h => entry_iff.mp h, (hp.map _).nodup_iff.mpr h2, fun k v => ?_⟩
  rw [hp.mem_iff, h3]

theorem map_complete {num : Nat} {fs : List (Nat × Value)} {m : List (Bytes × Bytes)} (h : IsMap num fs m) :
    ∃ m', fs.foldlM (cAdd addEntry num) [] = some m' ∧ m.Perm m' := by
  obtain ⟨kvs, h1, h2, h3⟩ := h
  obtain ⟨h4, h5⟩ := fold_mapSet kvs
  refine ⟨_, ?_, (List.perm_ext_iff_of_nodup (List.Nodup.of_map _ h2) (List.Nodup.of_map _ h4)).mpr ?_⟩
  · rw [fold_add, addEntry_eq, fold_map]
    exact ⟨kvs, h1.imp fun _ _ h => entry_iff.mpr h, rfl⟩
  · rintro ⟨k, v⟩
    rw [h3, h5]

theorem list_complete {α : Type} {R : α → Bytes → Prop} {dec : Bytes → Option α} {S : α → α → Prop} {num : Nat}
    {fs : List (Nat × Value)} {l : List α} (hd : ∀ x b, R x b → ∃ y, dec b = some y ∧ S x y) (h : IsList R num fs l) :
    ∃ l', fs.foldlM (cAdd (fun l v => (dec v).map fun m => l ++ [m]) num) [] = some l' ∧ List.Forall₂ S l l' := by
  simp only [list_iff]
  unfold IsList at h ⊢
  generalize bytesOf num fs = bs at h ⊢
  induction h with
  | nil => exact ⟨[], .nil, .nil⟩
  | cons h _ ih =>
    obtain ⟨y, hy, hs⟩ := hd _ _ h
    obtain ⟨l', h1, h2⟩ := ih
    exact ⟨y :: l', .cons hy h1, .cons hs h2⟩

variable {order : List (Bytes × Bytes) → List (Bytes × Bytes)}

theorem event_sound (ho : ∀ l, (order l).Perm l) {e : CustomEvent} {b : Bytes} (h : unmarshalEvent order b = some e) : Event e b := by
  rw [unmarshalEvent, Option.map_eq_some_iff] at h
  obtain ⟨e', h, rfl⟩ := h
  obtain ⟨fs, h1, h2⟩ := unmarshalMessage_some.mp h
  obtain ⟨a, b, c, d⟩ := (fold_event _ _ _).mp h2
  exact ⟨fs, h1, float_iff.mp a, string_iff.mp b, string_iff.mp c, map_sound d (ho _)⟩

theorem event_complete (ho : ∀ l, (order l).Perm l) (e : CustomEvent) (b : Bytes) (h : Event e b) :
    ∃ e', unmarshalEvent order b = some e' ∧ SameEvent e e' := by
  obtain ⟨fs, h1, a, b, c, d⟩ := h
  obtain ⟨m, hm, hp⟩ := map_complete d
  refine ⟨⟨e.time, e.name, e.contents, order m⟩, ?_, rfl, rfl, rfl, hp.trans (ho _).symm⟩
  rw [unmarshalEvent, Option.map_eq_some_iff]
  exact ⟨⟨e.time, e.name, e.contents, m⟩, unmarshalMessage_some.mpr
    ⟨fs, h1, (fold_event _ _ _).mpr ⟨float_iff.mpr a, string_iff.mpr b, string_iff.mpr c, hm⟩⟩, rfl⟩

theorem list_sound {α : Type} {R : α → Bytes → Prop} {dec : Bytes → Option α} {num : Nat} {fs : List (Nat × Value)} {l : List α}
    (hd : ∀ x b, dec b = some x → R x b)
    (h : fs.foldlM (cAdd (fun l v => (dec v).map fun m => l ++ [m]) num) [] = some l) : IsList R num fs l :=
  (list_iff.mp h).imp fun _ _ h => hd _ _ h

theorem subject_sound (ho : ∀ l, (order l).Perm l) {s : V1.Subject} {b : Bytes} (h : unmarshalSubject order b = some s) :
    Subject s b := by
  rw [unmarshalSubject, Option.map_eq_some_iff] at h
  obtain ⟨s', h, rfl⟩ := h
  obtain ⟨fs, h1, h2⟩ := unmarshalMessage_some.mp h
  obtain ⟨a, b, c, d, e, f, g⟩ := (fold_subject order _ _ _).mp h2
  exact ⟨fs, h1, int_iff.mp a, string_iff.mp b, map_sound c (ho _), list_sound (fun _ _ h => event_sound ho h) d,
    list_sound (fun _ _ h => life_iff.mp h) e, list_sound (fun _ _ h => vector_iff.mp h) f,
    list_sound (fun _ _ h => vector_iff.mp h) g⟩

theorem forall₂_eq {α : Type} {l l' : List α} (h : List.Forall₂ Eq l l') : l = l' := by
  simpa using h

theorem subject_complete (ho : ∀ l, (order l).Perm l) (s : V1.Subject) (b : Bytes) (h : Subject s b) :
    ∃ s', unmarshalSubject order b = some s' ∧ SameSubject s s' := by
  obtain ⟨fs, h1, a, b, c, d, e, f, g⟩ := h
  obtain ⟨m, hm, hp⟩ := map_complete c
  obtain ⟨es, he, hs⟩ := list_complete (event_complete ho) d
  obtain ⟨ls, hl, hl'⟩ := list_complete (S := Eq) (fun x b h => ⟨x, life_iff.mpr h, rfl⟩) e
  obtain ⟨ps, hq, hq'⟩ := list_complete (S := Eq) (fun x b h => ⟨x, vector_iff.mpr h, rfl⟩) f
  obtain ⟨rs, hr, hr'⟩ := list_complete (S := Eq) (fun x b h => ⟨x, vector_iff.mpr h, rfl⟩) g
  refine ⟨⟨s.id, s.name, order m, es, ls, ps, rs⟩, ?_, rfl, rfl, hp.trans (ho _).symm, hs, forall₂_eq hl', forall₂_eq hq',
    forall₂_eq hr'⟩
  rw [unmarshalSubject, Option.map_eq_some_iff]
  exact ⟨⟨s.id, s.name, m, es, ls, ps, rs⟩, unmarshalMessage_some.mpr
    ⟨fs, h1, (fold_subject order _ _ _).mpr ⟨int_iff.mpr a, string_iff.mpr b, hm, he, hl, hq, hr⟩⟩, rfl⟩

theorem message_sound (ho : ∀ l, (order l).Perm l) {r : V1.Recording} {b : Bytes} (h : protoUnmarshal order b = .ok r) :
    Message r b := by
  rw [protoUnmarshal] at h
  split at h
  · cases h
  · rename_i r' h0
    cases h
    obtain ⟨fs, h1, h2⟩ := unmarshalMessage_some.mp h0
    obtain ⟨a, b, c, d⟩ := (fold_recording order _ _ _).mp h2
    exact ⟨fs, h1, string_iff.mp a, map_sound b (ho _), list_sound (fun _ _ h => subject_sound ho h) c,
      list_sound (fun _ _ h => event_sound ho h) d⟩

theorem message_complete (ho : ∀ l, (order l).Perm l) {r : V1.Recording} {b : Bytes} (h : Message r b) :
    ∃ r', protoUnmarshal order b = .ok r' ∧ SameMessage r r' := by
  obtain ⟨fs, h1, a, c, d, e⟩ := h
  obtain ⟨m, hm, hp⟩ := map_complete c
  obtain ⟨ss, hs, hs'⟩ := list_complete (subject_complete ho) d
  obtain ⟨es, he, he'⟩ := list_complete (event_complete ho) e
  refine ⟨⟨r.name, order m, ss, es⟩, ?_, rfl, hp.trans (ho _).symm, hs', he'⟩
  have : unmarshalMessage (recordingFields order) ⟨[], [], [], []⟩ b = some ⟨r.name, m, ss, es⟩ :=
    unmarshalMessage_some.mpr ⟨fs, h1, (fold_recording order _ _ _).mpr ⟨string_iff.mpr a, hm, hs, he⟩⟩
  rw [protoUnmarshal, this]

end Rap.Wire
