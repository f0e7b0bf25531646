import Verif.Spec.Accessors
import Verif.Props.Duration

/-!
# C67: the accessors of a collection
-/

namespace Rap

/-! ## Lemmas -/

theorem goIndex_ok {α : Type} {xs : List α} {i : Int} {x : α} (h0 : 0 ≤ i) (hx : xs[i.toNat]? = some x) :
    goIndex xs i = .ok x := by
  rw [goIndex, if_neg (by omega), hx]

theorem goIndex_out {α : Type} {xs : List α} {i : Int} (h : ¬ (0 ≤ i ∧ i < xs.length)) :
    goIndex xs i = .error .indexOutOfRange := by
  rw [goIndex]
  split
  · rfl
  · rw [List.getElem?_eq_none (by omega)]

theorem capturesLoop_get {α : Type} (wrap : α → Capture) (xs : List α) (i : Nat) (out : List (Option Capture))
    (h : i + xs.length ≤ out.length) (k : Nat) : (capturesLoop wrap xs i out)[k]? =
      if i ≤ k ∧ k < i + xs.length then (xs[k - i]?).map fun x => some (wrap x) else out[k]? := by
  induction xs generalizing i out with
  | nil => simp [capturesLoop]
  | cons x xs ih =>
    simp only [List.length_cons] at h
    rw [capturesLoop, ih _ _ (by simp; omega)]
    simp only [List.length_cons]
    by_cases hk : k = i
    · subst hk
      rw [if_neg (by omega), if_pos (by omega), List.getElem?_set_self (by omega)]
      simp
    · rw [List.getElem?_set_ne (by omega)]
      by_cases h1 : i ≤ k ∧ k < i + (xs.length + 1)
      · rw [if_pos h1, if_pos (by omega)]
        obtain ⟨j, hj⟩ : ∃ j, k - i = j + 1 := ⟨k - i - 1, by omega⟩
        rw [hj, List.getElem?_cons_succ]
        congr 2
        omega
      · rw [if_neg h1, if_neg (by omega)]

theorem capturesLoop_length {α : Type} (wrap : α → Capture) (xs : List α) (i : Nat) (out : List (Option Capture)) :
    (capturesLoop wrap xs i out).length = out.length := by
  induction xs generalizing i out with
  | nil => rfl
  | cons x xs ih => rw [capturesLoop, ih, List.length_set]

theorem capturesOf_eq {α : Type} (wrap : α → Capture) (xs : List α) :
    capturesOf wrap xs = xs.map fun x => some (wrap x) := by
  apply List.ext_getElem?
  intro k
  rw [capturesOf, capturesLoop_get _ _ _ _ (by simp)]
  simp only [Nat.zero_le, Nat.zero_add, true_and, Nat.sub_zero, List.getElem?_map]
  split
  · rfl
  · rename_i h
    rw [List.getElem?_replicate, if_neg h, List.getElem?_eq_none (by omega)]
    rfl

theorem Holds.time {c : Coll} {i : Nat} {x : Capture} (h : Holds c i x) : c.times[i]? = some x.time := by
  cases h <;> rename_i h <;> simp [Coll.times, Capture.time, h]

theorem holds_of_lt {c : Coll} {i : Nat} (h : i < c.times.length) : ∃ x, Holds c i x := by
  cases c <;> simp only [Coll.times, List.length_map] at h
  · exact ⟨_, .position (List.getElem?_eq_getElem h)⟩
  · exact ⟨_, .euler (List.getElem?_eq_getElem h)⟩
  · exact ⟨_, .event (List.getElem?_eq_getElem h)⟩
  · exact ⟨_, .enum (List.getElem?_eq_getElem h)⟩
  · exact ⟨_, .float (List.getElem?_eq_getElem h)⟩
  · exact ⟨_, .other (List.getElem?_eq_getElem h)⟩

theorem Holds.lt {c : Coll} {i : Nat} {x : Capture} (h : Holds c i x) : i < c.times.length := by
  have := h.time
  exact (List.getElem?_eq_some_iff.1 this).1

theorem captureAt_shows {c : Coll} {i : Int} {x : Capture} (h0 : 0 ≤ i) (h : Holds c i.toNat x) : c.captureAt i = .ok x := by
  cases h <;> rename_i h <;> simp only [Coll.captureAt, goIndex_ok h0 h] <;> rfl

theorem captureAt_out {c : Coll} {i : Int} (h : ¬ (0 ≤ i ∧ i < c.times.length)) :
    c.captureAt i = .error .indexOutOfRange := by
  cases c <;> simp only [Coll.times, List.length_map] at h <;> simp only [Coll.captureAt, goIndex_out h] <;> rfl

theorem start_captureAt (c : Coll) : c.start = (c.captureAt 0).map Capture.time := by
  cases c <;> simp only [Coll.start, Coll.captureAt] <;> (cases goIndex _ _ <;> rfl)

theorem stop_captureAt (c : Coll) : c.stop = (c.captureAt (c.times.length - 1)).map Capture.time := by
  cases c <;> simp only [Coll.stop, Coll.captureAt, Coll.times, List.length_map] <;> (cases goIndex _ _ <;> rfl)

/-! ## C67 -/

/-- C67: `CaptureAt(i)` is the i-th capture, with its own time and value, and panics exactly if there is none. -/
theorem C67_capture_at (c : Coll) (i : Int) :
    (∀ x, c.captureAt i = .ok x ↔ 0 ≤ i ∧ Holds c i.toNat x) ∧
    (c.captureAt i = .error .indexOutOfRange ↔ ¬ (0 ≤ i ∧ ∃ x, Holds c i.toNat x)) ∧
    (∀ x, c.captureAt i = .ok x → c.times[i.toNat]? = some x.time) := by
  by_cases h : 0 ≤ i ∧ i < c.times.length
  · obtain ⟨x, hx⟩ := holds_of_lt (c := c) (i := i.toNat) (by omega)
    have hc := captureAt_shows h.1 hx
    refine ⟨fun y => ⟨fun hy => ?_, fun hy => captureAt_shows hy.1 hy.2⟩, ?_, fun y hy => ?_⟩
    · rw [hc] at hy; cases hy; exact ⟨h.1, hx⟩
    · rw [hc]; exact ⟨fun hh => by simp at hh, fun hh => absurd ⟨h.1, x, hx⟩ hh⟩
    · rw [hc] at hy; cases hy; exact hx.time
  · have hc := captureAt_out h
    refine ⟨fun y => ⟨fun hy => ?_, fun hy => ?_⟩, ⟨fun _ hh => ?_, fun _ => hc⟩, fun y hy => ?_⟩
    · rw [hc] at hy; exact nomatch hy
    · have := hy.2.lt; exact absurd ⟨hy.1, by omega⟩ h
    · obtain ⟨h0, x, hx⟩ := hh; have := hx.lt; exact h ⟨h0, by omega⟩
    · rw [hc] at hy; exact nomatch hy

/-- C67: `Length()` is the number of captures: the places below it are exactly those that hold one. -/
theorem C67_length (c : Coll) (i : Nat) : i < c.length ↔ ∃ x, Holds c i x := by
  have hl : c.length = c.times.length := by cases c <;> simp [Coll.length, Coll.times]
  rw [hl]
  exact ⟨holds_of_lt, fun ⟨_, h⟩ => h.lt⟩

/-- C67: `Captures()` lists every capture in its place, and no entry is nil. -/
theorem C67_captures (c : Coll) : c.allCaptures.length = c.length ∧ none ∉ c.allCaptures ∧
    ∀ (i : Nat) (x : Capture), c.allCaptures[i]? = some (some x) ↔ Holds c i x := by
  refine ⟨?_, ?_, fun i x => ⟨fun h => ?_, fun h => ?_⟩⟩
  · cases c <;> simp [Coll.allCaptures, Coll.length, capturesOf_eq]
  · cases c <;> simp [Coll.allCaptures, capturesOf_eq]
  · cases c <;> simp only [Coll.allCaptures, capturesOf_eq, List.getElem?_map, Option.map_eq_some_iff,
      Option.some.injEq] at h <;> obtain ⟨y, hy, rfl⟩ := h
    · exact .position hy
    · exact .euler hy
    · exact .event hy
    · exact .enum hy
    · exact .float hy
    · exact .other hy
  · cases h <;> rename_i h <;> simp [Coll.allCaptures, capturesOf_eq, h]

/-- The middle one of three enum captures; there is no fourth, and none at -1. -/
example : (Coll.enum [1] [[65], [66]] [(0, 1), (1, 0), (2, 1)]).captureAt 1 = .ok (.enum 1 0) ∧
    (Coll.enum [1] [[65], [66]] [(0, 1), (1, 0), (2, 1)]).captureAt 3 = .error .indexOutOfRange ∧
    (Coll.enum [1] [[65], [66]] [(0, 1), (1, 0), (2, 1)]).captureAt (-1) = .error .indexOutOfRange ∧
    (Coll.enum [1] [[65], [66]] [(0, 1), (1, 0), (2, 1)]).allCaptures =
      [some (.enum 0 1), some (.enum 1 0), some (.enum 2 1)] ∧
    Holds (Coll.enum [1] [[65], [66]] [(0, 1), (1, 0), (2, 1)]) 1 (.enum 1 0) :=
  ⟨rfl, rfl, rfl, rfl, .enum rfl⟩

/-- C67: `Start`, `End` and `CollectionDuration` panic exactly on a collection without captures. -/
theorem C67_empty (c : Coll) : (c.start = .error .indexOutOfRange ↔ c.times = []) ∧
    (c.stop = .error .indexOutOfRange ↔ c.times = []) ∧
    (collectionDuration c = .error .indexOutOfRange ↔ c.times = []) ∧
    (c.times ≠ [] → ∃ s e, c.start = .ok s ∧ c.stop = .ok e ∧ c.times.head? = some s ∧ c.times.getLast? = some e ∧
      collectionDuration c = .ok (e.sub s)) := by
  by_cases h : c.times = []
  · have h1 : c.start = .error .indexOutOfRange := by
      rw [start_captureAt, captureAt_out (by simp [h])]; rfl
    have h2 : c.stop = .error .indexOutOfRange := by
      rw [stop_captureAt, captureAt_out (by simp [h])]; rfl
    refine ⟨by simp [h1, h], by simp [h2, h], ?_, fun hh => absurd h hh⟩
    simp only [h, iff_true, collectionDuration, h2]
    rfl
  · have hl : 0 < c.times.length := List.length_pos_iff.2 h
    obtain ⟨x, hx⟩ := holds_of_lt (c := c) (i := 0) hl
    obtain ⟨y, hy⟩ := holds_of_lt (c := c) (i := c.times.length - 1) (by omega)
    have h1 : c.start = .ok x.time := by
      rw [start_captureAt, captureAt_shows (by omega) (i := 0) hx]; rfl
    have h2 : c.stop = .ok y.time := by
      rw [stop_captureAt, captureAt_shows (x := y) (by omega) (by
        have : ((c.times.length : Int) - 1).toNat = c.times.length - 1 := by omega
        rw [this]; exact hy)]
      rfl
    have h3 : collectionDuration c = .ok (y.time.sub x.time) := by
      simp only [collectionDuration, h1, h2]; rfl
    refine ⟨by simp [h1, h], by simp [h2, h], by simp [h3, h], fun _ => ⟨_, _, h1, h2, ?_, ?_, h3⟩⟩
    · rw [List.head?_eq_getElem?]; exact hx.time
    · rw [List.getLast?_eq_getElem?]; exact hy.time

/-- C67: in a chronological collection `Start` is the earliest and `End` the latest capture time. -/
theorem C67_start_and_end (c : Coll) (hne : c.times ≠ []) (hc : ChronoTimes c.times)
    (hn : ∀ t ∈ c.times, number64 t ≠ .nan) :
    ∃ s e, c.start = .ok s ∧ c.stop = .ok e ∧ s ∈ c.times ∧ e ∈ c.times ∧
      ∀ t ∈ c.times, (number64 s).le (number64 t) ∧ (number64 t).le (number64 e) := by
  obtain ⟨s, e, h1, h2, h3, h4, -⟩ := (C67_empty c).2.2.2 hne
  have hs : s ∈ c.times := List.mem_of_mem_head? h3
  have he : e ∈ c.times := List.mem_of_getLast? h4
  refine ⟨s, e, h1, h2, hs, he, fun t ht => ?_⟩
  have hp := chrono_sorted hc hn
  rw [le_key (hn s hs) (hn t ht), le_key (hn t ht) (hn e he)]
  obtain ⟨i, hi, rfl⟩ := List.getElem_of_mem ht
  rw [List.head?_eq_getElem?] at h3
  rw [List.getLast?_eq_getElem?] at h4
  obtain ⟨h5, rfl⟩ := List.getElem?_eq_some_iff.1 h3
  obtain ⟨h6, rfl⟩ := List.getElem?_eq_some_iff.1 h4
  rw [List.pairwise_iff_getElem] at hp
  constructor
  · rcases Nat.eq_zero_or_pos i with rfl | h
    · exact Int.le_refl _
    · exact hp 0 i h5 hi h
  · rcases Nat.lt_or_ge i (c.times.length - 1) with h | h
    · exact hp i _ hi h6 h
    · have : i = c.times.length - 1 := by omega
      subst this; exact Int.le_refl _

/-- C67: if in addition all times are finite, `CollectionDuration` is the double nearest to the difference between the latest
and the earliest, and so not negative. -/
theorem C67_duration (c : Coll) (hne : c.times ≠ []) (hc : ChronoTimes c.times)
    (hf : ∀ t ∈ c.times, ∃ q, number64 t = .fin q) :
    ∃ d s e qs qe, collectionDuration c = .ok d ∧ s ∈ c.times ∧ number64 s = .fin qs ∧ e ∈ c.times ∧
      number64 e = .fin qe ∧ (∀ t q, t ∈ c.times → number64 t = .fin q → qs ≤ q ∧ q ≤ qe) ∧ Nearest64 (qe - qs) d := by
  have hn : ∀ t ∈ c.times, number64 t ≠ .nan := fun t ht => by obtain ⟨q, hq⟩ := hf t ht; rw [hq]; simp
  obtain ⟨s, e, h1, h2, h3, h4, h5⟩ := C67_start_and_end c hne hc hn
  obtain ⟨qs, hs⟩ := hf s h3
  obtain ⟨qe, he⟩ := hf e h4
  refine ⟨e.sub s, s, e, qs, qe, ?_, h3, hs, h4, he, ?_, ?_⟩
  · simp only [collectionDuration, h1, h2]; rfl
  · intro t q ht hq
    have h6 := h5 t ht
    rw [hs, he, hq] at h6
    constructor
    · rcases h6.1 with h | ⟨h, -⟩
      · exact le_of_lt h
      · injection h with h; exact le_of_eq h
    · rcases h6.2 with h | ⟨h, -⟩
      · exact le_of_lt h
      · injection h with h; exact le_of_eq h
  · have f1 := (F64.finite_number s).2 ⟨_, hs⟩
    have f2 := (F64.finite_number e).2 ⟨_, he⟩
    rw [F64.number_fin f1] at hs
    rw [F64.number_fin f2] at he
    injection hs with hs
    injection he with he
    rw [← hs, ← he]
    exact nearest_sub f2 f1

/-- Captures at 0.25, 1.5 and 4: the collection lasts 3.75. -/
example : ∃ c : Coll, c.times ≠ [] ∧ ChronoTimes c.times ∧ (∀ t ∈ c.times, ∃ q, number64 t = .fin q) ∧
    c.start = .ok 0x3FD0000000000000 ∧ c.stop = .ok 0x4010000000000000 ∧
    collectionDuration c = .ok 0x400E000000000000 := by
  refine ⟨.float [] [(0x3FD0000000000000, 0), (0x3FF8000000000000, 0), (0x4010000000000000, 0)], by simp [Coll.times],
    ?_, ?_, rfl, rfl, by decide +kernel⟩
  · exact (chronoFrom_iff _ _).1 (by decide +kernel)
  · intro t ht
    simp only [Coll.times, List.map_cons, List.map_nil, List.mem_cons, List.not_mem_nil, or_false] at ht
    rcases ht with rfl | rfl | rfl
    · exact ⟨1 / 4, by decide +kernel⟩
    · exact ⟨3 / 2, by decide +kernel⟩
    · exact ⟨4, by decide +kernel⟩

/-- C67: for captures out of order neither is true; the duration may be negative. -/
theorem C67_out_of_order : ∃ c : Coll, c.times.length = 2 ∧ (∃ s t, c.start = .ok s ∧ t ∈ c.times ∧
    (number64 t).lt (number64 s)) ∧ ∃ d q, collectionDuration c = .ok d ∧ number64 d = .fin q ∧ q < 0 := by
  refine ⟨.float [] [(0x4010000000000000, 0), (0x3FD0000000000000, 0)], rfl, ⟨_, 0x3FD0000000000000, rfl, by
    simp [Coll.times], (F64.lt_number _ _).1 (by decide +kernel)⟩, 0xC00E000000000000, -15 / 4, by decide +kernel,
    by decide +kernel, by norm_num⟩

end Rap
