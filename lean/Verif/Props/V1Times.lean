import Verif.Props.Duration
import Verif.Props.V1

/-!
# C57: start, end, duration and event count of a version 1 recording
-/

namespace Rap

open V1

/-- The times of a list that are numbers, as float64. -/
def NumbersOf (ts : List F32) (t : F64) : Prop := ∃ x ∈ ts, number32 x ≠ .nan ∧ t = widen x

theorem lowest_low {T : F64 → Prop} (ts : List F32) (m : F64) (hm : Low T m) :
    Low (fun t => T t ∨ NumbersOf ts t) (lowest ts m) := by
  induction ts generalizing T m with
  | nil => simpa [NumbersOf, lowest] using hm
  | cons x ts ih =>
    rw [lowest]
    by_cases hx : number32 x = .nan
    · have h : (widen x).lt m = false := by
        rw [← Bool.not_eq_true, F64.lt_number, number_widen, hx]
        simp [Number.lt]
      rw [h, if_neg (by simp)]
      have := ih m hm
      have he : (fun t => T t ∨ NumbersOf (x :: ts) t) = fun t => T t ∨ NumbersOf ts t := by
        funext t; simp [NumbersOf, hx]
      rwa [he]
    · have h1 : Low (fun t => t = widen x) (widen x) :=
        ⟨by rwa [number_widen], fun t ht => by rw [ht], .inl rfl⟩
      have := ih _ (h1.merge hm (fun _ => Iff.rfl))
      have he : (fun t => T t ∨ NumbersOf (x :: ts) t) = fun t => (t = widen x ∨ T t) ∨ NumbersOf ts t := by
        funext t; simp only [NumbersOf, List.mem_cons, exists_eq_or_imp]; rw [eq_iff_iff]; tauto
      rwa [he]

theorem highest_high {T : F64 → Prop} (ts : List F32) (m : F64) (hm : High T m) :
    High (fun t => T t ∨ NumbersOf ts t) (highest ts m) := by
  induction ts generalizing T m with
  | nil => simpa [NumbersOf, highest] using hm
  | cons x ts ih =>
    rw [highest]
    by_cases hx : number32 x = .nan
    · have h : m.lt (widen x) = false := by
        rw [← Bool.not_eq_true, F64.lt_number, number_widen, hx]
        cases number64 m <;> simp [Number.lt]
      rw [h, if_neg (by simp)]
      have := ih m hm
      have he : (fun t => T t ∨ NumbersOf (x :: ts) t) = fun t => T t ∨ NumbersOf ts t := by
        funext t; simp [NumbersOf, hx]
      rwa [he]
    · have h1 : High (fun t => t = widen x) (widen x) :=
        ⟨by rwa [number_widen], fun t ht => by rw [ht], .inl rfl⟩
      have := ih _ (h1.merge hm (fun _ => Iff.rfl))
      have he : (fun t => T t ∨ NumbersOf (x :: ts) t) = fun t => (t = widen x ∨ T t) ∨ NumbersOf ts t := by
        funext t; simp only [NumbersOf, List.mem_cons, exists_eq_or_imp]; rw [eq_iff_iff]; tauto
      rwa [he]

/-- The times of the captures of a subject, in the order in which they are looked at. -/
def subjectTimes (s : Subject) : List F32 :=
  s.events.map CustomEvent.time ++ s.positions.map VectorCapture.time ++ s.rotations.map VectorCapture.time ++
    s.lifecycle.map LifeEvent.time

theorem numbersOf_append (a b : List F32) (t : F64) : NumbersOf (a ++ b) t ↔ NumbersOf a t ∨ NumbersOf b t := by
  simp only [NumbersOf, List.mem_append, or_and_right, exists_or]

theorem lowestOfSubjects_low {T : F64 → Prop} (ss : List Subject) (m : F64) (hm : Low T m) :
    Low (fun t => T t ∨ ∃ s ∈ ss, NumbersOf (subjectTimes s) t) (lowestOfSubjects ss m) := by
  induction ss generalizing T m with
  | nil => simpa [lowestOfSubjects] using hm
  | cons s ss ih =>
    rw [lowestOfSubjects]
    have := ih _ (lowest_low (s.lifecycle.map LifeEvent.time) _ (lowest_low (s.rotations.map VectorCapture.time) _
      (lowest_low (s.positions.map VectorCapture.time) _ (lowest_low (s.events.map CustomEvent.time) m hm))))
    refine cast (congrArg (fun P => Low P _) ?_) this
    funext t
    simp only [subjectTimes, numbersOf_append, List.mem_cons, exists_eq_or_imp, or_assoc]

theorem highestOfSubjects_high {T : F64 → Prop} (ss : List Subject) (m : F64) (hm : High T m) :
    High (fun t => T t ∨ ∃ s ∈ ss, NumbersOf (subjectTimes s) t) (highestOfSubjects ss m) := by
  induction ss generalizing T m with
  | nil => simpa [highestOfSubjects] using hm
  | cons s ss ih =>
    rw [highestOfSubjects]
    have := ih _ (highest_high (s.lifecycle.map LifeEvent.time) _ (highest_high (s.rotations.map VectorCapture.time) _
      (highest_high (s.positions.map VectorCapture.time) _ (highest_high (s.events.map CustomEvent.time) m hm))))
    refine cast (congrArg (fun P => High P _) ?_) this
    funext t
    simp only [subjectTimes, numbersOf_append, List.mem_cons, exists_eq_or_imp, or_assoc]

/-- The times of a version 1 recording that are numbers, as float64. -/
def V1Number (v : V1.Recording) (t : F64) : Prop := ∃ x, TimeIn v x ∧ number32 x ≠ .nan ∧ t = widen x

theorem v1Number_iff (v : V1.Recording) (t : F64) : V1Number v t ↔
    (False ∨ NumbersOf (v.events.map CustomEvent.time) t) ∨ ∃ s ∈ v.subjects, NumbersOf (subjectTimes s) t := by
  constructor
  · rintro ⟨x, hx | ⟨s, hs, hx⟩, h1, h2⟩
    · obtain ⟨e, he, rfl⟩ := hx
      exact .inl (.inr ⟨_, List.mem_map_of_mem he, h1, h2⟩)
    · refine .inr ⟨s, hs, x, ?_, h1, h2⟩
      simpa only [subjectTimes, List.mem_append, List.mem_map, or_assoc] using hx
  · rintro ((h | ⟨x, hx, h1, h2⟩) | ⟨s, hs, x, hx, h1, h2⟩)
    · exact h.elim
    · exact ⟨x, .inl (by simpa using hx), h1, h2⟩
    · refine ⟨x, .inr ⟨s, hs, ?_⟩, h1, h2⟩
      simpa only [subjectTimes, List.mem_append, List.mem_map, or_assoc] using hx

theorem getStart_low (v : V1.Recording) : Low (V1Number v) (getStart v) := by
  have := lowestOfSubjects_low v.subjects _ (lowest_low (v.events.map CustomEvent.time) F64.inf
    (T := fun _ => False) ⟨by rw [number_inf]; simp, by simp, .inr rfl⟩)
  refine cast (congrArg (fun P => Low P _) ?_) this
  funext t
  rw [eq_iff_iff, v1Number_iff]

theorem getEnd_high (v : V1.Recording) : High (V1Number v) (getEnd v) := by
  have := highestOfSubjects_high v.subjects _ (highest_high (v.events.map CustomEvent.time) F64.ninf
    (T := fun _ => False) ⟨by rw [number_ninf]; simp, by simp, .inr rfl⟩)
  refine cast (congrArg (fun P => High P _) ?_) this
  funext t
  rw [eq_iff_iff, v1Number_iff]

/-- C57: whatever the order of the captures, the start is the earliest time of all and the end the latest; times that are
not numbers are passed over. -/
theorem C57_start_and_end (v : V1.Recording) (hne : ∃ t, TimeIn v t ∧ number32 t ≠ .nan) :
    (∃ t, TimeIn v t ∧ SameNumber t (getStart v)) ∧ (∃ t, TimeIn v t ∧ SameNumber t (getEnd v)) ∧
      ∀ t, TimeIn v t → number32 t ≠ .nan →
        (number64 (getStart v)).le (number32 t) ∧ (number32 t).le (number64 (getEnd v)) := by
  obtain ⟨a1, a2, a3⟩ := getStart_low v
  obtain ⟨b1, b2, b3⟩ := getEnd_high v
  obtain ⟨x, hx, hxn⟩ := hne
  have hxn' : number64 (widen x) ≠ .nan := by rwa [number_widen]
  refine ⟨?_, ?_, fun t ht hn => ?_⟩
  · rcases a3 with ⟨t, h1, -, h3⟩ | h
    · exact ⟨t, h1, by rw [SameNumber, h3, number_widen]⟩
    · have := a2 _ ⟨x, hx, hxn, rfl⟩
      rw [h] at this
      exact ⟨x, hx, by rw [SameNumber, h, ← number_eq_inf hxn' this, number_widen]⟩
  · rcases b3 with ⟨t, h1, -, h3⟩ | h
    · exact ⟨t, h1, by rw [SameNumber, h3, number_widen]⟩
    · have := b2 _ ⟨x, hx, hxn, rfl⟩
      rw [h] at this
      exact ⟨x, hx, by rw [SameNumber, h, ← number_eq_ninf hxn' this, number_widen]⟩
  · have hn' : number64 (widen t) ≠ .nan := by rwa [number_widen]
    rw [← number_widen]
    exact ⟨(le_key a1 hn').2 (a2 _ ⟨t, ht, hn, rfl⟩), (le_key hn' b1).2 (b2 _ ⟨t, ht, hn, rfl⟩)⟩

/-- C57: without a time that is a number the start is +Inf, the end -Inf and the duration -Inf. -/
theorem C57_no_times (v : V1.Recording) (h : ∀ t, TimeIn v t → number32 t = .nan) :
    number64 (getStart v) = .pinf ∧ number64 (getEnd v) = .ninf ∧ number64 (getDuration v) = .ninf := by
  obtain ⟨-, -, a3⟩ := getStart_low v
  obtain ⟨-, -, b3⟩ := getEnd_high v
  have ha : getStart v = F64.inf := a3.resolve_left fun ⟨t, h1, h2, _⟩ => h2 (h t h1)
  have hb : getEnd v = F64.ninf := b3.resolve_left fun ⟨t, h1, h2, _⟩ => h2 (h t h1)
  rw [getDuration, ha, hb]
  decide +kernel

/-- One event, at a time that is not a number. -/
example : ∀ t, TimeIn ⟨[], [], [], [⟨0x7FC00000, [], [], []⟩]⟩ t → number32 t = .nan := by
  rintro t (⟨e, he, rfl⟩ | ⟨s, hs, -⟩)
  · simp only [List.mem_singleton] at he
    subst he
    decide +kernel
  · simp at hs

/-- C57: if all times are finite, the duration is the double nearest to the difference between the latest and the earliest
time. -/
theorem C57_duration (v : V1.Recording) (hf : ∀ t, TimeIn v t → ∃ q, number32 t = .fin q) (hne : ∃ t, TimeIn v t) :
    ∃ s e qs qe, TimeIn v s ∧ number32 s = .fin qs ∧ TimeIn v e ∧ number32 e = .fin qe ∧
      (∀ t q, TimeIn v t → number32 t = .fin q → qs ≤ q ∧ q ≤ qe) ∧ Nearest64 (qe - qs) (getDuration v) := by
  obtain ⟨x, hx⟩ := hne
  have hn : ∀ t, TimeIn v t → number32 t ≠ .nan := fun t ht => by obtain ⟨q, hq⟩ := hf t ht; rw [hq]; simp
  obtain ⟨⟨s, hs, hs'⟩, ⟨e, he, he'⟩, h⟩ := C57_start_and_end v ⟨x, hx, hn x hx⟩
  obtain ⟨qs, hqs⟩ := hf s hs
  obtain ⟨qe, hqe⟩ := hf e he
  rw [SameNumber, hqs] at hs'
  rw [SameNumber, hqe] at he'
  refine ⟨s, e, qs, qe, hs, hqs, he, hqe, fun t q ht hq => ?_, ?_⟩
  · have h6 := h t ht (hn t ht)
    rw [hs', he', hq] at h6
    constructor
    · rcases h6.1 with h | ⟨h, -⟩
      · exact le_of_lt h
      · injection h with h; exact le_of_eq h
    · rcases h6.2 with h | ⟨h, -⟩
      · exact le_of_lt h
      · injection h with h; exact le_of_eq h
  · have f1 := (F64.finite_number _).2 ⟨_, hs'⟩
    have f2 := (F64.finite_number _).2 ⟨_, he'⟩
    rw [F64.number_fin f1] at hs'
    rw [F64.number_fin f2] at he'
    injection hs' with hs'
    injection he' with he'
    rw [← hs', ← he']
    exact nearest_sub f2 f1

theorem countEventsOf_eq (ss : List Subject) (n : Nat) :
    countEventsOf ss n = n + (ss.flatMap Subject.events).length := by
  induction ss generalizing n with
  | nil => simp [countEventsOf]
  | cons s ss ih => rw [countEventsOf, ih, List.flatMap_cons, List.length_append]; omega

/-- C57: the count of custom events is the number of events of the recording and of all subjects together. -/
theorem C57_count (v : V1.Recording) :
    countEvents v = (v.events ++ v.subjects.flatMap Subject.events).length := by
  rw [countEvents, countEventsOf_eq, List.length_append]

theorem timeOf_v1 (X : Ext) (v : V1.Recording) (t : F64) :
    TimeOf (protobufToStd X v) t ↔ ∃ x, TimeIn v x ∧ t = widen x := by
  have h : protobufToStd X v = .mk v.name v.name ([oldToNewEvents v.events].map some) (v.subjects.map (subjectToStd X))
      (convertMetadata X v.metadata) [] [] := rfl
  have hs : ∀ s : Subject, subjectToStd X s = .mk (decimal s.id.toInt) s.name
      ([.position sPosition (s.positions.map vecCapture), .euler sRotation (s.rotations.map vecCapture),
        oldToNewEvents s.events,
        .enum sLifeCycle lifeMembers (s.lifecycle.map fun e => (widen e.time, e.type.signExtend 64))].map some)
      [] (convertMetadata X s.metadata) [] [] := fun s => rfl
  rw [h, timeOf_mk]
  constructor
  · rintro (⟨r, hr, ht⟩ | ⟨c, hc, ht⟩)
    · obtain ⟨s, hm, rfl⟩ := List.mem_map.1 hr
      rw [hs, timeOf_mk] at ht
      rcases ht with ⟨r, hr, -⟩ | ⟨c, hc, ht⟩
      · simp at hr
      · simp only [List.mem_cons, List.not_mem_nil, or_false] at hc
        rcases hc with rfl | rfl | rfl | rfl
        · simp [Coll.times, vecCapture] at ht
          obtain ⟨e, he, rfl⟩ := ht
          exact ⟨_, .inr ⟨s, hm, .inr (.inl ⟨e, he, rfl⟩)⟩, rfl⟩
        · simp [Coll.times, vecCapture] at ht
          obtain ⟨e, he, rfl⟩ := ht
          exact ⟨_, .inr ⟨s, hm, .inr (.inr (.inl ⟨e, he, rfl⟩))⟩, rfl⟩
        · simp [Coll.times, oldToNewEvents] at ht
          obtain ⟨e, he, rfl⟩ := ht
          exact ⟨_, .inr ⟨s, hm, .inl ⟨e, he, rfl⟩⟩, rfl⟩
        · simp [Coll.times] at ht
          obtain ⟨e, he, rfl⟩ := ht
          exact ⟨_, .inr ⟨s, hm, .inr (.inr (.inr ⟨e, he, rfl⟩))⟩, rfl⟩
    · simp only [List.mem_cons, List.not_mem_nil, or_false] at hc
      subst hc
      simp [Coll.times, oldToNewEvents] at ht
      obtain ⟨e, he, rfl⟩ := ht
      exact ⟨_, .inl ⟨e, he, rfl⟩, rfl⟩
  · rintro ⟨x, hx, rfl⟩
    rcases hx with ⟨e, he, rfl⟩ | ⟨s, hm, hx⟩
    · refine .inr ⟨_, List.mem_singleton.2 rfl, ?_⟩
      simp [Coll.times, oldToNewEvents]
      exact ⟨e, he, rfl⟩
    · refine .inl ⟨_, List.mem_map_of_mem hm, ?_⟩
      rw [hs, timeOf_mk]
      right
      rcases hx with ⟨e, he, rfl⟩ | ⟨e, he, rfl⟩ | ⟨e, he, rfl⟩ | ⟨e, he, rfl⟩
      · refine ⟨oldToNewEvents s.events, by simp, ?_⟩
        simp [Coll.times, oldToNewEvents]
        exact ⟨e, he, rfl⟩
      · refine ⟨.position sPosition (s.positions.map vecCapture), by simp, ?_⟩
        simp [Coll.times, vecCapture]
        exact ⟨e, he, rfl⟩
      · refine ⟨.euler sRotation (s.rotations.map vecCapture), by simp, ?_⟩
        simp [Coll.times, vecCapture]
        exact ⟨e, he, rfl⟩
      · refine ⟨_, List.mem_cons_of_mem _ (List.mem_cons_of_mem _ (List.mem_cons_of_mem _ (List.mem_singleton.2 rfl))), ?_⟩
        simp [Coll.times]
        exact ⟨e, he, rfl⟩

theorem Number.le_antisymm {a b : Number} (h1 : a.le b) (h2 : b.le a) : a = b := by
  rcases h1 with h1 | ⟨h, -⟩
  · rcases h2 with h2 | ⟨h, -⟩
    · cases a <;> cases b <;> simp_all [Number.lt]
      exact absurd h1 (not_lt.2 (le_of_lt h2))
    · exact h.symm
  · exact h

theorem Low.number_unique {T : F64 → Prop} {a b : F64} (ha : Low T a)
    (hb : Low T b) : number64 a = number64 b := by
  obtain ⟨a1, a2, a3⟩ := ha
  obtain ⟨b1, b2, b3⟩ := hb
  rcases a3 with a3 | rfl
  · rcases b3 with b3 | rfl
    · exact Number.le_antisymm ((le_key a1 b1).2 (a2 b b3)) ((le_key b1 a1).2 (b2 a a3))
    · rw [number_eq_inf a1 (b2 a a3)]
  · rcases b3 with b3 | rfl
    · rw [number_eq_inf b1 (a2 b b3)]
    · rfl

theorem High.number_unique {T : F64 → Prop} {a b : F64} (ha : High T a)
    (hb : High T b) : number64 a = number64 b := by
  obtain ⟨a1, a2, a3⟩ := ha
  obtain ⟨b1, b2, b3⟩ := hb
  rcases a3 with a3 | rfl
  · rcases b3 with b3 | rfl
    · exact Number.le_antisymm ((le_key a1 b1).2 (b2 a a3)) ((le_key b1 a1).2 (a2 b b3))
    · rw [number_eq_ninf a1 (b2 a a3)]
  · rcases b3 with b3 | rfl
    · rw [number_eq_ninf b1 (a2 b b3)]
    · rfl

theorem complete_v1 (X : Ext) (v : V1.Recording) : Complete (protobufToStd X v) := by
  intro r hw
  cases hw with
  | self => simp [protobufToStd, Rec.colls]
  | child hm hw =>
    obtain ⟨s, -, rfl⟩ := List.mem_map.1 hm
    cases hw with
    | self => simp [subjectToStd, Rec.colls]
    | child hm hw => simp at hm

/-- C57: for a recording in chronological order without NaN times, these are the start and end of the recording it is
converted to. -/
theorem C57_agrees (X : Ext) (v : V1.Recording) (hc : Chronological (protobufToStd X v))
    (hn : ∀ t, TimeIn v t → number32 t ≠ .nan) :
    ∃ s e, recordingStart (protobufToStd X v) = .ok s ∧ recordingEnd (protobufToStd X v) = .ok e ∧
      number64 (getStart v) = number64 s ∧ number64 (getEnd v) = number64 e := by
  have hT : V1Number v = TimeOf (protobufToStd X v) := by
    funext t
    rw [eq_iff_iff, timeOf_v1]
    exact ⟨fun ⟨x, h1, _, h3⟩ => ⟨x, h1, h3⟩, fun ⟨x, h1, h3⟩ => ⟨x, h1, hn x h1, h3⟩⟩
  have hn' : ∀ t, TimeOf (protobufToStd X v) t → number64 t ≠ .nan := by
    intro t ht
    obtain ⟨x, h1, rfl⟩ := (timeOf_v1 X v t).1 ht
    rw [number_widen]; exact hn x h1
  obtain ⟨s, h1, h2⟩ := start_low _ ⟨complete_v1 X v, hc, hn'⟩
  obtain ⟨e, h3, h4⟩ := end_high _ ⟨complete_v1 X v, hc, hn'⟩
  have ha := getStart_low v
  have hb := getEnd_high v
  rw [hT] at ha hb
  exact ⟨s, e, h1, h3, ha.number_unique h2, hb.number_unique h4⟩

/-- Events of the recording out of order, a NaN among them, and a position earlier than all of them. -/
def v1Times : V1.Recording :=
  ⟨[], [], [⟨1, [], [], [], [], [⟨0xBF800000, 0, 0, 0⟩], []⟩], [⟨0x40000000, [], [], []⟩, ⟨0x7FC00000, [], [], []⟩, ⟨0, [], [], []⟩]⟩

example : (∃ t, TimeIn v1Times t ∧ number32 t ≠ .nan) ∧ number64 (getStart v1Times) = .fin (-1) ∧
    number64 (getEnd v1Times) = .fin 2 ∧ number64 (getDuration v1Times) = .fin 3 ∧ countEvents v1Times = 3 := by
  refine ⟨⟨0, .inl ⟨⟨0, [], [], []⟩, by simp [v1Times], rfl⟩, by decide +kernel⟩, ?_⟩
  decide +kernel

/-- Two events in order, for `C57_agrees` and `C57_duration`. -/
def v1Ordered : V1.Recording := ⟨[], [], [], [⟨0x3F800000, [], [], []⟩, ⟨0x40000000, [], [], []⟩]⟩

theorem timeIn_ordered {t : F32} (h : TimeIn v1Ordered t) : t = 0x3F800000 ∨ t = 0x40000000 := by
  rcases h with ⟨e, he, rfl⟩ | ⟨s, hs, -⟩
  · simp only [v1Ordered, List.mem_cons, List.not_mem_nil, or_false] at he
    rcases he with rfl | rfl <;> simp
  · simp [v1Ordered] at hs

example : Chronological (protobufToStd oneExt v1Ordered) ∧ (∀ t, TimeIn v1Ordered t → ∃ q, number32 t = .fin q) ∧
    (∃ t, TimeIn v1Ordered t) ∧ number64 (getDuration v1Ordered) = .fin 1 := by
  refine ⟨?_, ?_, ⟨0x3F800000, .inl ⟨⟨0x3F800000, [], [], []⟩, by simp [v1Ordered], rfl⟩⟩, by decide +kernel⟩
  · intro r c hw hm
    cases hw with
    | self =>
      simp only [protobufToStd, Rec.colls, List.mem_singleton, Option.some.injEq] at hm
      subst hm
      have h : (oldToNewEvents v1Ordered.events).times = [0x3FF0000000000000, 0x4000000000000000] := by decide +kernel
      rw [h, chronoTimes_cons]
      exact ⟨by rw [← F64.lt_number]; decide +kernel, by simp [ChronoTimes]⟩
    | child hm hw => simp [v1Ordered] at hm
  · intro t ht
    rcases timeIn_ordered ht with rfl | rfl
    · exact ⟨1, by decide +kernel⟩
    · exact ⟨2, by decide +kernel⟩

/-- C57: out of order the two disagree: the converted recording takes the first capture for the earliest. -/
theorem C57_out_of_order : ∃ v : V1.Recording, (∀ t, TimeIn v t → ∃ q, number32 t = .fin q) ∧
    ∀ X, recordingStart (protobufToStd X v) = .ok 0x4000000000000000 ∧ number64 (getStart v) = .fin 1 := by
  refine ⟨⟨[], [], [], [⟨0x40000000, [], [], []⟩, ⟨0x3F800000, [], [], []⟩]⟩, ?_, fun X => ⟨?_, by decide +kernel⟩⟩
  · rintro t (⟨e, he, rfl⟩ | ⟨s, hs, -⟩)
    · simp at he
      rcases he with rfl | rfl
      · exact ⟨2, by decide +kernel⟩
      · exact ⟨1, by decide +kernel⟩
    · simp at hs
  · have : widen 0x40000000 = 0x4000000000000000 := by decide +kernel
    simp only [protobufToStd, recordingStart, List.map_nil, startChildren, startColls, oldToNewEvents, Coll.times,
      List.map_cons, this]
    decide +kernel

end Rap
