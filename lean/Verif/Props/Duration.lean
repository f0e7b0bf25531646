import Verif.Props.Query
import Verif.Proof.Round

/-!
# C34: the duration of a recording
-/

namespace Rap

/-- C34: if all times are finite, the duration is the double nearest to the difference between the latest and the earliest
capture time of the whole tree. -/
theorem C34_duration (rec : Rec) (h : Complete rec) (hc : Chronological rec)
    (hf : ∀ t, TimeOf rec t → ∃ q, number64 t = .fin q) (hne : ∃ t, TimeOf rec t) :
    ∃ d s e qs qe, recordingDuration rec = .ok d ∧ TimeOf rec s ∧ number64 s = .fin qs ∧ TimeOf rec e ∧
      number64 e = .fin qe ∧ (∀ t q, TimeOf rec t → number64 t = .fin q → qs ≤ q ∧ q ≤ qe) ∧ Nearest64 (qe - qs) d := by
  obtain ⟨s, e, h1, h2, h3, h4, h5⟩ := C34_start_and_end rec h hc
    (fun t ht => by obtain ⟨q, hq⟩ := hf t ht; rw [hq]; simp) hne
  obtain ⟨qs, hs⟩ := hf s h3
  obtain ⟨qe, he⟩ := hf e h4
  refine ⟨e.sub s, s, e, qs, qe, ?_, h3, hs, h4, he, ?_, ?_⟩
  · rw [recordingDuration, h1, h2]; rfl
  · intro t q ht hq
    have h6 := h5 t ht
    rw [hs, he, hq] at h6
    constructor
    · rcases h6.1 with h | ⟨h, -⟩
      · exact le_of_lt h
      · injection h with h; exact le_of_eq h
    · rcases h6.2 with h | ⟨h, -⟩
      · exact le_of_lt h
      · injection h with h; exact le_of_eq h
  · have f1 := (F64.finite_number s).2 ⟨_, hs⟩
    have f2 := (F64.finite_number e).2 ⟨_, he⟩
    rw [F64.number_fin f1] at hs
    rw [F64.number_fin f2] at he
    injection hs with hs
    injection he with he
    rw [← hs, ← he]
    exact nearest_sub f2 f1

/-- C34: without captures the duration is -Inf. -/
theorem C34_duration_empty (rec : Rec) (h : Complete rec) (hne : ∀ t, ¬ TimeOf rec t) :
    ∃ d, recordingDuration rec = .ok d ∧ number64 d = .ninf := by
  have ht : Timely rec := by
    refine ⟨h, ?_, fun t ht => absurd ht (hne t)⟩
    intro r c hw hm i a b ha
    exact absurd ⟨r, c, hw, hm, List.mem_of_getElem? ha⟩ (hne a)
  obtain ⟨s, h1, -, -, h4⟩ := start_low rec ht
  obtain ⟨e, h5, -, -, h8⟩ := end_high rec ht
  rcases h4 with h4 | rfl
  · exact absurd h4 (hne s)
  rcases h8 with h8 | rfl
  · exact absurd h8 (hne e)
  exact ⟨F64.ninf.sub F64.inf, by rw [recordingDuration, h1, h5]; rfl, by decide +kernel⟩

/-- Captures at 1.5, 4 and (in a child) 0.25 give 3.75. -/
example : recordingDuration (.mk [] [] [some (.float [] [(0x3FF8000000000000, 0), (0x4010000000000000, 0)])]
    [.mk [1] [] [some (.float [] [(0x3FD0000000000000, 0)])] [] [] [] []] [] [] []) = .ok 0x400E000000000000 ∧
    number64 0x400E000000000000 = .fin (15 / 4) := by decide +kernel

end Rap
