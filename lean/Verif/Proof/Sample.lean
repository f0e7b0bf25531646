import Verif.Proof.WriteOk

/-! # A recording used in examples -/

namespace Rap

/-- A child with an enum and a float collection. -/
def sampleChild : Rec :=
  .mk [99] [107, 105, 100] [some (.enum [101] [[97], [98]] [(0, 1), (0x3FF0000000000000, 0)]), some (.float [102] [(0, 0x8000000000000000)])]
    [] [([107], .newInt (-3))] [] []

/-- A recording with all kinds of parts. -/
def sample : Rec :=
  .mk [105] [110]
    [some (.position [112] [(0, ⟨1, 2, 3⟩), (0x3FF0000000000000, ⟨0x7FF8000000000001, 0, 0x8000000000000000⟩)]),
     some (.event [118] [(0, [104, 105], [([107], .block [([109], .bool true)])])])]
    [sampleChild] [([107], .str [1]), ([108], .newBoolArray [true, false])]
    [some ⟨[98], [9, 8, 7], 3, [([109], .nil), ([122], .f32 0)].tail⟩] [some ⟨[114], [117], 5, []⟩]

/-- Lossless techniques. -/
def losslessEncoders : List Builtin := [.event, .position 0, .euler 0, .enum, .float 0]

/-- A writer without compression. -/
def sampleCfg : WriterCfg := ⟨losslessEncoders.map Builtin.encoder, 0, false⟩

theorem sampleChild_good : GoodRec sampleChild := by
  refine GoodRec.mk [99] [107, 105, 100] [.enum [101] [[97], [98]] [(0, 1), (0x3FF0000000000000, 0)], .float [102] [(0, 0x8000000000000000)]] [] _ []
    [] ?_ ?_ ?_ ?_ ?_
  · intro c hc; simp only [List.mem_cons, List.not_mem_nil, or_false] at hc; rcases hc with rfl | rfl <;> trivial
  · simp
  · exact ⟨by decide, by simpa using Constructible.int (-3)⟩
  · simp
  · simp

theorem sample_good : GoodRec sample := by
  refine GoodRec.mk [105] [110] [.position [112] _, .event [118] [(0, [104, 105], [([107], .block [([109], .bool true)])])]]
    [sampleChild] _ [⟨[98], [9, 8, 7], 3, _⟩] [⟨[114], [117], 5, []⟩] ?_ ?_ ?_ ?_ ?_
  · intro c hc
    simp only [List.mem_cons, List.not_mem_nil, or_false] at hc
    rcases hc with rfl | rfl
    · trivial
    · intro cap hcap
      simp only [List.mem_cons, List.not_mem_nil, or_false] at hcap
      subst hcap
      refine ⟨by simp, ?_⟩
      simp only [List.mem_cons, List.not_mem_nil, or_false, forall_eq]
      exact .block _ (by simp) (by simpa using .bool true)
  · simpa using sampleChild_good
  · refine ⟨by simp, ?_⟩
    intro kv hkv
    simp only [List.mem_cons, List.not_mem_nil, or_false] at hkv
    rcases hkv with rfl | rfl
    · exact .str _
    · exact .boolArray _
  · simp only [List.mem_cons, List.not_mem_nil, or_false, forall_eq]
    exact ⟨⟨by simp, by simpa using .f32 0⟩, rfl⟩
  · simp only [List.mem_cons, List.not_mem_nil, or_false, forall_eq]
    exact ⟨⟨by simp, by simp⟩, by decide⟩

/-- See `storeFlate`. -/
def unstore (fin : Err) : Bytes → Bytes × Err
  | 1 :: x :: rest => (x :: (unstore fin rest).1, (unstore fin rest).2)
  | 0 :: _ => ([], .eof)
  | _ => ([], fin)

/-- A compressor that stores its input: every piece as one byte 1 and the piece's bytes each marked with 1, then 0. -/
def storeFlate : Flate where
  S := Unit
  init := ()
  step := fun _ b => (b.map fun x => [1, x], ())
  close := fun _ => [[0]]
  inflate := fun d fin => unstore fin d

theorem storeFlate_lawful : storeFlate.Lawful := by
  intro ws rest fin
  show unstore fin _ = _
  induction ws with
  | nil => simp [Flate.output, storeFlate, unstore]
  | cons w ws ih =>
    rw [show storeFlate.output storeFlate.init (w :: ws) = ((w.map fun x => ([1, x] : Bytes)).flatten) ++
      storeFlate.output storeFlate.init ws from rfl]
    induction w with
    | nil => simpa using ih
    | cons x w ihw =>
      simp only [List.map_cons, List.flatten_cons, List.cons_append, List.nil_append, unstore]
      rw [ihw]; rfl

/-- Iteration orders of the maps of `sample`. -/
def sampleOrders : List (List Bytes) := [[[108], [107]], [], [[122]], [[107]]]

theorem sample_orders : KeyOrders sample sampleOrders := by
  refine .cons ?_ (.cons ?_ (.cons ?_ (.cons ?_ .nil)))
  · exact List.Perm.swap _ _ _
  · exact List.Perm.refl _
  · exact List.Perm.refl _
  · exact List.Perm.refl _

/-- The count when a write succeeded. -/
def writeCount {σ : Type} : Go (Nat × Option Err × σ) → Option Nat
  | .ok (n, none, _) => some n
  | _ => none

/-- Writing the sample gives a file of 289 bytes. -/
theorem sample_count : writeCount (write storeFlate sampleCfg sampleOrders sample (⟨[]⟩ : Buf)) = some 289 := by
  decide +kernel

theorem sample_write : ∃ out, write storeFlate sampleCfg sampleOrders sample (⟨[]⟩ : Buf) = .ok (289, none, out) := by
  have := sample_count
  revert this
  generalize write storeFlate sampleCfg sampleOrders sample (⟨[]⟩ : Buf) = r
  intro h
  match r, h with
  | .ok (n, none, out), h => simp only [writeCount, Option.some.injEq] at h; subst h; exact ⟨out, rfl⟩

end Rap
