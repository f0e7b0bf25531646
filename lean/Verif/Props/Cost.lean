import Verif.Proof.Cost
import Verif.Props.Success

/-!
# C68: how many bytes each storage technique takes

The encoders for positions, rotations and floats, and the writer's storage of times, offer techniques of different sizes. The
theorems give the exact number of bytes of every technique for any number of captures, and from that the exact difference
between the sizes of two files of the same recording. Nothing else in a file depends on the choice of technique.
-/

namespace Rap

/-- C68: the encoders that have techniques put nothing into the header, and the size of a block depends only on the technique
and the number of captures. -/
theorem C68_blocks (b : Builtin) (cs : List Coll) (header : Bytes) (blocks : List Bytes)
    (h : b.encoder.encode cs = .ok (.ok (header, blocks))) (hb : b ≠ .event) (hb' : b ≠ .enum) :
    header = [] ∧ blocks.length = cs.length ∧ ∀ (j : Nat) (c : Coll) (x : Bytes), cs[j]? = some c → blocks[j]? = some x →
      blockSize b c.times.length = some x.length := by
  have hk : ∃ k : Nat → Nat, ∀ n, blockSize b n = some (k n) := by
    cases b with
    | event => exact absurd rfl hb
    | enum => exact absurd rfl hb'
    | position t => exact ⟨_, fun _ => rfl⟩
    | euler t => exact ⟨_, fun _ => rfl⟩
    | float t => exact ⟨_, fun _ => rfl⟩
  obtain ⟨k, hk⟩ := hk
  obtain ⟨h1, h2, h3⟩ := encode_size b cs header blocks h k hk
  exact ⟨h1, h2, fun j c x hc hx => by rw [hk, h3 j c x hc hx]⟩

/-- C68: the bytes of the times of a collection. -/
theorem C68_times (tech : Nat) (ht : tech ≤ 2) (ts : List F64) (hl : ts.length < 2 ^ 64) :
    (encTime tech ts).length = timesSize tech ts.length := encTime_size tech ht ts hl

/-- C68: two files of the same recording differ in size by exactly what the techniques contribute, collection by collection,
whatever else the recording holds, and compressed or not (the number of bytes that `Write` reports is that before
compression). -/
theorem C68_files (F F' : Flate) (ws ws' : List Builtin) (hk : SameKinds ws ws') (tech tech' : Nat) (ht : tech ≤ 2)
    (ht' : tech' ≤ 2) (compress compress' : Bool) (orders : List (List Bytes)) (rec : Rec) (hg : GoodRec rec)
    (hl : ∀ c ∈ rec.flat, c.times.length ≤ maxAlloc) (out out' res res' : Buf) (n n' : Nat)
    (h : write F ⟨ws.map Builtin.encoder, tech, compress⟩ orders rec out = .ok (n, none, res))
    (h' : write F' ⟨ws'.map Builtin.encoder, tech', compress'⟩ orders rec out' = .ok (n', none, res')) :
    n + (rec.flat.map (techniqueCost ws' tech')).sum = n' + (rec.flat.map (techniqueCost ws tech)).sum :=
  write_cost F F' ws ws' hk tech tech' ht ht' compress compress' orders rec hg hl out out' res res' n n' h h'

/-- C68: where no collection gets more expensive, the file gets no larger. -/
theorem C68_no_larger (F F' : Flate) (ws ws' : List Builtin) (hk : SameKinds ws ws') (tech tech' : Nat) (ht : tech ≤ 2)
    (ht' : tech' ≤ 2) (compress compress' : Bool) (orders : List (List Bytes)) (rec : Rec) (hg : GoodRec rec)
    (hl : ∀ c ∈ rec.flat, c.times.length ≤ maxAlloc) (hc : ∀ c ∈ rec.flat, techniqueCost ws' tech' c ≤ techniqueCost ws tech c)
    (out out' res res' : Buf) (n n' : Nat)
    (h : write F ⟨ws.map Builtin.encoder, tech, compress⟩ orders rec out = .ok (n, none, res))
    (h' : write F' ⟨ws'.map Builtin.encoder, tech', compress'⟩ orders rec out' = .ok (n', none, res')) : n' ≤ n := by
  have := write_cost F F' ws ws' hk tech tech' ht ht' compress compress' orders rec hg hl out out' res res' n n' h h'
  have hs : (rec.flat.map (techniqueCost ws' tech')).sum ≤ (rec.flat.map (techniqueCost ws tech)).sum := by
    generalize rec.flat = cs at hc
    clear hg hl h h' this
    induction cs with
    | nil => exact Nat.le_refl _
    | cons c cs ih =>
      have h1 := hc c (by simp)
      have h2 := ih (fun c hc' => hc c (by simp [hc']))
      simp only [List.map_cons, List.sum_cons]
      omega
  omega

/-- C68: for how many captures the smaller technique takes fewer bytes. The octree techniques store the corners of a cell (and
the first position) in front, so that they pay only from six positions (Oct48) or four (Oct24) on; BST16 pays from five floats
on, and for times from four on. -/
theorem C68_worth_it (n : Nat) :
    (positionsSize 2 n < positionsSize 1 n ↔ 6 ≤ n) ∧ (positionsSize 3 n < positionsSize 1 n ↔ 4 ≤ n) ∧
    (floatsSize 2 n < floatsSize 1 n ↔ 5 ≤ n) ∧ (rotationsSize 2 n < rotationsSize 1 n ↔ 2 ≤ n) ∧
    (timesSize 2 n < timesSize 1 n ↔ 4 ≤ n) := by
  refine ⟨?_, ?_, ?_, ?_, ?_⟩
  · simp only [positionsSize]
    rcases n with _ | _ | n <;> simp
    omega
  · simp only [positionsSize]
    rcases n with _ | _ | n <;> simp
    omega
  · show 9 + 2 * n < 1 + 4 * n ↔ _
    omega
  · rcases n with _ | _ | n
    · decide
    · decide
    · show 1 + 6 * (n + 2) < 1 + 12 * (n + 2) ↔ _
      omega
  · rcases n with _ | _ | n
    · simp [timesSize]
    · simp [timesSize]
    · show 1 + varintSize (n + 2) + 8 + 2 * (n + 2 - 1) < 1 + varintSize (n + 2) + 4 * (n + 2) ↔ _
      omega

/-- Other techniques for the collections of `sample`. -/
def smallEncoders : List Builtin := [.event, .position 3, .euler 2, .enum, .float 2]

-- the sample is written with both lists of encoders
example : SameKinds losslessEncoders smallEncoders ∧ GoodRec sample ∧ (∀ c ∈ sample.flat, c.times.length ≤ maxAlloc) := by
  refine ⟨?_, sample_good, ?_⟩
  · exact .cons .event (.cons (.position ..) (.cons (.euler ..) (.cons .enum (.cons (.float ..) .nil))))
  · simp [sample, sampleChild, Rec.flat, Rec.flatList, Coll.times, maxAlloc]

/-- The bytes reported by a successful `Write`. -/
def written (ws : List Builtin) (tech : Nat) : Option Nat :=
  match write storeFlate ⟨ws.map Builtin.encoder, tech, false⟩ sampleOrders sample (⟨[]⟩ : Buf) with
  | .ok (n, none, _) => some n
  | _ => none

-- 289 bytes and 262: the difference is that of the costs
example : written losslessEncoders 0 = some 289 ∧ written smallEncoders 2 = some 262 ∧
    (sample.flat.map (techniqueCost losslessEncoders 0)).sum = 116 ∧
    (sample.flat.map (techniqueCost smallEncoders 2)).sum = 89 := by decide +kernel

-- two positions with Oct48 take more than with 32 bits, six take less
example : positionsSize 1 2 = 25 ∧ positionsSize 2 2 = 43 ∧ positionsSize 1 6 = 73 ∧ positionsSize 2 6 = 67 := by decide

-- a number of captures that needs a count of two bytes
example : timesSize 0 200 = 1603 ∧ timesSize 1 200 = 803 ∧ timesSize 2 200 = 409 := by
  simp [timesSize, varintSize]

end Rap
