import Verif.Props.Again
import Verif.Props.V1

/-!
# C60: the upgrade command on any input, continued
-/

namespace Rap

/-- C60: the command fails with the error of a file that cannot be read, and has written nothing. -/
theorem C60_upgrade_unreadable {σ τ : Type} [Drain σ] [Snk τ] (F : Flate) (X : Ext) (unmarshal : Bytes → Except Err V1.Recording)
    (orders : Rec → List (List Bytes)) (s s' : σ) (out : τ) (rec : Rec) (n : Nat) (e : Err)
    (h : load F X unmarshal s = .ok ((rec, n, some e), s')) :
    upgrade F X unmarshal orders s out = .ok (some e, out) := by
  rw [upgrade, h]; rfl

example : ∃ r n e s', load storeFlate noExt noProto (⟨[2, 1], .eof⟩ : Flat) = .ok ((r, n, some e), s') := ⟨_, _, _, _, rfl⟩

/-- C60: success means a complete file. Whatever the command was given, if it reports no error then its input could be read
and its output is a file that `Load` reads without error (or that is beyond the size this is proved for). -/
theorem C60_upgrade_success {σ : Type} [Drain σ] [Bounded σ] (F : Flate) (hF : F.Lawful) (X X' : Ext)
    (unmarshal unmarshal' : Bytes → Except Err V1.Recording) (orders : Rec → List (List Bytes)) (s : σ) (out : Buf)
    (hko : ∀ rec, KeyOrders rec (orders rec))
    (h : upgrade F X unmarshal orders s (⟨[]⟩ : Buf) = .ok (none, out)) :
    ∃ rec n s' m, load F X unmarshal s = .ok ((rec, n, none), s') ∧ Complete rec ∧
      write F cliWriter (orders rec) rec (⟨[]⟩ : Buf) = .ok (m, none, out) ∧
      (m ≤ sizeLimit → ∃ f t, load F X' unmarshal' (⟨out.bytes, .eof⟩ : Flat) = .ok ((rec.mapColls f, m, none), t) ∧
        ∀ c ∈ rec.flat, Kindred c (f c)) := by
  cases hl : load F X unmarshal s with
  | error p => rw [upgrade, hl] at h; cases h
  | ok r =>
    obtain ⟨⟨rec, n, err⟩, s'⟩ := r
    cases err with
    | some e => rw [C60_upgrade_unreadable F X unmarshal orders s s' _ rec n e hl] at h; cases h
    | none =>
      obtain ⟨g1, g2⟩ := C60_upgrade F hF X X' unmarshal unmarshal' orders s s' rec n hl (hko rec)
      by_cases hc : Complete rec
      · obtain ⟨m, out', h1, h2, h3⟩ := g1 hc
        rw [h1] at h
        simp only [Except.ok.injEq, Prod.mk.injEq, true_and] at h
        subst h
        exact ⟨rec, n, s', m, rfl, hc, h2, h3⟩
      · obtain ⟨e, he⟩ := g2 hc
        rw [he] at h; cases h

example : storeFlate.Lawful ∧ (∀ rec, KeyOrders rec ((visitedBlocks rec).map fun b => b.map (·.1))) ∧
    (upgrade storeFlate noExt noProto (fun r => (visitedBlocks r).map fun b => b.map (·.1))
      (⟨[againFile.take 9, againFile.drop 9], .eof⟩ : Chunked) (⟨[]⟩ : Buf)).map
        (fun r => (r.1, decide (50 < r.2.bytes.length))) = .ok (none, true) := by
  refine ⟨storeFlate_lawful, fun rec => ?_, by decide +kernel⟩
  rw [KeyOrders, List.forall₂_map_left_iff, List.forall₂_same]
  exact fun b _ => List.Perm.refl _

/-- The bytes a successful write left, and the position captures of the only collection of a recording. -/
def leftBytes : Go (Option Err × Buf) → Bytes
  | .ok (none, out) => out.bytes
  | _ => []

def onlyPositions {σ : Type} : Go ((Rec × Nat × Option Err) × σ) → List (F64 × V3)
  | .ok ((.mk _ _ [some (.position _ caps)] _ _ _ _, _, none), _) => caps
  | _ => []

/-- C60: a file that is already of version 2 is not left alone: its positions and times are stored anew. Here a recording
saved exactly, and read exactly, has other times and positions after the upgrade. -/
theorem C60_upgrade_changes :
    let caps : List (F64 × V3) := [(0, ⟨0, 0, 0⟩), (0x3FF0000000000000, ⟨0x3FF0000000000000, 0, 0⟩),
      (0x4000000000000000, ⟨0, 0x3FF0000000000000, 0⟩)]
    let r : Rec := .mk [] [] [some (.position [] caps)] [] [] [] []
    let file := leftBytes ((write storeFlate ⟨[positionEncoder 0], 0, false⟩ [[]] r (⟨[]⟩ : Buf)).map (·.2))
    let upgraded := leftBytes (upgrade storeFlate noExt noProto (fun _ => [[]]) (⟨file, .eof⟩ : Flat) (⟨[]⟩ : Buf))
    onlyPositions (load storeFlate noExt noProto (⟨file, .eof⟩ : Flat)) = caps ∧
      (onlyPositions (load storeFlate noExt noProto (⟨upgraded, .eof⟩ : Flat))).map
          (fun c => (number64 c.1, number64 c.2.x, number64 c.2.y)) =
        [(.fin 0, .fin 0, .fin 0), (.fin (1 - 1 / 2 ^ 17), .fin (1 - 1 / 2 ^ 8), .fin (1 / 2 ^ 9)),
          (.fin (2 - 1 / 2 ^ 16), .fin 0, .fin 1)] := by
  decide +kernel

end Rap
