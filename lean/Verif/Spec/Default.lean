import Verif.Props.Times
import Verif.Props.Single

/-!
# Specification: how far a recording loaded may differ from the recording saved

Written from the documentation of the default writer: positions in 48 bits, rotations in 32-bit floats, times in 16 bits.
-/

namespace Rap

/-- Times in 16 bits: as many as before, and if they were in chronological order they still are, the i-th one being off
by at most `i` times 1/131072 of the largest gap `G`, apart from rounding. -/
def TimesKept (ts ts' : List F64) : Prop :=
  ts'.length = ts.length ∧
    ∀ qs, Numbers ts qs → ts.length ≤ 2 ^ 40 → qs.IsChain (· ≤ ·) →
      ∀ T G : ℚ, 0 ≤ T → T ≤ 2 ^ 126 → (∀ q ∈ qs, |q| ≤ T) → G ≤ 2 ^ 127 → (qs.IsChain fun a b => b - a ≤ G) →
        ∃ qs', Numbers ts' qs' ∧ qs'.IsChain (· ≤ ·) ∧ ∀ (i : Nat) (a b : ℚ), qs[i]? = some a → qs'[i]? = some b →
          |b - a| ≤ i * (G / 2 ^ 17 + G / 2 ^ 23 + (T + qs.length * G) / 2 ^ 48 + 1 / 2 ^ 149) +
            (T / 2 ^ 24 + 1 / 2 ^ 150)

/-- Positions in 48 bits, 16 for each axis: as many as before, and if the differences of neighbours on an axis lie
between `lo` and `hi`, the i-th value is off by at most `i` times 1/131072 of `hi - lo`, apart from rounding. -/
def PositionsKept (vs vs' : List V3) : Prop :=
  vs'.length = vs.length ∧
    ∀ get ∈ [V3.x, V3.y, V3.z], ∀ qs, Numbers (vs.map get) qs → vs.length ≤ 2 ^ 40 →
      ∀ P lo hi D : ℚ, 0 ≤ P → P ≤ 2 ^ 126 → (∀ q ∈ qs, |q| ≤ P) → |lo| ≤ D → |hi| ≤ D → D ≤ 2 ^ 126 →
        qs.IsChain (fun a b => lo ≤ b - a ∧ b - a ≤ hi) →
        ∃ qs', Numbers (vs'.map get) qs' ∧ ∀ (i : Nat) (a b : ℚ), qs[i]? = some a → qs'[i]? = some b →
          |b - a| ≤ i * ((hi - lo) / 2 ^ 17 + D / 2 ^ 24 + (P + vs.length * D) / 2 ^ 45 + 1 / 2 ^ 149) +
            (P / 2 ^ 24 + 1 / 2 ^ 150)

/-- A rotation in 32-bit floats: each angle is the nearest one. -/
def RotationKept (v v' : V3) : Prop := Single v.x v'.x ∧ Single v.y v'.y ∧ Single v.z v'.z

/-- What loading a saved collection may change. Names, enum members and values, event names and event metadata stay
exactly as they are. -/
def SavedAs : Coll → Coll → Prop
  | .position n caps, .position n' caps' =>
    n' = n ∧ TimesKept (caps.map (·.1)) (caps'.map (·.1)) ∧ PositionsKept (caps.map (·.2)) (caps'.map (·.2))
  | .euler n caps, .euler n' caps' =>
    n' = n ∧ TimesKept (caps.map (·.1)) (caps'.map (·.1)) ∧
      List.Forall₂ RotationKept (caps.map (·.2)) (caps'.map (·.2))
  | .event n caps, .event n' caps' =>
    n' = n ∧ TimesKept (caps.map (·.1)) (caps'.map (·.1)) ∧ caps'.map (·.2) = caps.map (·.2)
  | .enum n ms caps, .enum n' ms' caps' =>
    n' = n ∧ ms' = ms ∧ TimesKept (caps.map (·.1)) (caps'.map (·.1)) ∧ caps'.map (·.2) = caps.map (·.2)
  | _, _ => False

/-- The kinds of collections the default writer is for. -/
def Savable : Coll → Prop
  | .position .. => True
  | .euler .. => True
  | .event .. => True
  | .enum .. => True
  | _ => False

/-- The same recording but for its collections, which are related one by one. -/
inductive SameBut (R : Coll → Coll → Prop) : Rec → Rec → Prop where
  | mk (id name : Bytes) {colls colls' : List Coll} {recs recs' : List Rec} (md : Block) (bins : List (Option Bin))
      (refs : List (Option BinRef)) : List.Forall₂ R colls colls' → List.Forall₂ (SameBut R) recs recs' →
      SameBut R (.mk id name (colls.map some) recs md bins refs) (.mk id name (colls'.map some) recs' md bins refs)

end Rap
