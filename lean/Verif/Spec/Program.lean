import Verif.Spec.Default

/-!
# Specification: how far a recording saved by the program may differ

Written from what the commands upgrade and from-json choose: positions in 24 bits, rotations and times in 16 bits.
-/

namespace Rap

/-- Positions in 24 bits, 8 for each axis: as many as before, and if the differences of neighbours on an axis lie
between `lo` and `hi`, the i-th value is off by at most `i` times 1/512 of `hi - lo`, apart from rounding. -/
def CoarselyKept (vs vs' : List V3) : Prop :=
  vs'.length = vs.length ∧
    ∀ get ∈ [V3.x, V3.y, V3.z], ∀ qs, Numbers (vs.map get) qs → vs.length ≤ 2 ^ 40 →
      ∀ P lo hi D : ℚ, 0 ≤ P → P ≤ 2 ^ 126 → (∀ q ∈ qs, |q| ≤ P) → |lo| ≤ D → |hi| ≤ D → D ≤ 2 ^ 126 →
        qs.IsChain (fun a b => lo ≤ b - a ∧ b - a ≤ hi) →
        ∃ qs', Numbers (vs'.map get) qs' ∧ ∀ (i : Nat) (a b : ℚ), qs[i]? = some a → qs'[i]? = some b →
          |b - a| ≤ i * ((hi - lo) / 2 ^ 9 + D / 2 ^ 24 + (P + vs.length * D) / 2 ^ 45 + 1 / 2 ^ 149) +
            (P / 2 ^ 24 + 1 / 2 ^ 150)

/-- An angle in 16 bits: within half of 1/65536 of a turn, whole turns aside. -/
def AngleKept (a r : F64) : Prop :=
  ∀ A, number64 a = .fin A → |A| ≤ 2 ^ 30 →
    ∃ R, number64 r = .fin R ∧ -1 < R ∧ R < 361 ∧ ∃ k : Int, |R - (A - 360 * k)| ≤ 360 / 2 ^ 17 + 1 / 2 ^ 39

/-- The three angles of a rotation. -/
def TurnKept (v v' : V3) : Prop := AngleKept v.x v'.x ∧ AngleKept v.y v'.y ∧ AngleKept v.z v'.z

/-- What saving a collection with the program and loading it may change. Names, enum members and values, event names
and event metadata stay exactly as they are. -/
def ProgramSaves : Coll → Coll → Prop
  | .position n caps, .position n' caps' =>
    n' = n ∧ TimesKept (caps.map (·.1)) (caps'.map (·.1)) ∧ CoarselyKept (caps.map (·.2)) (caps'.map (·.2))
  | .euler n caps, .euler n' caps' =>
    n' = n ∧ TimesKept (caps.map (·.1)) (caps'.map (·.1)) ∧
      List.Forall₂ TurnKept (caps.map (·.2)) (caps'.map (·.2))
  | .event n caps, .event n' caps' =>
    n' = n ∧ TimesKept (caps.map (·.1)) (caps'.map (·.1)) ∧ caps'.map (·.2) = caps.map (·.2)
  | .enum n ms caps, .enum n' ms' caps' =>
    n' = n ∧ ms' = ms ∧ TimesKept (caps.map (·.1)) (caps'.map (·.1)) ∧ caps'.map (·.2) = caps.map (·.2)
  | _, _ => False

end Rap
