import Verif.Spec.JsonText
import Verif.Spec.Query

/-!
# The JSON document that shows a recording
-/

namespace Rap

/-- The texts of a collection need no escaping, its captures can be counted, the metadata of its events satisfy `B` and
their times `T`. -/
def ShowableColl (B : Block → Prop) (T : F64 → Prop) (c : Coll) : Prop :=
  PlainText c.name ∧ PlainText c.sig ∧ c.captures.length ≤ 2 ^ 53 ∧
  ∀ name caps, c = .event name caps → ∀ e ∈ caps, T e.1 ∧ PlainText e.2.1 ∧ B e.2.2

/-- The texts of a recording need no escaping, no collection is nil, its metadata and that of its events satisfy `B`, the
times of its events `T`, and so for its child recordings. -/
inductive Showable (B : Block → Prop) (T : F64 → Prop) : Rec → Prop
  | mk {id name : Bytes} {colls : List (Option Coll)} {recs : List Rec} {md : Block} {bins : List (Option Bin)}
      {refs : List (Option BinRef)} : PlainText id → PlainText name → B md →
      (∀ c ∈ colls, ∃ c', c = some c' ∧ ShowableColl B T c') → (∀ r ∈ recs, r ≠ .nil → Showable B T r) →
      Showable B T (.mk id name colls recs md bins refs)

/-- An event: `R` relates metadata and their value, `Q` times and the numbers given for them. -/
def ShowsEvent (R : Block → JVal → Prop) (Q : F64 → F64 → Prop) (e : F64 × Bytes × Block) (j : JVal) : Prop :=
  ∃ d m, j = .obj [(b!"time", .num d), (b!"name", .str e.2.1), (b!"data", m)] ∧ Q e.1 d ∧ R e.2.2 m

/-- A collection: its captures if it holds events, else their number only. -/
def ShowsColl (R : Block → JVal → Prop) (Q : F64 → F64 → Prop) (c : Coll) (j : JVal) : Prop :=
  ∃ n more, j = .obj ([(b!"name", .str c.name), (b!"signature", .str c.sig), (b!"count", .num n)] ++ more) ∧
    number64 n = .fin c.captures.length ∧
    match c with
    | .event _ caps => ∃ items, more = [(b!"captures", .arr items)] ∧ List.Forall₂ (ShowsEvent R Q) caps items
    | .other s _ _ => more = if s = b!"recolude.event" then [(b!"captures", .arr [])] else []
    | _ => more = []

/-- A recording. Binaries and references are left out. -/
inductive Shows (R : Block → JVal → Prop) (Q : F64 → F64 → Prop) : Rec → JVal → Prop
  | nil : Shows R Q .nil .null
  | mk {id name : Bytes} {colls : List (Option Coll)} {recs : List Rec} {md : Block} {bins : List (Option Bin)}
      {refs : List (Option BinRef)} {m : JVal} {cs rs : List JVal} : R md m →
      List.Forall₂ (fun c j => ∃ c', c = some c' ∧ ShowsColl R Q c' j) colls cs → List.Forall₂ (Shows R Q) recs rs →
      Shows R Q (.mk id name colls recs md bins refs)
        (.obj [(b!"id", .str id), (b!"name", .str name), (b!"metadata", m), (b!"collections", .arr cs),
          (b!"recordings", .arr rs)])

/-- The time given is the time to within a millionth. -/
def Rounded (x d : F64) : Prop :=
  ∃ q r, number64 x = .fin q ∧ number64 d = .fin r ∧ |r - q| ≤ 1 / 1000000

end Rap
