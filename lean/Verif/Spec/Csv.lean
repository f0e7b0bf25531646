import Verif.Model.Csv

/-!
# What a CSV table means
-/

namespace Rap

/-- Map iteration visits every entry once. -/
def CsvExt.Lawful (T : CsvExt) : Prop := ∀ (β : Type) (m : List (Bytes × β)), (T.order m).Perm m

/-- The last column of the header with the name, ignoring surrounding white space. -/
def IsColumn (T : CsvExt) (header : List Bytes) (name : Bytes) (i : Nat) : Prop :=
  (∃ h, header[i]? = some h ∧ T.trim h = name) ∧ ∀ j h, i < j → header[j]? = some h → T.trim h ≠ name

/-- One data row. -/
structure CsvRow where
  id : Bytes
  name : Bytes
  time : F64
  pos : V3
  deriving DecidableEq

/-- The cell of the row in the named column. -/
def HasCell (T : CsvExt) (header row : List Bytes) (name s : Bytes) : Prop :=
  ∃ i, IsColumn T header name i ∧ row[i]? = some s

/-- The cell of the row in the named column is a number. -/
def HasNumber (T : CsvExt) (header row : List Bytes) (name : Bytes) (x : F64) : Prop :=
  ∃ s, HasCell T header row name s ∧ T.parseFloat (T.trim s) = some x

/-- The data of a row. -/
def RowIs (T : CsvExt) (header row : List Bytes) (r : CsvRow) : Prop :=
  HasCell T header row b!"id" r.id ∧ HasCell T header row b!"name" r.name ∧ HasNumber T header row b!"time" r.time ∧
    HasNumber T header row b!"x" r.pos.x ∧ HasNumber T header row b!"y" r.pos.y ∧ HasNumber T header row b!"z" r.pos.z

/-- The recording of a group: one collection with the captures of its rows, in the order of the rows. -/
def groupRecording (rows : List CsvRow) (id name : Bytes) : Rec :=
  .mk id name [some (.position b!"Position" ((rows.filter fun r => r.id = id ∧ r.name = name).map fun r => (r.time, r.pos)))]
    [] [] [] []

/-- One recording for each pair of id and name that occurs, in any order. -/
def Grouped (rows : List CsvRow) (recs : List Rec) : Prop :=
  ∃ groups : List (Bytes × Bytes), groups.Nodup ∧ (∀ id name, (id, name) ∈ groups ↔ ∃ r ∈ rows, r.id = id ∧ r.name = name) ∧
    recs = groups.map fun g => groupRecording rows g.1 g.2

end Rap
