import Verif.Model.Json

/-!
# Recordings from CSV: cmd/rap-cli/csv.go

encoding/csv is outside the module; the model starts from the records it delivers.
-/

namespace Rap

/-- Standard library calls. -/
structure CsvExt where
  /-- `strings.TrimSpace` -/
  trim : Bytes → Bytes
  /-- `strconv.ParseFloat(s, 64)`; `none` is an error -/
  parseFloat : Bytes → Option F64
  /-- The order in which the runtime iterates a map. -/
  order : {β : Type} → List (Bytes × β) → List (Bytes × β)

/-- What successive calls of `csvReader.Read()` return: the first record or an error, further records, and the error
that ends them (`none` for `io.EOF`). -/
structure CsvInput where
  header : Except Err (List Bytes)
  rows : List (List Bytes)
  stop : Option Err

/-- The indices of csv.go:18-24; `none` is -1. -/
structure CsvColumns where
  name : Option Nat
  id : Option Nat
  time : Option Nat
  x : Option Nat
  y : Option Nat
  z : Option Nat

/-- The body of the loop over the header (csv.go:32-56). -/
def setColumn (T : CsvExt) (c : CsvColumns) (i : Nat) (column : Bytes) : CsvColumns :=
  let s := T.trim column
  if s = b!"time" then { c with time := some i }
  else if s = b!"id" then { c with id := some i }
  else if s = b!"name" then { c with name := some i }
  else if s = b!"x" then { c with x := some i }
  else if s = b!"y" then { c with y := some i }
  else if s = b!"z" then { c with z := some i }
  else c

/-- The loop over the header (csv.go:31-57). -/
def columnsFrom (T : CsvExt) (c : CsvColumns) (i : Nat) : List Bytes → CsvColumns
  | [] => c
  | column :: rest => columnsFrom T (setColumn T c i column) (i + 1) rest

/-- `row[index]` -/
def cell (row : List Bytes) (index : Option Nat) : GoE Bytes :=
  match index with
  | none => GoE.panic .indexOutOfRange
  | some i =>
    match row[i]? with
    | none => GoE.panic .indexOutOfRange
    | some s => pure s

/-- The cells of a row (csv.go:70-92): id, name, time and position. -/
def parseRow (T : CsvExt) (c : CsvColumns) (row : List Bytes) : GoE (Bytes × Bytes × F64 × V3) := do
  let timeDirty ← cell row c.time
  let time ← GoE.get 1 (T.parseFloat (T.trim timeDirty))
  let name ← cell row c.name
  let id ← cell row c.id
  let xCell ← cell row c.x
  let x ← GoE.get 2 (T.parseFloat (T.trim xCell))
  let yCell ← cell row c.y
  let y ← GoE.get 3 (T.parseFloat (T.trim yCell))
  let zCell ← cell row c.z
  let z ← GoE.get 4 (T.parseFloat (T.trim zCell))
  pure (id, name, time, ⟨x, y, z⟩)

/-- `workingData` (csv.go:59). -/
abbrev CsvGroups := List (Bytes × List (Bytes × List (F64 × V3)))

/-- Adding a capture to its group (csv.go:94-98). -/
def addCapture (w : CsvGroups) (id name : Bytes) (cap : F64 × V3) : CsvGroups :=
  let mappings := (mapGet w id).getD []
  mapSet w id (mapSet mappings name ((mapGet mappings name).getD [] ++ [cap]))

/-- The loop over the rows (csv.go:61-99). -/
def csvRows (T : CsvExt) (c : CsvColumns) (stop : Option Err) (w : CsvGroups) : List (List Bytes) → GoE CsvGroups
  | [] =>
    match stop with
    | none => pure w
    | some e => ExceptT.mk (.ok (.error e))
  | row :: rest => do
    let (id, name, cap) ← parseRow T c row
    csvRows T c stop (addCapture w id name cap) rest

/-- The recordings made of the groups (csv.go:101-119). -/
def csvRecordings (T : CsvExt) (w : CsvGroups) : List Rec :=
  (T.order w).flatMap fun (id, mappings) => (T.order mappings).map fun (name, captures) =>
    .mk id name [some (.position b!"Position" captures)] [] [] [] []

/-- `RecordingFromCSV` (csv.go:15-122). -/
def recordingFromCSV (T : CsvExt) (input : CsvInput) : GoE Rec :=
  match input.header with
  | .error e => ExceptT.mk (.ok (.error e))
  | .ok header => do
    let w ← csvRows T (columnsFrom T ⟨none, none, none, none, none, none⟩ 0 header) input.stop [] input.rows
    pure (.mk [] [] [] (csvRecordings T w) [] [] [])

end Rap
