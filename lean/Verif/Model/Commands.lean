import Verif.Model.Cli
import Verif.Model.Csv

/-!
# The commands from-csv and from-json of cmd/rap-cli/main.go

Opening files and command-line flags are not modelled.
-/

namespace Rap

/-- The command from-csv (cmd/rap-cli/main.go:234-245): the error it returns and the output. `orders` is the order in
which the runtime iterates the maps of the recording. -/
def fromCsv {τ : Type} [Snk τ] (T : CsvExt) (F : Flate) (orders : Rec → List (List Bytes)) (input : CsvInput) (out : τ) :
    Go (Option Err × τ) := do
  match ← (recordingFromCSV T input).run with
  | .error e => .ok (some e, out)
  | .ok rec =>
    let (_, err, out) ← write F csvWriter (orders rec) rec out
    .ok (err, out)

/-- The command from-json (cmd/rap-cli/main.go:145-178); `doc` is what encoding/json makes of the input. -/
def fromJson {τ : Type} [Snk τ] (X : JsonExt) (F : Flate) (orders : Rec → List (List Bytes)) (doc : Except Err JVal)
    (out : τ) : Go (Option Err × τ) := do
  match ← (fromJSON X doc).run with
  | .error e => .ok (some e, out)
  | .ok rec =>
    let (_, err, out) ← write F cliWriter (orders rec) rec out
    .ok (err, out)

end Rap
