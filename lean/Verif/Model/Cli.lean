import Verif.Model.Writer
import Verif.Model.Reader

/-!
# format/io/load.go and the commands of cmd/rap-cli/main.go that convert files

Opening files and command-line flags are not modelled.
-/

namespace Rap

/-- `Load` (format/io/load.go:25-32). -/
def load {σ : Type} [Drain σ] (F : Flate) (X : Ext) (unmarshal : Bytes → Except Err V1.Recording) (s : σ) :
    Go ((Rec × Nat × Option Err) × σ) :=
  read F X unmarshal [eventEncoder, positionEncoder 2, eulerEncoder 1, enumEncoder] s

/-- The writer of the commands from-json and upgrade (cmd/rap-cli/main.go:169-176, 204-211). -/
def cliWriter : WriterCfg := ⟨[eventEncoder, positionEncoder 3, eulerEncoder 2, enumEncoder], 2, true⟩

/-- The writer of the command from-csv (cmd/rap-cli/main.go:239-243). -/
def csvWriter : WriterCfg := ⟨[positionEncoder 0], 0, true⟩

/-- The command upgrade (cmd/rap-cli/main.go:192-214): the error it returns and the output. `orders` is the order in
which the runtime iterates the maps of the recording. -/
def upgrade {σ τ : Type} [Drain σ] [Snk τ] (F : Flate) (X : Ext) (unmarshal : Bytes → Except Err V1.Recording)
    (orders : Rec → List (List Bytes)) (s : σ) (out : τ) : Go (Option Err × τ) := do
  let ((rec, _, err), _) ← load F X unmarshal s
  match err with
  | some e => .ok (some e, out)
  | none =>
    let (_, err, out) ← write F cliWriter (orders rec) rec out
    .ok (err, out)

end Rap
