import Verif.Model.Cli
import Verif.Model.Summary

/-!
# cmd/rap-benchmark/main.go

The command-line library and opening the file are not modelled. The text of the elapsed time is a parameter. Writing to
standard output is taken to succeed. `panic(err)` is the outcome `.error e`, with whatever was printed before it
dropped; a runtime panic is the outcome of `Go`.
-/

namespace Rap

/-- `kb` (cmd/rap-benchmark/main.go:22-24). -/
def kb (byteCount : Nat) : Bytes := V1.decimal (byteCount / 1024 : Nat) ++ b!" kb"

/-- The loop over the collections in `printRecording` (cmd/rap-benchmark/main.go:29-33). -/
def printCollections : List (Option Coll) → Go Bytes
  | [] => .ok []
  | none :: _ => .error .nilDeref
  | some c :: cs => do
    let rest ← printCollections cs
    .ok (b!"  Name: " ++ c.name ++ b!"\n" ++ b!"  Signature: " ++ c.sig ++ b!"\n" ++
      b!"  Captures: " ++ V1.decimal c.times.length ++ b!"\n" ++ rest)

/-- `printRecording` (cmd/rap-benchmark/main.go:26-35). -/
def printRecording : Rec → Go Bytes
  | .nil => .error .nilDeref
  | .mk _ name colls recs _ _ _ => do
    let cs ← printCollections colls
    .ok (b!"Name: " ++ name ++ b!"\n" ++ b!"Collections: " ++ V1.decimal colls.length ++ b!"\n" ++ cs ++
      b!"Sub Recordings: " ++ V1.decimal recs.length ++ b!"\n")

/-- The encoders of the command (cmd/rap-benchmark/main.go:65-70). -/
def benchEncoders : List Encoder := [eventEncoder, positionEncoder 2, eulerEncoder 1, enumEncoder]

/-- The command run (cmd/rap-benchmark/main.go:50-92): what it prints, or the error it panics with. `elapsed` is the
time it took to load the file; `orders` is the order in which the runtime iterates the maps of the recording. -/
def benchmark {σ : Type} [Drain σ] (F : Flate) (X : Ext) (unmarshal : Bytes → Except Err V1.Recording)
    (orders : Rec → List (List Bytes)) (elapsed : Bytes) (s : σ) : Go (Except Err Bytes) := do
  let ((rec, n, err), _) ← load F X unmarshal s
  match err with
  | some e => .ok (.error e)
  | none =>
    let first ← printRecording rec
    let (_, err, buf) ← write F ⟨benchEncoders, 2, true⟩ (orders rec) rec (⟨[]⟩ : Buf)
    match err with
    | some e => .ok (.error e)
    | none =>
      let ((back, _, err), _) ← read F X unmarshal benchEncoders (⟨buf.bytes, .eof⟩ : Flat)
      match err with
      | some e => .ok (.error e)
      | none =>
        let second ← printRecording back
        .ok (.ok (b!"Time to read in: " ++ elapsed ++ b!"\n" ++ first ++ b!"Original Size: " ++ kb n ++ b!"\n\n" ++
          second ++ b!"New Size: " ++ kb buf.bytes.length ++ b!"\n"))

end Rap
