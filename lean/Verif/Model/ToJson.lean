import Verif.Model.Cli
import Verif.Model.Marshal

/-!
# The command to-json: cmd/rap-cli/json.go and cmd/rap-cli/main.go

Each `Fprint` makes one `Write` call whose result is ignored. A call of `toJson` is therefore the list of the texts it
writes, and what it returns. Opening files and command-line flags are not modelled.
-/

namespace Rap

/-- The texts written, and the error returned (or the panic they are followed by). -/
structure JOut where
  texts : List Bytes
  result : Go (Option Err)

/-- `fmt.Fprintf(out, ..)` -/
def JOut.say (b : Bytes) : JOut := ⟨[b], .ok none⟩

/-- Statements one after the other, up to `return err` or a panic. -/
def JOut.seq : List JOut → JOut
  | [] => ⟨[], .ok none⟩
  | a :: rest =>
    match a.result with
    | .ok none => ⟨a.texts ++ (JOut.seq rest).texts, (JOut.seq rest).result⟩
    | _ => a

/-- A call whose error is dropped. -/
def JOut.drop (a : JOut) : JOut :=
  match a.result with
  | .ok _ => ⟨a.texts, .ok none⟩
  | .error _ => a

/-- `metadata.NewMetadataProperty(md).MarshalJSON()`, `if err != nil { return err }`, and what follows. -/
def JOut.marshal (M : MarshalExt) (md : Block) (f : Bytes → JOut) : JOut :=
  match (Rap.marshal M (.block md)).run with
  | .ok (.ok t) => f t
  | .ok (.error e) => ⟨[], .ok (some e)⟩
  | .error p => ⟨[], .error p⟩

/-- Tabs. -/
def tabs (n : Nat) : Bytes := List.replicate n 9

/-- One event (cmd/rap-cli/json.go:53-69). `t` are the tabs of the collection. -/
def eventJson (M : MarshalExt) (t : Bytes) (c : F64 × Bytes × Block) (last : Bool) : JOut :=
  .marshal M c.2.2 fun data => .seq
    [.say (t ++ b!"\t\t{\n"),
     .say (t ++ b!"\t\t\t\"time\": " ++ M.fixed c.1 ++ b!",\n"),
     .say (t ++ b!"\t\t\t\"name\": \"" ++ c.2.1 ++ b!"\",\n"),
     .say (t ++ b!"\t\t\t\"data\": " ++ data ++ b!"\n"),
     .say (t ++ b!"\t\t}"),
     .say (if last then b!"\n" else b!",\n")]

/-- The loop over the events (cmd/rap-cli/json.go:52-70). -/
def eventsJson (M : MarshalExt) (t : Bytes) : List (F64 × Bytes × Block) → JOut
  | [] => .seq []
  | c :: rest => .seq [eventJson M t c rest.isEmpty, eventsJson M t rest]

/-- `collection.(event.Collection)` (cmd/rap-cli/json.go:50-71). -/
def capturesJson (M : MarshalExt) (t : Bytes) : Coll → JOut
  | .event _ caps => eventsJson M t caps
  | _ => .seq []

/-- One collection (cmd/rap-cli/json.go:44-80). `t` are its tabs. -/
def collJson (M : MarshalExt) (t : Bytes) (c : Coll) (last : Bool) : JOut :=
  .seq
    [.say (t ++ b!"{\n"),
     .say (t ++ b!"\t\"name\": \"" ++ c.name ++ b!"\",\n"),
     .say (t ++ b!"\t\"signature\" : \"" ++ c.sig ++ b!"\",\n"),
     .say (t ++ b!"\t\"count\" : " ++ V1.decimal c.times.length),
     if c.sig = sigEvent then .seq
       [.say (b!",\n" ++ t ++ b!"\t\"captures\": [\n"),
        capturesJson M t c,
        .say (t ++ b!"\t]\n")]
     else .say b!"\n",
     .say (t ++ b!"}"),
     if last then .seq [] else .say b!",\n"]

/-- The loop over the collections (cmd/rap-cli/json.go:43-81). Using a nil collection panics after the opening brace. -/
def collsJson (M : MarshalExt) (t : Bytes) : List (Option Coll) → JOut
  | [] => .seq []
  | none :: _ => ⟨[t ++ b!"{\n"], .error .nilDeref⟩
  | some c :: rest => .seq [collJson M t c rest.isEmpty, collsJson M t rest]

mutual
/-- `toJson` (cmd/rap-cli/json.go:13-115). -/
def toJson (M : MarshalExt) (depth : Nat) : Rec → JOut
  | .nil => ⟨[tabs depth ++ b!"{\n"], .error .nilDeref⟩
  | .mk id name colls recs md _ _ => .seq
    [.say (tabs depth ++ b!"{\n"),
     .say (tabs (depth + 1) ++ b!"\"id\": \"" ++ id ++ b!"\",\n"),
     .say (tabs (depth + 1) ++ b!"\"name\": \"" ++ name ++ b!"\",\n"),
     .marshal M md fun data => .say (tabs (depth + 1) ++ b!"\"metadata\": " ++ data ++ b!",\n"),
     .say (tabs (depth + 1) ++ b!"\"collections\": ["),
     if colls.isEmpty then .seq [] else .say b!"\n",
     collsJson M (tabs (depth + 2)) colls,
     if colls.isEmpty then .say b!"],\n" else .seq [.say b!"\n", .say (tabs (depth + 1) ++ b!"],\n")],
     .say (tabs (depth + 1) ++ b!"\"recordings\": ["),
     if recs.isEmpty then .seq [] else .say b!"\n",
     recsJson M depth recs,
     if recs.isEmpty then .say b!"]\n" else .seq [.say b!"\n", .say (tabs (depth + 1) ++ b!"]\n")],
     .say (tabs depth ++ b!"}")]

/-- The loop over the child recordings (cmd/rap-cli/json.go:95-104): their errors are dropped. -/
def recsJson (M : MarshalExt) (depth : Nat) : List Rec → JOut
  | [] => .seq []
  | .nil :: rest => .seq
    [.say b!"null",
     if rest.isEmpty then .seq [] else .say b!",\n",
     recsJson M depth rest]
  | r :: rest => .seq
    [(toJson M (depth + 2) r).drop,
     if rest.isEmpty then .seq [] else .say b!",\n",
     recsJson M depth rest]
end

/-- Writing without looking at the results. -/
def emit {τ : Type} [Snk τ] : List Bytes → τ → τ
  | [], out => out
  | b :: bs, out => emit bs (Snk.write b out).2.2

/-- The command to-json (cmd/rap-cli/main.go:74-112): the error it returns and the output. -/
def toJsonCmd {σ τ : Type} [Drain σ] [Snk τ] (M : MarshalExt) (F : Flate) (X : Ext)
    (unmarshal : Bytes → Except Err V1.Recording) (s : σ) (out : τ) : Go (Option Err × τ) := do
  let ((rec, _, err), _) ← load F X unmarshal s
  match err with
  | some e => .ok (some e, out)
  | none =>
    match rec with
    | .nil => .ok (some (.parse 30), out)
    | rec =>
      let o := toJson M 0 rec
      let err ← o.result
      .ok (err, emit o.texts out)

end Rap
