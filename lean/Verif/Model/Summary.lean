import Verif.Model.Query
import Verif.Model.RapV1
import Verif.Model.Str

/-!
# cmd/rap-cli/summarize.go

`fmt` with `%.2f` is a parameter. Go's `int` counters are natural numbers: a process holds less than 2^63 captures.
-/

namespace Rap

/-- `summary` (cmd/rap-cli/summarize.go:14-20). -/
structure Summary where
  position : Nat
  event : Nat
  euler : Nat
  enum : Nat
  other : Nat
  deriving DecidableEq, Repr

/-- `Combine` (cmd/rap-cli/summarize.go:22-30). -/
def Summary.combine (s t : Summary) : Summary :=
  ⟨s.position + t.position, s.event + t.event, s.euler + t.euler, s.enum + t.enum, s.other + t.other⟩

/-- The collection loop (cmd/rap-cli/summarize.go:34-47). A nil collection reaches the default case, where it is
dereferenced. -/
def summarizeColls : List (Option Coll) → Summary → Go Summary
  | [], s => .ok s
  | none :: _, _ => .error .nilDeref
  | some c :: cs, s =>
    match c with
    | .event _ caps => summarizeColls cs { s with event := s.event + caps.length }
    | .position _ caps => summarizeColls cs { s with position := s.position + caps.length }
    | .enum _ _ caps => summarizeColls cs { s with enum := s.enum + caps.length }
    | .euler _ caps => summarizeColls cs { s with euler := s.euler + caps.length }
    | c => summarizeColls cs { s with other := s.other + c.times.length }

mutual
/-- `summarize` (cmd/rap-cli/summarize.go:32-54). -/
def summarize : Rec → Go Summary
  | .nil => .error .nilDeref
  | .mk _ _ colls recs _ _ _ => do
    let s ← summarizeColls colls ⟨0, 0, 0, 0, 0⟩
    summarizeChildren recs s

/-- The child loop (cmd/rap-cli/summarize.go:49-51). -/
def summarizeChildren : List Rec → Summary → Go Summary
  | [], s => .ok s
  | r :: rs, s => do
    let t ← summarize r
    summarizeChildren rs (s.combine t)
end

/-- What `printSize` prints a number with (cmd/rap-cli/summarize.go:56-68): the unit, and the number before it. -/
inductive Size where
  | bytes (n : Int)
  | kilo (x : F64)
  | mega (x : F64)

/-- 1024.0 -/
def f1024 : F64 := 0x4090000000000000

/-- The cases of `printSize` (cmd/rap-cli/summarize.go:56-68). -/
def sizeOf (size : Int) : Size :=
  if size < 1024 then .bytes size
  else
    let edited := (F64.ofInt size).div f1024
    if edited.lt f1024 then .kilo edited else .mega (edited.div f1024)

/-- `printSize` (cmd/rap-cli/summarize.go:56-68). `two` is formatting with `%.2f`. -/
def printSize (two : F64 → Bytes) (size : Int) : Bytes :=
  match sizeOf size with
  | .bytes n => V1.decimal n ++ b!"b"
  | .kilo x => two x ++ b!"kb"
  | .mega x => two x ++ b!"mb"

/-- The children of a recording. -/
def Rec.children : Rec → List Rec
  | .nil => []
  | .mk _ _ _ recs _ _ _ => recs

/-- The name of a recording. -/
def Rec.theName : Rec → Bytes
  | .nil => []
  | .mk _ name _ _ _ _ _ => name

/-- What `printSummary` writes (cmd/rap-cli/summarize.go:70-87), up to a panic. -/
def printSummary (two : F64 → Bytes) (rec : Rec) (size : Int) : Go Bytes := do
  let duration ← recordingDuration rec
  let s ← summarize rec
  let displayName := if rec.theName = [] then b!"[No Name]" else rec.theName
  .ok (b!"Name:                    " ++ displayName ++ b!"\n" ++
    b!"File Size:               " ++ printSize two size ++ b!"\n" ++
    b!"Duration:                " ++ two duration ++ b!"s\n" ++
    b!"Sub Recordings:          " ++ V1.decimal rec.children.length ++ b!"\n" ++
    b!"Total Position Captures: " ++ V1.decimal s.position ++ b!"\n" ++
    b!"Total Euler Captures:    " ++ V1.decimal s.euler ++ b!"\n" ++
    b!"Total Event Captures:    " ++ V1.decimal s.event ++ b!"\n" ++
    b!"Total Enum Captures:     " ++ V1.decimal s.enum ++ b!"\n" ++
    b!"Total Other Captures:    " ++ V1.decimal s.other ++ b!"\n")

end Rap
