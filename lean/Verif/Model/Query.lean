import Verif.Model.Recording

/-!
# format/slice.go, format/validate.go, format/util.go
-/

namespace Rap

/-- `CaptureFallsWithin` (format/slice.go:73-75). -/
def fallsWithin (t b e : F64) : Bool := b.le t && t.lt e

/-- The loop of `Slice` in each collection type (format/collection/{position,euler,event,float}/collection.go:36-41,
enum/collection.go:42-47). -/
def sliceCaps {α : Type} (b e : F64) : List (F64 × α) → List (F64 × α) → List (F64 × α)
  | [], acc => acc
  | c :: cs, acc => sliceCaps b e cs (if fallsWithin c.1 b e then acc ++ [c] else acc)

/-- `Slice` of the collection types (format/collection/{position,euler,event,float}/collection.go:35-43,
enum/collection.go:41-49). A collection type from outside the package is assumed to slice the same way. -/
def Coll.slice (b e : F64) : Coll → Coll
  | .position n c => .position n (sliceCaps b e c [])
  | .euler n c => .euler n (sliceCaps b e c [])
  | .event n c => .event n (sliceCaps b e c [])
  | .enum n m c => .enum n m (sliceCaps b e c [])
  | .float n c => .float n (sliceCaps b e c [])
  | .other s n c => .other s n (sliceCaps b e c [])

/-- `SliceOption`: `BeginningOfSlice`, `EndOfSlice`, `KeepBinariesInSlice` (format/slice.go:13-29). -/
inductive SliceOption where
  | beginning (t : F64)
  | ending (t : F64)
  | keepBinaries (keep : Bool)

/-- `sliceOptions` (format/slice.go:7-11). -/
structure SliceOpts where
  beginning : F64
  ending : F64
  keepBinaries : Bool

/-- Calling an option (format/slice.go:14-16, 20-22, 26-28). -/
def SliceOpts.apply (o : SliceOpts) : SliceOption → SliceOpts
  | .beginning t => { o with beginning := t }
  | .ending t => { o with ending := t }
  | .keepBinaries k => { o with keepBinaries := k }

/-- Defaults and option loop (format/slice.go:34-43). -/
def sliceOpts (options : List SliceOption) : SliceOpts :=
  options.foldl SliceOpts.apply ⟨F64.ninf, F64.inf, true⟩

/-- The collection loop (format/slice.go:63-65); a nil collection panics. -/
def sliceColls (o : SliceOpts) : List (Option Coll) → Go (List (Option Coll))
  | [] => .ok []
  | none :: _ => .error .nilDeref
  | some c :: cs => do
    let rest ← sliceColls o cs
    .ok (some (c.slice o.beginning o.ending) :: rest)

mutual
/-- `Slice` (format/slice.go:33-69); a nil recording panics. -/
def slice (options : List SliceOption) : Rec → Go Rec
  | .nil => .error .nilDeref
  | .mk id name colls recs md bins refs => do
    let o := sliceOpts options
    let recs ← sliceChildren options recs
    let colls ← sliceColls o colls
    .ok (.mk id name colls recs md (if o.keepBinaries then bins else []) refs)

/-- The child loop (format/slice.go:57-59). -/
def sliceChildren (options : List SliceOption) : List Rec → Go (List Rec)
  | [] => .ok []
  | r :: rs => do
    let r ← slice options r
    let rs ← sliceChildren options rs
    .ok (r :: rs)
end

/-- Option loop of `Validate` (format/validate.go:21-28); each option is `RequireChronologicalCapture(b)`. -/
def validateOpts (options : List Bool) : Bool := options.foldl (fun _ b => b) true

/-- The capture loop (format/validate.go:43-47): whether it runs through, starting after the capture at time `prev`. -/
def chronoFrom (prev : F64) : List F64 → Bool
  | [] => true
  | t :: ts => if t.lt prev then false else chronoFrom t ts

/-- The collection loop (format/validate.go:38-48). -/
def validateColls : List (Option Coll) → Go (Option Err)
  | [] => .ok none
  | none :: _ => .error .nilDeref
  | some c :: cs =>
    match c.times with
    | [] => validateColls cs
    | t :: ts => if chronoFrom t ts then validateColls cs else .ok (some .notChronological)

mutual
/-- `Validate` (format/validate.go:20-52). -/
def validate (options : List Bool) : Rec → Go (Option Err)
  | .nil => .error .nilDeref
  | .mk _ _ colls recs _ _ _ => do
    match ← validateChildren options recs with
    | some e => .ok (some e)
    | none => if validateOpts options then validateColls colls else .ok none

/-- The child loop (format/validate.go:30-35). -/
def validateChildren (options : List Bool) : List Rec → Go (Option Err)
  | [] => .ok none
  | r :: rs => do
    match ← validate options r with
    | some e => .ok (some e)
    | none => validateChildren options rs
end

/-- The collection loop of `RecordingStart` (format/util.go:15-22). -/
def startColls : List (Option Coll) → F64 → Go F64
  | [], min => .ok min
  | none :: _, _ => .error .nilDeref
  | some c :: cs, min =>
    match c.times with
    | [] => startColls cs min
    | t :: _ => startColls cs (if t.lt min then t else min)

mutual
/-- `RecordingStart` (format/util.go:5-25). -/
def recordingStart : Rec → Go F64
  | .nil => .error .nilDeref
  | .mk _ _ colls recs _ _ _ => do
    let min ← startChildren recs F64.inf
    startColls colls min

/-- The child loop (format/util.go:8-13). -/
def startChildren : List Rec → F64 → Go F64
  | [], min => .ok min
  | r :: rs, min => do
    let childMin ← recordingStart r
    startChildren rs (if childMin.lt min then childMin else min)
end

/-- The collection loop of `RecordingEnd` (format/util.go:37-44). -/
def endColls : List (Option Coll) → F64 → Go F64
  | [], max => .ok max
  | none :: _, _ => .error .nilDeref
  | some c :: cs, max =>
    match c.times.getLast? with
    | none => endColls cs max
    | some t => endColls cs (if max.lt t then t else max)

mutual
/-- `RecordingEnd` (format/util.go:27-47). -/
def recordingEnd : Rec → Go F64
  | .nil => .error .nilDeref
  | .mk _ _ colls recs _ _ _ => do
    let max ← endChildren recs F64.ninf
    endColls colls max

/-- The child loop (format/util.go:30-35). -/
def endChildren : List Rec → F64 → Go F64
  | [], max => .ok max
  | r :: rs, max => do
    let childMax ← recordingEnd r
    endChildren rs (if max.lt childMax then childMax else max)
end

/-- `RecordingDuration` (format/util.go:49-53). -/
def recordingDuration (r : Rec) : Go F64 := do
  let min ← recordingStart r
  let max ← recordingEnd r
  .ok (max.sub min)

end Rap
