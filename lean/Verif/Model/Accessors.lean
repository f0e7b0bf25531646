import Verif.Model.Query

/-!
# The accessors of the collection types

format/collection/{position,euler,event,enum,float}/{capture,collection}.go and format/encoding/util.go. The five packages
repeat the same methods on their own capture type; what they share is written once, for any capture type (`goIndex`, `capturesOf`).
-/

namespace Rap

/-- `format.Capture`: the interface value is one of the capture types of the five packages (format/collection/<kind>/capture.go:
enum 7-10, euler 9-12, event 9-13, float 5-8, position 9-12), or one from outside. The time comes first. -/
inductive Capture where
  | position (t : F64) (v : V3)
  | euler (t : F64) (v : V3)
  | event (t : F64) (name : Bytes) (md : Block)
  | enum (t : F64) (member : BitVec 64)
  | float (t : F64) (x : F64)
  | other (t : F64) (v : Bytes)

/-- `Time()` (enum/capture.go:19-21, euler/capture.go:21-23, event/capture.go:31-33, float/capture.go:17-19,
position/capture.go:21-23). -/
def Capture.time : Capture → F64
  | position t _ => t
  | euler t _ => t
  | event t _ _ => t
  | enum t _ => t
  | float t _ => t
  | other t _ => t

/-- Indexing a slice with an `int`; out of range it panics. -/
def goIndex {α : Type} (xs : List α) (i : Int) : Go α :=
  if i < 0 then .error .indexOutOfRange
  else match xs[i.toNat]? with
    | some x => .ok x
    | none => .error .indexOutOfRange

/-- The loop of `Captures` (enum/collection.go:31-33; euler, event and float/collection.go:25-27; position/collection.go:29-31):
`todo` are the captures not copied yet, `i` the index of the first of them, `out` the slice made beforehand, of the same
length; nil entries are `none`. -/
def capturesLoop {α : Type} (wrap : α → Capture) : List α → Nat → List (Option Capture) → List (Option Capture)
  | [], _, out => out
  | x :: xs, i, out => capturesLoop wrap xs (i + 1) (out.set i (some (wrap x)))

/-- `Captures()` on the captures of a collection (enum/collection.go:29-35; euler, event and float/collection.go:23-29;
position/collection.go:27-33). -/
def capturesOf {α : Type} (wrap : α → Capture) (xs : List α) : List (Option Capture) :=
  capturesLoop wrap xs 0 (List.replicate xs.length none)

namespace Coll

/-- `Captures()`. -/
def allCaptures : Coll → List (Option Capture)
  | position _ c => capturesOf (fun x => .position x.1 x.2) c
  | euler _ c => capturesOf (fun x => .euler x.1 x.2) c
  | event _ c => capturesOf (fun x => .event x.1 x.2.1 x.2.2) c
  | enum _ _ c => capturesOf (fun x => .enum x.1 x.2) c
  | float _ c => capturesOf (fun x => .float x.1 x.2) c
  | other _ _ c => capturesOf (fun x => .other x.1 x.2) c

/-- `Length()` (enum/collection.go:59-61, the others 53-55). -/
def length : Coll → Nat
  | position _ c => c.length
  | euler _ c => c.length
  | event _ c => c.length
  | enum _ _ c => c.length
  | float _ c => c.length
  | other _ _ c => c.length

/-- `CaptureAt(index)` (enum/collection.go:63-65, the others 57-59). -/
def captureAt (i : Int) : Coll → Go Capture
  | position _ c => do let x ← goIndex c i; .ok (.position x.1 x.2)
  | euler _ c => do let x ← goIndex c i; .ok (.euler x.1 x.2)
  | event _ c => do let x ← goIndex c i; .ok (.event x.1 x.2.1 x.2.2)
  | enum _ _ c => do let x ← goIndex c i; .ok (.enum x.1 x.2)
  | float _ c => do let x ← goIndex c i; .ok (.float x.1 x.2)
  | other _ _ c => do let x ← goIndex c i; .ok (.other x.1 x.2)

/-- `Start()` (enum/collection.go:51-53, the others 45-47). -/
def start : Coll → Go F64
  | position _ c => do let x ← goIndex c 0; .ok x.1
  | euler _ c => do let x ← goIndex c 0; .ok x.1
  | event _ c => do let x ← goIndex c 0; .ok x.1
  | enum _ _ c => do let x ← goIndex c 0; .ok x.1
  | float _ c => do let x ← goIndex c 0; .ok x.1
  | other _ _ c => do let x ← goIndex c 0; .ok x.1

/-- `End()` (enum/collection.go:55-57, the others 49-51). -/
def stop : Coll → Go F64
  | position _ c => do let x ← goIndex c (c.length - 1); .ok x.1
  | euler _ c => do let x ← goIndex c (c.length - 1); .ok x.1
  | event _ c => do let x ← goIndex c (c.length - 1); .ok x.1
  | enum _ _ c => do let x ← goIndex c (c.length - 1); .ok x.1
  | float _ c => do let x ← goIndex c (c.length - 1); .ok x.1
  | other _ _ c => do let x ← goIndex c (c.length - 1); .ok x.1

end Coll

/-- `CollectionDuration` (format/encoding/util.go:7-9). -/
def collectionDuration (c : Coll) : Go F64 := do
  let e ← c.stop
  let s ← c.start
  .ok (e.sub s)

end Rap
