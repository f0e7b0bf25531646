import Verif.Model.Recording
import Verif.Model.Prog

/-!
# internal/io/rapv1: version 1 recordings

Protobuf decoding is a parameter here; a model of it is in `Model/Proto.lean`.
-/

namespace Rap

/-- External code used when reading version 1 files. -/
structure Ext where
  /-- `ioutil.ReadAll(flate.NewReader(..))` -/
  inflateAll : Bytes → Except Err Bytes
  /-- `strconv.ParseFloat(s, 32)` followed by the conversion to float32; `none` is an error -/
  parseFloat32 : Bytes → Option F32

namespace V1

/-- `VectorCapture` (internal/io/rapv1/recording.pb.go:333-341). -/
structure VectorCapture where
  time : F32
  x : F32
  y : F32
  z : F32

/-- `CustomEventCapture` (recording.pb.go:215-223). `data` is the map in iteration order. -/
structure CustomEvent where
  time : F32
  name : Bytes
  contents : Bytes
  data : List (Bytes × Bytes)

/-- `LifeCycleEventCapture` (recording.pb.go:282-288); the type is an int32. -/
structure LifeEvent where
  time : F32
  type : BitVec 32

/-- `SubjectRecording` (recording.pb.go:124-135). Repeated message fields hold no nil pointers after decoding. -/
structure Subject where
  id : BitVec 32
  name : Bytes
  metadata : List (Bytes × Bytes)
  events : List CustomEvent
  lifecycle : List LifeEvent
  positions : List VectorCapture
  rotations : List VectorCapture

/-- `Recording` (recording.pb.go:57-65). -/
structure Recording where
  name : Bytes
  metadata : List (Bytes × Bytes)
  subjects : List Subject
  events : List CustomEvent

/-- Decimal digits of a natural number. -/
def decimalNat (n : Nat) : Bytes :=
  if n < 10 then [(48 + n).toUInt8] else decimalNat (n / 10) ++ [(48 + n % 10).toUInt8]
termination_by n

/-- `fmt.Sprint` of an integer. -/
def decimal (i : Int) : Bytes := if i < 0 then 45 :: decimalNat i.natAbs else decimalNat i.natAbs

/-- "value" -/
def sValue : Bytes := [118, 97, 108, 117, 101]
/-- "Custom Event" -/
def sCustomEvent : Bytes := [67, 117, 115, 116, 111, 109, 32, 69, 118, 101, 110, 116]
/-- "Position" -/
def sPosition : Bytes := [80, 111, 115, 105, 116, 105, 111, 110]
/-- "Rotation" -/
def sRotation : Bytes := [82, 111, 116, 97, 116, 105, 111, 110]
/-- "Life Cycle" -/
def sLifeCycle : Bytes := [76, 105, 102, 101, 32, 67, 121, 99, 108, 101]
/-- "START", "ENABLE", "DISABLE", "DESTROY" -/
def lifeMembers : List Bytes :=
  [[83, 84, 65, 82, 84], [69, 78, 65, 66, 76, 69], [68, 73, 83, 65, 66, 76, 69], [68, 69, 83, 84, 82, 79, 89]]

/-- The metadata of one event (internal/io/rapv1/util.go:40-56). The float property set at line 50 is always
replaced at line 54. -/
def eventDict (e : CustomEvent) : Block :=
  if e.data.isEmpty then [(sValue, .str e.contents)]
  else e.data.foldl (fun m kv => mapSet m kv.1 (.str kv.2)) []

/-- `oldToNewEvents` (internal/io/rapv1/util.go:37-65). -/
def oldToNewEvents (es : List CustomEvent) : Coll :=
  .event sCustomEvent (es.map fun e => (widen e.time, e.name, eventDict e))

/-- `convertMetadata` (internal/io/rapv1/util.go:67-80). -/
def convertMetadata (X : Ext) (m : List (Bytes × Bytes)) : Block :=
  m.foldl (fun out kv =>
    match X.parseFloat32 kv.2 with
    | some f => mapSet out kv.1 (.f32 f)
    | none => mapSet out kv.1 (.str kv.2)) []

/-- A vector capture as float64 (internal/io/rapv1/util.go:91-96, 100-105). -/
def vecCapture (v : VectorCapture) : F64 × V3 := (widen v.time, ⟨widen v.x, widen v.y, widen v.z⟩)

/-- One subject (internal/io/rapv1/util.go:85-130). -/
def subjectToStd (X : Ext) (s : Subject) : Rec :=
  .mk (decimal s.id.toInt) s.name
    [some (.position sPosition (s.positions.map vecCapture)),
     some (.euler sRotation (s.rotations.map vecCapture)),
     some (oldToNewEvents s.events),
     some (.enum sLifeCycle lifeMembers (s.lifecycle.map fun e => (widen e.time, e.type.signExtend 64)))]
    [] (convertMetadata X s.metadata) [] []

/-- `protobufToStd` (internal/io/rapv1/util.go:82-139); a `recordingV1` (recording.go:8-42) has no binaries and no
references. -/
def protobufToStd (X : Ext) (r : Recording) : Rec :=
  .mk r.name r.name [some (oldToNewEvents r.events)] (r.subjects.map (subjectToStd X)) (convertMetadata X r.metadata)
    [] []

/-- `ReadRecording` (internal/io/rapv1/util.go:141-193): recording (nil on error), bytes read, error. `unmarshal` is
`proto.Unmarshal`. Short reads are reported with an error of their own (`parse 1`), a number of recordings other
than one with `parse 2`. -/
def readRecording (X : Ext) (unmarshal : Bytes → Except Err Recording) : Prog (Rec × Nat × Option Err) :=
  .read 4 fun b err =>
    match err with
    | some e => .pure (.nil, b.length, some e)
    | none =>
      if b.length ≠ 4 then .pure (.nil, b.length, some (.parse 1))
      else if leNat b ≠ 1 then .pure (.nil, b.length, some (.parse 2))
      else .read 8 fun b8 err =>
        match err with
        | some e => .pure (.nil, 4 + b8.length, some e)
        | none =>
          if b8.length ≠ 8 then .pure (.nil, 4 + b8.length, some (.parse 1))
          else do
            Prog.make (leNat b8) 1
            .read (leNat b8) fun data err =>
              match err with
              | some e => .pure (.nil, 12 + data.length, some e)
              | none =>
                if data.length ≠ leNat b8 then .pure (.nil, 12 + data.length, some (.parse 1))
                else
                  match X.inflateAll data with
                  | .error e => .pure (.nil, 12 + data.length, some e)
                  | .ok plain =>
                    match unmarshal plain with
                    | .error e => .pure (.nil, 12 + data.length, some e)
                    | .ok r => .pure (protobufToStd X r, 12 + data.length, none)

/-- One of the loops of `GetStartOfRecording` over captures (internal/io/rapv1/util.go:198-202, 205-209, 211-215,
217-221, 223-227). -/
def lowest : List F32 → (min : F64) → F64
  | [], min => min
  | t :: ts, min => lowest ts (if (widen t).lt min then widen t else min)

/-- The loop over subjects (internal/io/rapv1/util.go:204-228). -/
def lowestOfSubjects : List Subject → (min : F64) → F64
  | [], min => min
  | s :: ss, min =>
    let min := lowest (s.events.map CustomEvent.time) min
    let min := lowest (s.positions.map VectorCapture.time) min
    let min := lowest (s.rotations.map VectorCapture.time) min
    lowestOfSubjects ss (lowest (s.lifecycle.map LifeEvent.time) min)

/-- `GetStartOfRecording` (internal/io/rapv1/util.go:195-231). -/
def getStart (r : Recording) : F64 := lowestOfSubjects r.subjects (lowest (r.events.map CustomEvent.time) F64.inf)

/-- One of the loops of `GetEndOfRecording` over captures (internal/io/rapv1/util.go:236-240, 243-247, 249-253,
255-259, 261-265). -/
def highest : List F32 → (max : F64) → F64
  | [], max => max
  | t :: ts, max => highest ts (if max.lt (widen t) then widen t else max)

/-- The loop over subjects (internal/io/rapv1/util.go:242-266). -/
def highestOfSubjects : List Subject → (max : F64) → F64
  | [], max => max
  | s :: ss, max =>
    let max := highest (s.events.map CustomEvent.time) max
    let max := highest (s.positions.map VectorCapture.time) max
    let max := highest (s.rotations.map VectorCapture.time) max
    highestOfSubjects ss (highest (s.lifecycle.map LifeEvent.time) max)

/-- `GetEndOfRecording` (internal/io/rapv1/util.go:233-269). -/
def getEnd (r : Recording) : F64 := highestOfSubjects r.subjects (highest (r.events.map CustomEvent.time) F64.ninf)

/-- `GetRecordingDuration` (internal/io/rapv1/util.go:271-273). -/
def getDuration (r : Recording) : F64 := (getEnd r).sub (getStart r)

/-- The loop of `CountRecordingCustomEvenets` (internal/io/rapv1/util.go:277-279). -/
def countEventsOf : List Subject → (events : Nat) → Nat
  | [], events => events
  | s :: ss, events => countEventsOf ss (events + s.events.length)

/-- `CountRecordingCustomEvenets` (internal/io/rapv1/util.go:275-281). -/
def countEvents (r : Recording) : Nat := countEventsOf r.subjects r.events.length

end V1
end Rap
