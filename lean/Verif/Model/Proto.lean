import Verif.Model.RapV1
import Verif.Model.GoJson

/-!
# proto.Unmarshal for the messages of version 1

`ReadRecording` decodes the message with `proto.Unmarshal` (internal/io/rapv1/util.go:183-188). The module file asks for
github.com/golang/protobuf v1.5.3, which calls google.golang.org/protobuf v1.30.0: `unmarshalPointer` walks over the fields of the
data with a table of coders made from the struct tags of recording.pb.go. The functions here follow that code. Both are external
code that is not in /repo; the tags are (recording.pb.go:57-65, 124-135, 215-223, 282-288, 333-341).

Simplifications: all errors of the decoder are one (`ReadRecording` returns any of them); numbers are natural numbers where the code
keeps them in uint64; bytes of unknown fields are dropped (they are kept in `XXX_unrecognized`, which nothing reads).
-/

namespace Rap.V1

/-- `protowire.ConsumeVarint`: `k` is how many bytes may still follow; the tenth byte must be 0 or 1. -/
def consumeVarintGo : (k : Nat) → Bytes → Option (Nat × Bytes)
  | 0, _ => none
  | _, [] => none
  | k + 1, c :: r =>
    if k = 0 ∧ 2 ≤ c.toNat then none
    else if c.toNat < 128 then some (c.toNat, r)
    else (consumeVarintGo k r).map fun x => (c.toNat - 128 + 128 * x.1, x.2)

/-- `protowire.ConsumeVarint`. The decoder of tags has short cuts for one and two bytes, with the same result. -/
def consumeVarint (b : Bytes) : Option (Nat × Bytes) := consumeVarintGo 10 b

/-- `protowire.ConsumeFixed32` and `ConsumeFixed64`. -/
def consumeFixed (k : Nat) (b : Bytes) : Option (Nat × Bytes) :=
  if b.length < k then none else some (leNat (b.take k), b.drop k)

/-- `protowire.ConsumeBytes`. -/
def consumeBytes (b : Bytes) : Option (Bytes × Bytes) :=
  match consumeVarint b with
  | none => none
  | some (n, r) => if r.length < n then none else some (r.take n, r.drop n)

/-- `protowire.ConsumeTag`: field number and wire type. -/
def consumeTag (b : Bytes) : Option (Nat × Nat × Bytes) :=
  match consumeVarint b with
  | none => none
  | some (v, r) => if v / 8 < 1 ∨ 2 ^ 31 ≤ v / 8 then none else some (v / 8, v % 8, r)

mutual
/-- `protowire.consumeFieldValueD`: skips a value. `depth` is how many groups may still be opened; `fuel` bounds the calls, and
two for each byte suffice. -/
def skipValue : (fuel depth num typ : Nat) → Bytes → Option Bytes
  | 0, _, _, _, _ => none
  | fuel + 1, depth, num, typ, b =>
    if typ = 0 then (consumeVarint b).map (·.2)
    else if typ = 1 then (consumeFixed 8 b).map (·.2)
    else if typ = 2 then (consumeBytes b).map (·.2)
    else if typ = 3 then
      match depth with
      | 0 => none
      | depth + 1 => skipGroup fuel depth num b
    else if typ = 5 then (consumeFixed 4 b).map (·.2)
    else none

/-- The loop over the fields of a group, up to the end-group tag with its number. -/
def skipGroup : (fuel depth num : Nat) → Bytes → Option Bytes
  | 0, _, _, _ => none
  | fuel + 1, depth, num, b =>
    match consumeTag b with
    | none => none
    | some (num2, typ2, r) =>
      if typ2 = 4 then (if num = num2 then some r else none)
      else
        match skipValue fuel depth num2 typ2 r with
        | none => none
        | some r' => skipGroup fuel depth num r'
end

/-- `utf8.Valid`, rune by rune; `fuel` bounds the number of runes. -/
def utf8ValidGo : (fuel : Nat) → Bytes → Bool
  | _, [] => true
  | 0, _ => false
  | fuel + 1, b =>
    match decodeRune b with
    | none => false
    | some (n, _) => utf8ValidGo fuel (b.drop n)

/-- `utf8.Valid`. -/
def utf8Valid (b : Bytes) : Bool := utf8ValidGo b.length b

/-- What a coder does with the bytes after a tag: `errUnknown`, another error, or the new message and the bytes that follow. -/
inductive Consumed (σ : Type) where
  | unknown
  | error
  | ok (s : σ) (rest : Bytes)

/-- The coder of a field (`pointerCoderFuncs`), by the kind of the field: what is done with a decoded value. -/
inductive Coder (σ : Type) where
  /-- `consumeStringValidateUTF8`: fields of proto3 files are checked -/
  | string (set : σ → Bytes → σ)
  /-- `consumeInt32` and `consumeEnum`: the low 32 bits -/
  | int32 (set : σ → BitVec 32 → σ)
  /-- `consumeFloat` -/
  | float (set : σ → F32 → σ)
  /-- `consumeMessageSliceInfo` and `consumeMap`: the bytes are decoded by another message; `none` is an error -/
  | message (add : σ → Bytes → Option σ)

/-- Calling a coder. -/
def Coder.consume {σ : Type} (c : Coder σ) (typ : Nat) (b : Bytes) (s : σ) : Consumed σ :=
  match c with
  | .string set =>
    if typ = 2 then
      match consumeBytes b with
      | none => .error
      | some (v, r) => if utf8Valid v then .ok (set s v) r else .error
    else .unknown
  | .int32 set =>
    if typ = 0 then
      match consumeVarint b with
      | none => .error
      | some (v, r) => .ok (set s (BitVec.ofNat 32 v)) r
    else .unknown
  | .float set =>
    if typ = 5 then
      match consumeFixed 4 b with
      | none => .error
      | some (v, r) => .ok (set s (BitVec.ofNat 32 v)) r
    else .unknown
  | .message add =>
    if typ = 2 then
      match consumeBytes b with
      | none => .error
      | some (v, r) =>
        match add s v with
        | none => .error
        | some s' => .ok s' r
    else .unknown

/-- The loop of `unmarshalPointer` (and the same loop in `consumeMap`) over the fields of a message; `fields` is the table of coders.
No field of these messages is a group, so an end-group tag is always an error. -/
def unmarshalGo {σ : Type} (fields : Nat → Option (Coder σ)) : (fuel : Nat) → Bytes → σ → Option σ
  | _, [], s => some s
  | 0, _, _ => none
  | fuel + 1, b, s =>
    match consumeVarint b with
    | none => none
    | some (tag, r) =>
      if tag / 8 < 1 ∨ 2 ^ 29 ≤ tag / 8 then none
      else if tag % 8 = 4 then none
      else
        match (match fields (tag / 8) with
          | some c => c.consume (tag % 8) r s
          | none => .unknown) with
        | .error => none
        | .ok s' r' => unmarshalGo fields fuel r' s'
        | .unknown =>
          match skipValue (2 * r.length + 2) 10001 (tag / 8) (tag % 8) r with
          | none => none
          | some r' => unmarshalGo fields fuel r' s

/-- `unmarshalPointer` of a new message. -/
def unmarshalMessage {σ : Type} (fields : Nat → Option (Coder σ)) (zero : σ) (b : Bytes) : Option σ :=
  unmarshalGo fields b.length b zero

/-- The entries of a map (`protobuf_key` and `protobuf_val` in the tags: recording.pb.go:59, 127, 219). -/
def entryFields : Nat → Option (Coder (Bytes × Bytes))
  | 1 => some (.string fun s v => (v, s.2))
  | 2 => some (.string fun s v => (s.1, v))
  | _ => none

/-- `consumeMap`: an entry is set in the map. -/
def addEntry (m : List (Bytes × Bytes)) (b : Bytes) : Option (List (Bytes × Bytes)) :=
  (unmarshalMessage entryFields ([], []) b).map fun kv => mapSet m kv.1 kv.2

/-- `VectorCapture` (recording.pb.go:333-341). -/
def vectorFields : Nat → Option (Coder VectorCapture)
  | 1 => some (.float fun s v => { s with time := v })
  | 2 => some (.float fun s v => { s with x := v })
  | 3 => some (.float fun s v => { s with y := v })
  | 4 => some (.float fun s v => { s with z := v })
  | _ => none

/-- `LifeCycleEventCapture` (recording.pb.go:282-288). -/
def lifeFields : Nat → Option (Coder LifeEvent)
  | 1 => some (.float fun s v => { s with time := v })
  | 2 => some (.int32 fun s v => { s with type := v })
  | _ => none

/-- `CustomEventCapture` (recording.pb.go:215-223). -/
def eventFields : Nat → Option (Coder CustomEvent)
  | 1 => some (.float fun s v => { s with time := v })
  | 2 => some (.string fun s v => { s with name := v })
  | 3 => some (.string fun s v => { s with contents := v })
  | 4 => some (.message fun s v => (addEntry s.data v).map fun m => { s with data := m })
  | _ => none

/-- A new `VectorCapture`. -/
def unmarshalVector (b : Bytes) : Option VectorCapture := unmarshalMessage vectorFields ⟨0, 0, 0, 0⟩ b

/-- A new `LifeCycleEventCapture`. -/
def unmarshalLife (b : Bytes) : Option LifeEvent := unmarshalMessage lifeFields ⟨0, 0⟩ b

/-- A new `CustomEventCapture`. `order` is the order in which Go goes through a map. -/
def unmarshalEvent (order : List (Bytes × Bytes) → List (Bytes × Bytes)) (b : Bytes) : Option CustomEvent :=
  (unmarshalMessage eventFields ⟨0, [], [], []⟩ b).map fun e => { e with data := order e.data }

/-- `SubjectRecording` (recording.pb.go:124-135). -/
def subjectFields (order : List (Bytes × Bytes) → List (Bytes × Bytes)) : Nat → Option (Coder Subject)
  | 1 => some (.int32 fun s v => { s with id := v })
  | 2 => some (.string fun s v => { s with name := v })
  | 3 => some (.message fun s v => (addEntry s.metadata v).map fun m => { s with metadata := m })
  | 4 => some (.message fun s v => (unmarshalEvent order v).map fun m => { s with events := s.events ++ [m] })
  | 5 => some (.message fun s v => (unmarshalLife v).map fun m => { s with lifecycle := s.lifecycle ++ [m] })
  | 6 => some (.message fun s v => (unmarshalVector v).map fun m => { s with positions := s.positions ++ [m] })
  | 7 => some (.message fun s v => (unmarshalVector v).map fun m => { s with rotations := s.rotations ++ [m] })
  | _ => none

/-- A new `SubjectRecording`. -/
def unmarshalSubject (order : List (Bytes × Bytes) → List (Bytes × Bytes)) (b : Bytes) : Option Subject :=
  (unmarshalMessage (subjectFields order) ⟨0, [], [], [], [], [], []⟩ b).map fun s => { s with metadata := order s.metadata }

/-- `Recording` (recording.pb.go:57-65). -/
def recordingFields (order : List (Bytes × Bytes) → List (Bytes × Bytes)) : Nat → Option (Coder Recording)
  | 1 => some (.string fun s v => { s with name := v })
  | 2 => some (.message fun s v => (addEntry s.metadata v).map fun m => { s with metadata := m })
  | 3 => some (.message fun s v => (unmarshalSubject order v).map fun m => { s with subjects := s.subjects ++ [m] })
  | 4 => some (.message fun s v => (unmarshalEvent order v).map fun m => { s with events := s.events ++ [m] })
  | _ => none

/-- `proto.Unmarshal` into a new `Recording` (internal/io/rapv1/util.go:183-188). -/
def protoUnmarshal (order : List (Bytes × Bytes) → List (Bytes × Bytes)) (b : Bytes) : Except Err Recording :=
  match unmarshalMessage (recordingFields order) ⟨[], [], [], []⟩ b with
  | none => .error (.parse 3)
  | some r => .ok { r with metadata := order r.metadata }

end Rap.V1
