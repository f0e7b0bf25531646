import Verif.Model.Metadata

/-!
# Recordings and collections

format/recording.go and format/collection/*. Interface values that may be nil are options (`Rec.nil` for recordings).
-/

namespace Rap

/-- `vector3.Float64` (github.com/EliCDavis/vector). -/
structure V3 where
  x : F64
  y : F64
  z : F64
  deriving DecidableEq, Repr

namespace V3
/-- `Add`: component by component. -/
def add (a b : V3) : V3 := ⟨a.x.add b.x, a.y.add b.y, a.z.add b.z⟩
/-- `Sub`: component by component. -/
def sub (a b : V3) : V3 := ⟨a.x.sub b.x, a.y.sub b.y, a.z.sub b.z⟩
end V3

/-- "recolude.position" (format/collection/position/collection.go:23-25) -/
def sigPosition : Bytes := [114, 101, 99, 111, 108, 117, 100, 101, 46, 112, 111, 115, 105, 116, 105, 111, 110]
/-- "recolude.euler" (format/collection/euler/collection.go:31-33) -/
def sigEuler : Bytes := [114, 101, 99, 111, 108, 117, 100, 101, 46, 101, 117, 108, 101, 114]
/-- "recolude.event" (format/collection/event/collection.go:31-33) -/
def sigEvent : Bytes := [114, 101, 99, 111, 108, 117, 100, 101, 46, 101, 118, 101, 110, 116]
/-- "recolude.enum" (format/collection/enum/collection.go:37-39) -/
def sigEnum : Bytes := [114, 101, 99, 111, 108, 117, 100, 101, 46, 101, 110, 117, 109]
/-- "recolude.float" (format/collection/float/collection.go:31-33) -/
def sigFloat : Bytes := [114, 101, 99, 111, 108, 117, 100, 101, 46, 102, 108, 111, 97, 116]

/-- A capture collection (format/recording.go:30-39) with its captures; each capture is its time and its value.
Position, euler, event, enum and float are format/collection/<kind>/{capture,collection}.go. `other` is any
collection type defined outside the package: its signature, name, and captures with an opaque value. -/
inductive Coll where
  | position (name : Bytes) (caps : List (F64 × V3))
  | euler (name : Bytes) (caps : List (F64 × V3))
  | event (name : Bytes) (caps : List (F64 × Bytes × Block))
  | enum (name : Bytes) (members : List Bytes) (caps : List (F64 × BitVec 64))
  | float (name : Bytes) (caps : List (F64 × F64))
  | other (sig name : Bytes) (caps : List (F64 × Bytes))

namespace Coll

/-- `Signature()` of the five collection types (collection.go of each package). -/
def sig : Coll → Bytes
  | position .. => sigPosition
  | euler .. => sigEuler
  | event .. => sigEvent
  | enum .. => sigEnum
  | float .. => sigFloat
  | other s _ _ => s

/-- `Name()`. -/
def name : Coll → Bytes
  | position n _ => n
  | euler n _ => n
  | event n _ => n
  | enum n _ _ => n
  | float n _ => n
  | other _ n _ => n

/-- The times of `Captures()`, in order. `Length()`, `Start()`, `End()`, `CaptureAt(i).Time()` are read off it. -/
def times : Coll → List F64
  | position _ c => c.map (·.1)
  | euler _ c => c.map (·.1)
  | event _ c => c.map (·.1)
  | enum _ _ c => c.map (·.1)
  | float _ c => c.map (·.1)
  | other _ _ c => c.map (·.1)

end Coll

/-- `format.BinaryReference` (format/recording.go:23-28, format/io/binary_reference.go). -/
structure BinRef where
  name : Bytes
  uri : Bytes
  /-- uint64 -/
  size : Nat
  md : Block

/-- `format.Binary` (format/recording.go:16-21). `data` is everything `Data()` yields; `size` is what `Size()` claims.
For the package's own `Binary` (format/io/binary.go) they agree. -/
structure Bin where
  name : Bytes
  data : Bytes
  /-- uint64 -/
  size : Nat
  md : Block

/-- `NewBinary` (format/io/binary.go:16-22) with `Size()` (28-30) and `Data()` (36-38). -/
def newBinary (name data : Bytes) (md : Block) : Bin := ⟨name, data, u64 data.length, md⟩

/-- `format.Recording` (format/recording.go:41-49, 71-79); `nil` is the nil interface value. -/
inductive Rec where
  | nil
  | mk (id name : Bytes) (colls : List (Option Coll)) (recs : List Rec) (md : Block)
      (bins : List (Option Bin)) (refs : List (Option BinRef))

end Rap
