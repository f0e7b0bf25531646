import Verif.Spec.Text
import Verif.Model.RapV1
import Verif.Model.Str

/-!
# Specification: a recording holding the contents of a version 1 recording
-/

namespace Rap.V1

/-- The same number (or infinity, or NaN). -/
def SameNumber (x : F32) (y : F64) : Prop := number64 y = number32 x

/-- The same capture. -/
def SameCapture (v : VectorCapture) (c : F64 × V3) : Prop :=
  SameNumber v.time c.1 ∧ SameNumber v.x c.2.x ∧ SameNumber v.y c.2.y ∧ SameNumber v.z c.2.z

/-- The block is the map of strings: same keys, each with the string it had. -/
def StringMap (m : List (Bytes × Bytes)) (b : Block) : Prop := (m.map fun kv => (kv.1, Property.str kv.2)).Perm b

/-- The block is the map of strings, except that strings which are numbers have become these numbers. -/
def ParsedMap (X : Ext) (m : List (Bytes × Bytes)) (b : Block) : Prop :=
  ∃ values : List Property, (List.zip (m.map (·.1)) values).Perm b ∧
    List.Forall₂ (fun kv p => (∀ f, X.parseFloat32 kv.2 = some f → p = .f32 f) ∧
      (X.parseFloat32 kv.2 = none → p = .str kv.2)) m values

/-- The same event: an event without dictionary has its contents under "value". -/
def SameEvent (e : CustomEvent) (c : F64 × Bytes × Block) : Prop :=
  SameNumber e.time c.1 ∧ c.2.1 = e.name ∧
    (e.data = [] → c.2.2 = [(b!"value", .str e.contents)]) ∧ (e.data ≠ [] → StringMap e.data c.2.2)

/-- The same life-cycle event. -/
def SameLife (e : LifeEvent) (c : F64 × BitVec 64) : Prop := SameNumber e.time c.1 ∧ c.2.toInt = e.type.toInt

/-- The child recording of a subject. -/
def SameSubject (X : Ext) (s : Subject) (r : Rec) : Prop :=
  ∃ id ps rs es ls md, r = .mk id s.name
      [some (.position b!"Position" ps), some (.euler b!"Rotation" rs), some (.event b!"Custom Event" es),
        some (.enum b!"Life Cycle" [b!"START", b!"ENABLE", b!"DISABLE", b!"DESTROY"] ls)] [] md [] [] ∧
    IsInteger id s.id.toInt ∧ List.Forall₂ SameCapture s.positions ps ∧ List.Forall₂ SameCapture s.rotations rs ∧
    List.Forall₂ SameEvent s.events es ∧ List.Forall₂ SameLife s.lifecycle ls ∧ ParsedMap X s.metadata md

/-- The whole recording. -/
def SameRecording (X : Ext) (v : Recording) (r : Rec) : Prop :=
  ∃ es children md, r = .mk v.name v.name [some (.event b!"Custom Event" es)] children md [] [] ∧
    List.Forall₂ SameEvent v.events es ∧ List.Forall₂ (SameSubject X) v.subjects children ∧ ParsedMap X v.metadata md

/-- The keys of every map are distinct. -/
def Maps (v : Recording) : Prop :=
  (v.metadata.map (·.1)).Nodup ∧ (∀ e ∈ v.events, (e.data.map (·.1)).Nodup) ∧
    ∀ s ∈ v.subjects, (s.metadata.map (·.1)).Nodup ∧ ∀ e ∈ s.events, (e.data.map (·.1)).Nodup

/-- `t` is the time of a custom event, position, rotation or life-cycle event of the recording or of a subject. -/
def TimeIn (v : Recording) (t : F32) : Prop :=
  (∃ e ∈ v.events, e.time = t) ∨ ∃ s ∈ v.subjects, (∃ e ∈ s.events, e.time = t) ∨ (∃ e ∈ s.positions, e.time = t) ∨
    (∃ e ∈ s.rotations, e.time = t) ∨ ∃ e ∈ s.lifecycle, e.time = t

end Rap.V1
