import Verif.Model.Recording

/-!
# How much a recording holds

One unit for every object (recording, collection, capture, enum member, binary, reference, metadata entry, array element) and
one for every byte of names, texts and binary data. Names that are shared between objects (metadata keys, names of events and
enum members) are stored once by the reader and not counted.
-/

namespace Rap

mutual
/-- What a metadata value holds. -/
def Property.held : Property → Nat
  | .str s => 1 + s.length
  | .block kvs => 1 + heldEntries kvs
  | .array _ ps => 1 + heldElements ps
  | .raw _ d => d.length
  | .int32 _ | .f32 _ | .bool _ | .byte _ | .vec2 _ _ | .vec3 _ _ _ | .time _ => 1
  | .nil => 0

/-- What the entries of a block hold. -/
def heldEntries : List (Bytes × Property) → Nat
  | [] => 0
  | (_, p) :: kvs => 1 + p.held + heldEntries kvs

/-- What the elements of an array hold. -/
def heldElements : List Property → Nat
  | [] => 0
  | p :: ps => p.held + heldElements ps
end

/-- What a collection holds. -/
def Coll.held : Coll → Nat
  | .position n caps => 1 + n.length + caps.length
  | .euler n caps => 1 + n.length + caps.length
  | .event n caps => 1 + n.length + (caps.map fun c => 1 + heldEntries c.2.2).sum
  | .enum n ms caps => 1 + n.length + ms.length + caps.length
  | .float n caps => 1 + n.length + caps.length
  | .other s n caps => 1 + s.length + n.length + (caps.map fun c => 1 + c.2.length).sum

/-- What a collection that may be nil holds. -/
def heldColl : Option Coll → Nat
  | none => 1
  | some c => c.held

/-- What a reference holds. -/
def heldRef : Option BinRef → Nat
  | none => 1
  | some r => 1 + r.name.length + r.uri.length + heldEntries r.md

/-- What a binary holds. -/
def heldBin : Option Bin → Nat
  | none => 1
  | some b => 1 + b.name.length + b.data.length + heldEntries b.md

mutual
/-- What a recording holds. -/
def Rec.held : Rec → Nat
  | .nil => 0
  | .mk id name colls recs md bins refs =>
    1 + id.length + name.length + (colls.map heldColl).sum + heldRecs recs + heldEntries md + (bins.map heldBin).sum +
      (refs.map heldRef).sum

def heldRecs : List Rec → Nat
  | [] => 0
  | r :: rs => r.held + heldRecs rs
end

end Rap
