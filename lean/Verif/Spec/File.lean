import Verif.Spec.Stored

/-!
# Specification: parts of recording trees, recordings up to map order, several files in a row
-/

namespace Rap

/-- `r` is the recording itself or one of its descendants. -/
inductive Within : Rec → Rec → Prop where
  | self (r : Rec) : Within r r
  | child {r r' : Rec} {id name : Bytes} {colls : List (Option Coll)} {recs : List Rec} {md : Block}
      {bins : List (Option Bin)} {refs : List (Option BinRef)} :
      r' ∈ recs → Within r r' → Within r (.mk id name colls recs md bins refs)

/-- The recording is nil, or has a nil part, or a collection none of the encoders accepts. -/
def Faulty (encs : List Encoder) : Rec → Prop
  | .nil => True
  | .mk _ _ colls _ _ bins refs =>
    none ∈ colls ∨ none ∈ bins ∨ none ∈ refs ∨ ∃ c, some c ∈ colls ∧ ∀ e ∈ encs, e.accepts c = false

/-- The recording, one of its references or one of its binaries has metadata under the key. -/
def UsesKey (k : Bytes) : Rec → Prop
  | .nil => False
  | .mk _ _ _ _ md bins refs =>
    k ∈ md.map (·.1) ∨ (∃ r, some r ∈ refs ∧ k ∈ r.md.map (·.1)) ∨ (∃ b, some b ∈ bins ∧ k ∈ b.md.map (·.1))

/-! ## Equality up to the order in which maps are iterated -/

/-- The same metadata value, whatever order the maps in it are iterated in. -/
inductive SameProp : Property → Property → Prop where
  | refl (p : Property) : SameProp p p
  | block {kvs kvs' kvs'' : Block} : kvs.map (·.1) = kvs'.map (·.1) →
      List.Forall₂ SameProp (kvs.map (·.2)) (kvs'.map (·.2)) → kvs'.Perm kvs'' → SameProp (.block kvs) (.block kvs'')
  | array (base : UInt8) {ps ps' : List Property} : List.Forall₂ SameProp ps ps' →
      SameProp (.array base ps) (.array base ps')

/-- The same map. -/
def SameBlock (b b' : Block) : Prop :=
  ∃ m : Block, b.map (·.1) = m.map (·.1) ∧ List.Forall₂ SameProp (b.map (·.2)) (m.map (·.2)) ∧ m.Perm b'

/-- The same collection. -/
inductive SameColl : Coll → Coll → Prop where
  | refl (c : Coll) : SameColl c c
  | event (name : Bytes) {caps caps' : List (F64 × Bytes × Block)} :
      List.Forall₂ (fun a b => a.1 = b.1 ∧ a.2.1 = b.2.1 ∧ SameBlock a.2.2 b.2.2) caps caps' →
      SameColl (.event name caps) (.event name caps')

/-- The same reference. -/
def SameRef (r r' : BinRef) : Prop := r.name = r'.name ∧ r.uri = r'.uri ∧ r.size = r'.size ∧ SameBlock r.md r'.md

/-- The same binary. -/
def SameBin (b b' : Bin) : Prop := b.name = b'.name ∧ b.data = b'.data ∧ b.size = b'.size ∧ SameBlock b.md b'.md

/-- Both nil, or related. -/
def OptRel {α : Type} (R : α → α → Prop) : Option α → Option α → Prop
  | none, none => True
  | some a, some b => R a b
  | _, _ => False

/-- The same recording. -/
inductive SameRec : Rec → Rec → Prop where
  | nil : SameRec .nil .nil
  | mk (id name : Bytes) {colls colls' : List (Option Coll)} {recs recs' : List Rec} {md md' : Block}
      {bins bins' : List (Option Bin)} {refs refs' : List (Option BinRef)} :
      List.Forall₂ (OptRel SameColl) colls colls' → List.Forall₂ SameRec recs recs' → SameBlock md md' →
      List.Forall₂ (OptRel SameBin) bins bins' → List.Forall₂ (OptRel SameRef) refs refs' →
      SameRec (.mk id name colls recs md bins refs) (.mk id name colls' recs' md' bins' refs')

/-! ## Several files in a row -/

/-- Writing recordings one after another to the same output; `none` unless all succeed. Returns the counts. -/
def writeMany (F : Flate) (cfg : WriterCfg) : List (List (List Bytes) × Rec) → Buf → Option (List Nat × Buf)
  | [], out => some ([], out)
  | (orders, rec) :: jobs, out =>
    match write F cfg orders rec out with
    | .ok (n, none, out') =>
      match writeMany F cfg jobs out' with
      | some (ns, out'') => some (n :: ns, out'')
      | none => none
    | _ => none

/-- Reading `k` recordings one after another from the same source; `none` unless all succeed. -/
def readMany (F : Flate) (X : Ext) (unmarshal : Bytes → Except Err V1.Recording) (registered : List Encoder) :
    (k : Nat) → Flat → Option (List (Rec × Nat) × Flat)
  | 0, s => some ([], s)
  | k + 1, s =>
    match read F X unmarshal registered s with
    | .ok ((rec, n, none), s') =>
      match readMany F X unmarshal registered k s' with
      | some (rs, s'') => some ((rec, n) :: rs, s'')
      | none => none
    | _ => none

/-- The techniques that keep every bit. -/
def Lossless : Builtin → Prop
  | .event => True
  | .enum => True
  | .position t => t = 0
  | .euler t => t = 0
  | .float t => t = 0

end Rap
