import Verif.Spec.File
import Verif.Spec.Number
import Verif.Model.Query

/-!
# Specification: slices, chronological recordings, first and last capture
-/

namespace Rap

/-- The collections of a recording (not those of its children). -/
def Rec.colls : Rec → List (Option Coll)
  | .nil => []
  | .mk _ _ colls _ _ _ _ => colls

/-- The binaries of a recording. -/
def Rec.bins : Rec → List (Option Bin)
  | .nil => []
  | .mk _ _ _ _ _ bins _ => bins

/-- The references of a recording. -/
def Rec.refs : Rec → List (Option BinRef)
  | .nil => []
  | .mk _ _ _ _ _ _ refs => refs

mutual
/-- The recording and all its descendants, parents first. -/
def Rec.nodes : Rec → List Rec
  | .nil => [.nil]
  | .mk id name colls recs md bins refs => .mk id name colls recs md bins refs :: Rec.nodesList recs
/-- The same for a list of recordings. -/
def Rec.nodesList : List Rec → List Rec
  | [] => []
  | r :: rs => r.nodes ++ Rec.nodesList rs
end

/-- No recording and no collection in the tree is nil. -/
def Complete (rec : Rec) : Prop := ∀ r, Within r rec → r ≠ .nil ∧ none ∉ r.colls

/-- `b <= t < e`, for what the bit patterns mean. -/
def InInterval (b e t : F64) : Prop := (number64 b).le (number64 t) ∧ (number64 t).lt (number64 e)

/-- `ys` are the entries of `xs` whose time satisfies `P`, in order. -/
inductive Kept {α : Type} (P : F64 → Prop) : List (F64 × α) → List (F64 × α) → Prop where
  | nil : Kept P [] []
  | keep {x : F64 × α} {xs ys : List (F64 × α)} : P x.1 → Kept P xs ys → Kept P (x :: xs) (x :: ys)
  | drop {x : F64 × α} {xs ys : List (F64 × α)} : ¬ P x.1 → Kept P xs ys → Kept P (x :: xs) ys

/-- The same collection with only the captures whose time satisfies `P`. -/
inductive SlicedColl (P : F64 → Prop) : Coll → Coll → Prop where
  | position (n : Bytes) {c c' : List (F64 × V3)} : Kept P c c' → SlicedColl P (.position n c) (.position n c')
  | euler (n : Bytes) {c c' : List (F64 × V3)} : Kept P c c' → SlicedColl P (.euler n c) (.euler n c')
  | event (n : Bytes) {c c' : List (F64 × Bytes × Block)} : Kept P c c' → SlicedColl P (.event n c) (.event n c')
  | enum (n : Bytes) (m : List Bytes) {c c' : List (F64 × BitVec 64)} : Kept P c c' →
      SlicedColl P (.enum n m c) (.enum n m c')
  | float (n : Bytes) {c c' : List (F64 × F64)} : Kept P c c' → SlicedColl P (.float n c) (.float n c')
  | other (s n : Bytes) {c c' : List (F64 × Bytes)} : Kept P c c' → SlicedColl P (.other s n c) (.other s n c')

/-- The same tree with only those captures, and with or without binaries. -/
inductive Sliced (P : F64 → Prop) (keep : Bool) : Rec → Rec → Prop where
  | mk {id name : Bytes} {colls colls' : List Coll} {recs recs' : List Rec} {md : Block} {bins : List (Option Bin)}
      {refs : List (Option BinRef)} : List.Forall₂ (SlicedColl P) colls colls' →
      List.Forall₂ (Sliced P keep) recs recs' →
      Sliced P keep (.mk id name (colls.map some) recs md bins refs)
        (.mk id name (colls'.map some) recs' md (if keep then bins else []) refs)

/-- Among several options of one kind the last one counts. -/
def beginningOf (options : List SliceOption) : F64 :=
  (options.filterMap fun o => match o with | .beginning t => some t | _ => none).getLastD 0xFFF0000000000000
/-- See `beginningOf`. -/
def endingOf (options : List SliceOption) : F64 :=
  (options.filterMap fun o => match o with | .ending t => some t | _ => none).getLastD 0x7FF0000000000000
/-- See `beginningOf`. -/
def keepsBinaries (options : List SliceOption) : Bool :=
  (options.filterMap fun o => match o with | .keepBinaries k => some k | _ => none).getLastD true

/-- What a capture holds besides its time. -/
inductive Datum where
  | vector (v : V3)
  | event (name : Bytes) (md : Block)
  | member (i : BitVec 64)
  | value (x : F64)
  | opaque (b : Bytes)

/-- The captures of a collection. -/
def Coll.captures : Coll → List (F64 × Datum)
  | .position _ c => c.map fun x => (x.1, .vector x.2)
  | .euler _ c => c.map fun x => (x.1, .vector x.2)
  | .event _ c => c.map fun x => (x.1, .event x.2.1 x.2.2)
  | .enum _ _ c => c.map fun x => (x.1, .member x.2)
  | .float _ c => c.map fun x => (x.1, .value x.2)
  | .other _ _ c => c.map fun x => (x.1, .opaque x.2)

/-- No capture is earlier than its predecessor. -/
def ChronoTimes (ts : List F64) : Prop :=
  ∀ (i : Nat) (s t : F64), ts[i]? = some s → ts[i + 1]? = some t → ¬ (number64 t).lt (number64 s)

/-- Every collection of the tree is chronological. -/
def Chronological (rec : Rec) : Prop := ∀ r c, Within r rec → some c ∈ r.colls → ChronoTimes c.times

/-- `t` is the time of a capture of the tree. -/
def TimeOf (rec : Rec) (t : F64) : Prop := ∃ r c, Within r rec ∧ some c ∈ r.colls ∧ t ∈ c.times

end Rap
