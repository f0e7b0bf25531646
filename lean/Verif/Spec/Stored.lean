import Verif.Spec.Recording

/-!
# Specification: what a file stores of a collection

For each storage technique, the values a reader gets back. The error bounds of the lossy ones are theorems of their
own (`Props/Quantise.lean`).
-/

namespace Rap

/-- The nearest float32. -/
def near32 (x : F64) : F64 := widen (narrow x)

/-- The nearest float32 of each component. -/
def V3.near32 (v : V3) : V3 := ⟨Rap.near32 v.x, Rap.near32 v.y, Rap.near32 v.z⟩

/-! ## Times -/

/-- The 16-bit codes of the times after the first, with drift correction. -/
def timeCodes (gap : F64) : (total : F64) → List F64 → List Bytes
  | _, [] => []
  | total, t :: ts =>
    let b := bstEnc (t.sub total) 0 gap 2
    b :: timeCodes gap (total.add (bstDec 0 gap b)) ts

/-- Adding up coded differences. -/
def timeSums (gap : F64) : (cur : F64) → List Bytes → List F64
  | _, [] => []
  | cur, b :: bs =>
    let cur := cur.add (bstDec 0 gap b)
    cur :: timeSums gap cur bs

/-- Times with technique BST16. -/
def bstTimes : List F64 → List F64
  | [] => []
  | [t] => [near32 (startTime [t])]
  | t :: ts =>
    near32 (startTime (t :: ts)) ::
      timeSums (near32 (maxGap (t :: ts))) (near32 (startTime (t :: ts)))
        (timeCodes (maxGap (t :: ts)) (startTime (t :: ts)) ts)

/-- The times read back with each of the time storage techniques Raw64, Raw32, BST16. -/
def storedTimes (tech : Nat) (ts : List F64) : List F64 :=
  if tech = 0 then ts else if tech = 1 then ts.map near32 else bstTimes ts

/-! ## Captures -/

/-- The cells chosen for the positions after the first, following the quantised position `q`. -/
def octChoices (n : Nat) (min max : V3) : (q : V3) → List V3 → List (List UInt8)
  | _, [] => []
  | q, p :: ps =>
    let cells := vec3ToOctCells (p.sub q) min max (8 * n)
    cells :: octChoices n min max (q.add (octCellsToVec3 min max cells)) ps

/-- Adding up the differences denoted by cells. -/
def octSums (min max : V3) : (cur : V3) → List (List UInt8) → List V3
  | _, [] => []
  | cur, cells :: rest =>
    let cur := cur.add (octCellsToVec3 min max cells)
    cur :: octSums min max cur rest

/-- Positions with the oct-tree techniques (`n = 1` is Oct24, `n = 2` is Oct48). -/
def octStored (n : Nat) : List V3 → List V3
  | [] => []
  | [p] => [p.near32]
  | p :: ps =>
    p.near32 :: octSums (octMin (p :: ps)).near32 (octMax (p :: ps)).near32 p.near32
      (octChoices n (octMin (p :: ps)) (octMax (p :: ps)) p ps)

/-- Positions with Raw64, Raw32, Oct48, Oct24. -/
def storedPositions (tech : Nat) (vs : List V3) : List V3 :=
  if tech = 0 then vs else if tech = 1 then vs.map V3.near32 else if tech = 2 then octStored 2 vs else octStored 1 vs

/-- An angle in 16 bits. -/
def angle16 (a : F64) : F64 := bstDec 0 f360 (bstEnc (wrapEuler a) 0 f360 2)

/-- Rotations with Raw16; a single one is kept as float32. -/
def stored16 : List V3 → List V3
  | [v] => [(⟨wrapEuler v.x, wrapEuler v.y, wrapEuler v.z⟩ : V3).near32]
  | vs => vs.map fun v => ⟨angle16 v.x, angle16 v.y, angle16 v.z⟩

/-- Rotations with Raw64, Raw32, Raw16. -/
def storedRotations (tech : Nat) (vs : List V3) : List V3 :=
  if tech = 0 then vs else if tech = 1 then vs.map V3.near32 else stored16 vs

/-- Floats with BST16. -/
def bstFloats (vs : List F64) : List F64 :=
  let min := vs.foldl fmin F64.inf
  let max := vs.foldl fmax F64.ninf
  vs.map fun v => bstDec (near32 min) (widen ((narrow max).sub (narrow min))) (bstEnc v min (max.sub min) 2)

/-- Floats with Raw64, Raw32, BST16. -/
def storedFloats (tech : Nat) (vs : List F64) : List F64 :=
  if tech = 0 then vs else if tech = 1 then vs.map near32 else bstFloats vs

/-- The encoders of the package with their techniques. -/
inductive Builtin where
  | event
  | enum
  | position (tech : Fin 4)
  | euler (tech : Fin 3)
  | float (tech : Fin 3)
  deriving DecidableEq, Repr

/-- The encoder value. -/
def Builtin.encoder : Builtin → Encoder
  | .event => eventEncoder
  | .enum => enumEncoder
  | .position t => positionEncoder t.val
  | .euler t => eulerEncoder t.val
  | .float t => floatEncoder t.val

/-- The collection read back when `c` was stored by the encoder and its times came back as `ts`. -/
def Builtin.stored : Builtin → Coll → (ts : List F64) → Coll
  | .event, .event n caps, ts => .event n (ts.zip (caps.map (·.2)))
  | .enum, .enum n ms caps, ts => .enum n ms (ts.zip (caps.map (·.2)))
  | .position t, .position n caps, ts => .position n (ts.zip (storedPositions t.val (caps.map (·.2))))
  | .euler t, .euler n caps, ts => .euler n (ts.zip (storedRotations t.val (caps.map (·.2))))
  | .float t, .float n caps, ts => .float n (ts.zip (storedFloats t.val (caps.map (·.2))))
  -- foreign collections without captures that use a signature of the package
  | .event, c, _ => .event c.name []
  | .enum, c, _ => c
  | .position _, c, _ => .position c.name []
  | .euler _, c, _ => .euler c.name []
  | .float _, c, _ => .float c.name []

/-- The relation between a writing and a reading encoder: whatever the first one encodes, the second one decodes
to `view`. -/
def Decodes (e e' : Encoder) (view : Coll → List F64 → Coll) : Prop :=
  ∀ (cs : List Coll) (h : Bytes) (bs : List Bytes), (∀ c ∈ cs, GoodColl c) → e.encode cs = .ok (.ok (h, bs)) →
    h.length ≤ sizeLimit →
    bs.length = cs.length ∧ ∀ (j : Nat) (c : Coll) (b : Bytes), cs[j]? = some c → bs[j]? = some b →
      b.length ≤ sizeLimit → ∀ ts : List F64, ts.length = c.times.length →
        e'.decode c.name h b ts = .ok (some (view c ts), none)

/-! ## Recordings -/

mutual
/-- The collections of a tree: a recording's own, then those of its children. -/
def Rec.flat : Rec → List Coll
  | .nil => []
  | .mk _ _ colls recs _ _ _ => colls.filterMap id ++ Rec.flatList recs
/-- The same for a list of recordings. -/
def Rec.flatList : List Rec → List Coll
  | [] => []
  | r :: rs => r.flat ++ Rec.flatList rs
end

mutual
/-- Every collection of the tree replaced; nothing else changes. -/
def Rec.mapColls (f : Coll → Coll) : Rec → Rec
  | .nil => .nil
  | .mk id name colls recs md bins refs =>
    .mk id name (colls.map (Option.map f)) (Rec.mapCollsList f recs) md bins refs
/-- The same for a list of recordings. -/
def Rec.mapCollsList (f : Coll → Coll) : List Rec → List Rec
  | [] => []
  | r :: rs => r.mapColls f :: Rec.mapCollsList f rs
end

/-! ## Encoders of writer and reader -/

/-- The encoder for a collection: the first one registered that accepts it. -/
def chosen (encs : List Encoder) (c : Coll) : Option Encoder := encs.find? fun e => e.accepts c

/-- Encoders used for collections are told apart by their signatures. -/
def SigDetermines (encs : List Encoder) : Prop :=
  ∀ c c' e e', chosen encs c = some e → chosen encs c' = some e' → e.sig = e'.sig → e = e'

/-- A reader with these encoders understands what `e` writes, as `view`. -/
def CanRead (registered : List Encoder) (e : Encoder) (view : Coll → List F64 → Coll) : Prop :=
  e.version < 2 ^ 64 ∧ (∃ e' ∈ registered, e'.sig = e.sig) ∧
    ∀ e' ∈ registered, e'.sig = e.sig → e.version ≤ e'.version ∧ Decodes e e' view

/-- A reader with the encoders `registered` understands all collections of `rec` written with the encoders `encs`, and
sees them as `view` says. -/
def Understands (encs registered : List Encoder) (view : Coll → List F64 → Coll) (rec : Rec) : Prop :=
  ∀ e, (∃ c ∈ rec.flat, chosen encs c = some e) →
    ∃ v, CanRead registered e v ∧ ∀ c ts, chosen encs c = some e → view c ts = v c ts

/-- The encoder produces a block for each of the collections of a tree it is chosen for. -/
def Encodable (encs : List Encoder) (rec : Rec) : Prop :=
  ∀ e, ∀ cs : List Coll, cs ≠ [] → (∀ c ∈ cs, c ∈ rec.flat ∧ chosen encs c = some e) →
    ∃ h bs, e.encode cs = .ok (.ok (h, bs)) ∧ bs.length = cs.length

/-- Collections of the package's own types. -/
def Native : Coll → Prop
  | .other .. => False
  | _ => True

/-- The first of the encoders accepting a collection. -/
def Builtin.chosen (bs : List Builtin) (c : Coll) : Option Builtin := bs.find? fun b => b.encoder.accepts c

/-- What a file written with the encoders `ws` and time technique `tech` says about a collection. -/
def storedColl (ws : List Builtin) (c : Coll) (ts : List F64) : Coll :=
  match Builtin.chosen ws c with
  | some b => b.stored c ts
  | none => c

end Rap
