import Verif.Model.Time
import Verif.Model.Sink

/-!
# format/io/writer.go
-/

namespace Rap

/-- `Writer` (format/io/writer.go:53-58) without its output. -/
structure WriterCfg where
  encoders : List Encoder
  /-- `timeStorageTechnique` -/
  tech : Nat
  compress : Bool

/-- `encoderCollectionMapping` (format/io/writer.go:47-51). -/
structure Mapping where
  encoder : Encoder
  colls : List Coll
  order : List Nat

/-- All elements, if none is nil. -/
def allSome {α : Type} : List (Option α) → Option (List α)
  | [] => some []
  | none :: _ => none
  | some a :: l =>
    match allSome l with
    | none => none
    | some as => some (a :: as)

mutual
/-- `calcNumStreams` (format/io/writer.go:86-92). Nil recordings do not occur: `checkForNilInterfaces` runs before. -/
def calcNumStreams : Rec → Nat
  | .nil => 0
  | .mk _ _ colls recs _ _ _ => colls.length + calcNumStreamsList recs
/-- The loop of `calcNumStreams` (88-90). -/
def calcNumStreamsList : List Rec → Nat
  | [] => 0
  | r :: rs => calcNumStreams r + calcNumStreamsList rs
end

/-- The metadata blocks of references or binaries; nil ones do not occur (see `calcNumStreams`). -/
def optBlocks {α : Type} (f : α → Block) : List (Option α) → List Block
  | [] => []
  | none :: l => optBlocks f l
  | some a :: l => f a :: optBlocks f l

mutual
/-- The metadata blocks whose maps `accumulateMetdataKeys` ranges over, in the order it does
(format/io/writer.go:96-127). -/
def visitedBlocks : Rec → List Block
  | .nil => []
  | .mk _ _ _ recs md bins refs =>
    md :: (optBlocks BinRef.md refs ++ optBlocks Bin.md bins ++ visitedBlocksList recs)
/-- The loop over child recordings (124-126). -/
def visitedBlocksList : List Rec → List Block
  | [] => []
  | r :: rs => visitedBlocks r ++ visitedBlocksList rs
end

/-- `accumulateMetdataKeys` (format/io/writer.go:96-127): `orders` lists, for each visited block, the keys in the order
the runtime iterates the map at this point (it need not be the order used when the block is written). The result is
`allKeys` (438-441), the keys by index. -/
def accumulateKeys (orders : List (List Bytes)) : List Bytes := (dictAddAll [] orders.flatten).1

/-- The scan for streams of one encoder (format/io/writer.go:141-148): `i` is `streamIndex+offset`, the flag is
`streamsSatisfied`. Returns collections, orders and the updated flags. -/
def pickStreams (e : Encoder) : (i : Nat) → List (Coll × Bool) → List Coll × List Nat × List (Coll × Bool)
  | _, [] => ([], [], [])
  | i, (c, sat) :: rest =>
    match pickStreams e (i + 1) rest with
    | (cs, os, rest') =>
      if !sat && e.accepts c then (c :: cs, i :: os, (c, true) :: rest')
      else (cs, os, (c, sat) :: rest')

/-- The loop over encoders (format/io/writer.go:139-153). -/
def ownMappings : List Encoder → (offset : Nat) → List (Coll × Bool) → List Mapping × List (Coll × Bool)
  | [], _, flags => ([], flags)
  | e :: es, offset, flags =>
    match pickStreams e offset flags with
    | (cs, os, flags1) =>
      match ownMappings es offset flags1 with
      | (ms, flags2) => (if cs.isEmpty then ms else ⟨e, cs, os⟩ :: ms, flags2)

/-- Merging one mapping of a child (format/io/writer.go:170-180): into every own mapping of the same signature, or as a
new one. -/
def mergeMapping (ms : List Mapping) (m : Mapping) : List Mapping :=
  if ms.any fun o => o.encoder.sig == m.encoder.sig then
    ms.map fun o =>
      if o.encoder.sig == m.encoder.sig then { o with colls := o.colls ++ m.colls, order := o.order ++ m.order } else o
  else ms ++ [m]

mutual
/-- `evaluateCollections` (format/io/writer.go:129-185). -/
def evaluateCollections (encs : List Encoder) : Rec → (offset : Nat) → Go (Except Err (List Mapping × Nat))
  | .nil, _ => .error .nilDeref
  | .mk _ _ colls recs _ _ _, offset =>
    match allSome colls with
    | none => .ok (.error .nilItem)
    | some cs =>
      match ownMappings encs offset (cs.map fun c => (c, false)) with
      | (ms, flags) =>
        if flags.any fun f => !f.2 then .ok (.error .noEncoder)
        else evaluateChildren encs recs ms (offset + colls.length)
/-- The loop over child recordings (163-182). -/
def evaluateChildren (encs : List Encoder) :
    List Rec → List Mapping → (curOffset : Nat) → Go (Except Err (List Mapping × Nat))
  | [], ms, cur => .ok (.ok (ms, cur))
  | r :: rs, ms, cur => do
    match ← evaluateCollections encs r cur with
    | .error e => .ok (.error e)
    | .ok (childMs, newOffset) => evaluateChildren encs rs (childMs.foldl mergeMapping ms) newOffset
end

/-- The value buffer of `writeMetadata` (format/io/writer.go:190-197). -/
def metadataValues : Block → Go Bytes
  | [] => .ok []
  | (_, v) :: kvs => do
    let b ← v.bytes
    let rest ← metadataValues kvs
    .ok (b ++ rest)

/-- `keyMappingToIndex[key]`; 0 for a missing key. -/
def keyIndex (keys : List Bytes) (k : Bytes) : Nat := if k ∈ keys then keys.idxOf k else 0

/-- `writeMetadata` (format/io/writer.go:187-214). -/
def writeMetadata (keys : List Bytes) (block : Block) : WProg Unit := do
  let values ← WProg.ofGo (metadataValues block)
  let (_, err) ← WProg.put (uvarintArrayToBytes (block.map fun kv => keyIndex keys kv.1))
  match err with
  | some _ => pure ()
  | none => do
    let _ ← WProg.put values
    pure ()

/-- Indexing a slice. -/
def goGet {α : Type} (l : List α) (i : Nat) : Go α :=
  match l[i]? with
  | none => .error .indexOutOfRange
  | some a => .ok a

/-- What stays fixed while the tree is written: key table, encoded blocks and encoder index per stream, time
technique. -/
structure Tables where
  keys : List Bytes
  blocks : List Bytes
  encIdx : List Nat
  tech : Nat

/-- The stream loop of `recurseRecordingToBytes` (format/io/writer.go:262-273); `i` is `offset+streamIndex`. -/
def writeStreams (T : Tables) : (i : Nat) → List (Option Coll) → WProg Unit
  | _, [] => pure ()
  | i, c :: cs => do
    let idx ← WProg.ofGo (goGet T.encIdx i)
    let _ ← WProg.put (putUvarint (u64 idx))
    match c with
    | none => .panic .nilDeref
    | some c =>
      let _ ← WProg.put (stringToBytes c.name)
      let _ ← WProg.put (encTime T.tech c.times)
      let block ← WProg.ofGo (goGet T.blocks i)
      let _ ← WProg.put (bytesArrayToBytes block)
      writeStreams T (i + 1) cs

/-- The reference loop (format/io/writer.go:281-290). -/
def writeRefs (T : Tables) : List (Option BinRef) → WProg Unit
  | [] => pure ()
  | none :: _ => .panic .nilDeref
  | some r :: rs => do
    let _ ← WProg.put (stringToBytes r.name)
    let _ ← WProg.put (stringToBytes r.uri)
    let _ ← WProg.put (putUvarint (u64 r.size))
    writeMetadata T.keys r.md
    writeRefs T rs

/-- `io.Copy(ew, bin.Data())` for a `bytes.Reader` (its `WriteTo`): one `Write` unless there is nothing to
write. Returns the count. -/
def ioCopy (data : Bytes) : WProg Nat :=
  if data.isEmpty then pure 0 else do
    let (n, _) ← WProg.put data
    pure n

/-- The binary loop (format/io/writer.go:298-311). -/
def writeBins (T : Tables) : List (Option Bin) → WProg Unit
  | [] => pure ()
  | none :: _ => .panic .nilDeref
  | some b :: bs => do
    let _ ← WProg.put (stringToBytes b.name)
    let _ ← WProg.put (putUvarint (u64 b.size))
    writeMetadata T.keys b.md
    let n ← ioCopy b.data
    if n ≠ b.size then .panic .message
    else writeBins T bs

mutual
/-- `recurseRecordingToBytes` (format/io/writer.go:244-329): the new offset, or the error. The Go code wraps
`out` into a further `errWriter` for every child; such a wrapper reports exactly the error and
bytes of the one it wraps because a child always writes, so all levels share one `errWriter` here (see
`Proof/Sink.lean`, `nested_errWriter`). -/
def recurseWrite (T : Tables) : Rec → (offset : Nat) → WProg (Except Err Nat)
  | .nil, _ => .panic .nilDeref
  | .mk id name colls recs md bins refs, offset => do
    let _ ← WProg.put (stringToBytes id)
    let _ ← WProg.put (stringToBytes name)
    writeMetadata T.keys md
    let _ ← WProg.put (putUvarint (u64 colls.length))
    writeStreams T offset colls
    let _ ← WProg.put (putUvarint (u64 refs.length))
    writeRefs T refs
    let _ ← WProg.put (putUvarint (u64 bins.length))
    writeBins T bins
    let _ ← WProg.put (putUvarint (u64 recs.length))
    match ← recurseWriteList T recs (offset + colls.length) with
    | .error e => pure (.error e)
    | .ok newOffset => .err fun e =>
      match e with
      | some e => .pure (.error e)
      | none => .pure (.ok newOffset)
/-- The loop over child recordings (320-326). -/
def recurseWriteList (T : Tables) : List Rec → (offset : Nat) → WProg (Except Err Nat)
  | [], offset => pure (.ok offset)
  | r :: rs, offset => do
    match ← recurseWrite T r offset with
    | .error e => pure (.error e)
    | .ok offset => recurseWriteList T rs offset
end

mutual
/-- `checkForNilInterfaces` (format/io/writer.go:331-356). -/
def checkForNil : Rec → Option Err
  | .nil => some .nilItem
  | .mk _ _ _ recs _ bins refs =>
    if refs.any Option.isNone then some .nilItem
    else if bins.any Option.isNone then some .nilItem
    else checkForNilList recs
/-- The loop over child recordings (348-353). -/
def checkForNilList : List Rec → Option Err
  | [] => none
  | r :: rs =>
    match checkForNil r with
    | some e => some e
    | none => checkForNilList rs
end

/-- The version loop of `writeEncoders` (format/io/writer.go:232-239). -/
def writeVersions {σ : Type} [Snk σ] : List Mapping → (total : Nat) → σ → Nat × Option Err × σ
  | [], total, s => (total, none, s)
  | m :: ms, total, s =>
    match Snk.write (putUvarint (u64 m.encoder.version)) s with
    | (n, some e, s') => (total + n, some e, s')
    | (n, none, s') => writeVersions ms (total + n) s'

/-- `writeEncoders` (format/io/writer.go:216-242). -/
def writeEncoders {σ : Type} [Snk σ] (ms : List Mapping) (s : σ) : Nat × Option Err × σ :=
  match Snk.write (stringArrayToBytes (ms.map fun m => m.encoder.sig)) s with
  | (n, some e, s') => (n, some e, s')
  | (n, none, s') => writeVersions ms n s'

/-- `a[i] = v` -/
def goSet {α : Type} (l : List α) (i : Nat) (v : α) : Go (List α) :=
  if i < l.length then .ok (l.set i v) else .error .indexOutOfRange

/-- The assignment loop of `Write` (format/io/writer.go:422-425); `k` is the encoder index. -/
def assignBlocks (k : Nat) : List Nat → List Bytes → List Bytes × List Nat → Go (List Bytes × List Nat)
  | [], _, acc => .ok acc
  | _ :: _, [], _ => .error .indexOutOfRange
  | o :: os, b :: bs, (blocks, idx) => do
    let blocks ← goSet blocks o b
    let idx ← goSet idx o k
    assignBlocks k os bs (blocks, idx)

/-- The loop over the encoders used (format/io/writer.go:416-433): encoded blocks and encoder indexes per stream; each
header is written as soon as it is known. -/
def writeHeaders {ω : Type} [Snk ω] : List Mapping → (k : Nat) → List Bytes × List Nat → (total : Nat) → ω →
    Go (Nat × Except Err (List Bytes × List Nat) × ω)
  | [], _, acc, total, w => .ok (total, .ok acc, w)
  | m :: ms, k, acc, total, w => do
    match ← m.encoder.encode m.colls with
    | .error e => .ok (total, .error e, w)
    | .ok (header, streams) =>
      let acc ← assignBlocks k m.order streams acc
      match Snk.write (bytesArrayToBytes header) w with
      | (n, some e, w') => .ok (total + n, .error e, w')
      | (n, none, w') => writeHeaders ms (k + 1) acc (total + n) w'

/-- `Write` from line 412 on (format/io/writer.go:412-460), given the `compressWriter`. -/
def writeBody {ω σ : Type} [Snk σ] [WC ω σ] (tech : Nat) (orders : List (List Bytes)) (rec : Rec) (ms : List Mapping)
    (total : Nat) (w : ω) : Go (Nat × Option Err × σ) := do
  let num := calcNumStreams rec
  match ← writeHeaders ms 0 (List.replicate num [], List.replicate num 0) total w with
  | (total, .error e, w) => .ok (total, some e, WC.under w)
  | (total, .ok (blocks, idx), w) =>
    let keys := accumulateKeys orders
    match Snk.write (stringArrayToBytes keys) w with
    | (n, some e, w) => .ok (total + n, some e, WC.under w)
    | (n, none, w) =>
      let total := total + n
      let (r, ew) ← (recurseWrite ⟨keys, blocks, idx, tech⟩ rec 0).run (EW.new w)
      let total := total + ew.n
      match r with
      | .error e => .ok (total, some e, WC.under ew.sink)
      | .ok _ =>
        match WC.close ew.sink with
        | (err, s) => .ok (total, err, s)

/-- `Writer.Write` (format/io/writer.go:360-461): count, error, and the output afterwards. `F` is
`compress/flate`; `orders` see `accumulateKeys`. -/
def write {σ : Type} [Snk σ] (F : Flate) (cfg : WriterCfg) (orders : List (List Bytes)) (rec : Rec) (out : σ) :
    Go (Nat × Option Err × σ) :=
  match rec with
  | .nil => .error .message
  | rec =>
    match checkForNil rec with
    | some e => .ok (0, some e, out)
    | none => do
      match ← evaluateCollections cfg.encoders rec 0 with
      | .error e => .ok (0, some e, out)
      | .ok (ms, _) =>
        match Snk.write [2] out with
        | (n, some e, out) => .ok (n, some e, out)
        | (total, none, out) =>
          match writeEncoders ms out with
          | (n, some e, out) => .ok (total + n, some e, out)
          | (n, none, out) =>
            let total := total + n
            if cfg.compress then
              match Snk.write [1] out with
              | (n, some e, out) => .ok (total + n, some e, out)
              | (n, none, out) =>
                writeBody cfg.tech orders rec ms (total + n) (⟨out, F.init, none⟩ : FW F σ)
            else
              match Snk.write [0] out with
              | (n, some e, out) => .ok (total + n, some e, out)
              | (n, none, out) =>
                writeBody cfg.tech orders rec ms (total + n) (EW.new out)

/-- The encoders of `NewRecoludeWriter` (format/io/writer.go:62-74). -/
def defaultEncoders : List Encoder := [eventEncoder, positionEncoder 2, eulerEncoder 1, enumEncoder]

/-- `NewRecoludeWriter` (format/io/writer.go:62-74). -/
def recoludeWriter : WriterCfg := ⟨defaultEncoders, 2, true⟩

end Rap
