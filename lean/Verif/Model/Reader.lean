import Verif.Model.Time
import Verif.Model.RapV1
import Verif.Model.Sink

/-!
# format/io/reader.go and load.go
-/

namespace Rap

/-- The version loop of `readEncoders` (format/io/reader.go:36-44): versions, bytes, error. -/
def readVersions : Nat → (total : Nat) → Prog (List Nat × Nat × Option Err)
  | 0, total => pure ([], total, none)
  | n + 1, total => do
    let (val, read, err) ← readUvarint
    match err with
    | some e => pure ([], total, some e)
    | none =>
      let (vs, total, err) ← readVersions n (total + read)
      pure (val :: vs, total, err)

/-- The search for one encoder (format/io/reader.go:48-66): the last registered encoder of that signature; an error if
any of them is too old. `found` is the one found so far. -/
def findEncoder (sig : Bytes) (version : Nat) : List Encoder → (found : Option Encoder) → Except Err Encoder
  | [], some e => .ok e
  | [], none => .error .unknownEncoder
  | e :: es, found =>
    if e.sig = sig then
      if version ≤ e.version then findEncoder sig version es (some e)
      else .error .oldEncoder
    else findEncoder sig version es found

/-- The loop over the signatures found (format/io/reader.go:46-67). -/
def findEncoders (registered : List Encoder) : List Bytes → List Nat → Except Err (List Encoder)
  | sig :: sigs, v :: vs =>
    match findEncoder sig v registered none with
    | .error e => .error e
    | .ok e =>
      match findEncoders registered sigs vs with
      | .error e => .error e
      | .ok es => .ok (e :: es)
  | _, _ => .ok []

/-- `readEncoders` (format/io/reader.go:27-70). -/
def readEncoders (registered : List Encoder) : Prog (Except Err (List Encoder) × Nat) := do
  let (sigs, read, err) ← readStringArray
  match err with
  | some e => pure (.error e, read)
  | none =>
    let (versions, total, err) ← readVersions sigs.length read
    match err with
    | some e => pure (.error e, total)
    | none => pure (findEncoders registered sigs versions, total)

/-- The loop of `readRecordingMetadataBlock` (format/io/reader.go:80-85). -/
def readMdLoop (fuel : Nat) (keys : List Bytes) : List Nat → Block → Prog (Except Err Block)
  | [], acc => pure (.ok acc)
  | i :: is, acc =>
    match keys[i]? with
    | none => .panic .indexOutOfRange
    | some k => do
      match ← readProperty fuel with
      | .error e => pure (.error e)
      | .ok p => readMdLoop fuel keys is (mapSet acc k p)

/-- `readRecordingMetadataBlock` (format/io/reader.go:72-88). -/
def readMetadata (fuel : Nat) (keys : List Bytes) : Prog (Except Err Block) := do
  let (is, _, err) ← readUvarIntArray
  match err with
  | some e => pure (.error e)
  | none => readMdLoop fuel keys is []

/-- `block, _ := readRecordingMetadataBlock(..)`: the empty block on an error (format/io/reader.go:131, 145). -/
def blockOrEmpty : Except Err Block → Block
  | .ok b => b
  | .error _ => []

/-- Tables the reader keeps while building recordings. -/
structure RTables where
  keys : List Bytes
  /-- `encoders` and `headers`, index by index -/
  encs : List (Encoder × Bytes)
  /-- fuel for nested metadata -/
  fuel : Nat

/-- The stream loop (format/io/reader.go:111-120); the error of `Decode` is dropped. -/
def readStreams (T : RTables) : Nat → Prog (List (Option Coll))
  | 0 => pure []
  | n + 1 => do
    let (idx, _, _) ← readUvarint
    let (name, _, _) ← readString
    let (times, _) ← decTime
    let (body, _, _) ← readBytesArray
    match T.encs[idx]? with
    | none => .panic .indexOutOfRange
    | some (enc, header) =>
      let (stream, _) ← Prog.ofGo (enc.decode name header body times)
      let rest ← readStreams T n
      pure (stream :: rest)

/-- The reference loop (format/io/reader.go:126-134). -/
def readRefs (T : RTables) : Nat → Prog (List (Option BinRef))
  | 0 => pure []
  | n + 1 => do
    let (name, _, _) ← readString
    let (uri, _, _) ← readString
    let (size, _, _) ← readUvarint
    let md ← readMetadata T.fuel T.keys
    let rest ← readRefs T n
    pure (some ⟨name, uri, size, blockOrEmpty md⟩ :: rest)

/-- The binary loop (format/io/reader.go:140-151); bytes not read stay 0. -/
def readBins (T : RTables) : Nat → Prog (List (Option Bin))
  | 0 => pure []
  | n + 1 => do
    let (name, _, _) ← readString
    let (size, _, _) ← readUvarint
    let md ← readMetadata T.fuel T.keys
    Prog.make size 1
    .readFull size fun got _ => do
      let rest ← readBins T n
      pure (some (newBinary name (got ++ List.replicate (size - got.length) 0) (blockOrEmpty md)) :: rest)

/-- The loop over child recordings (format/io/reader.go:157-163). -/
def readChildren (rd : Prog (Except Err Rec)) : Nat → Prog (Except Err (List Rec))
  | 0 => pure (.ok [])
  | n + 1 => do
    match ← rd with
    | .error e => pure (.error e)
    | .ok r =>
      match ← readChildren rd n with
      | .error e => pure (.error e)
      | .ok rs => pure (.ok (r :: rs))

/-- `recursiveBuidRecordings` (format/io/reader.go:90-166), to be run on an `ErrReader`. The Go code wraps the
`ErrReader` into another one for each child; such a wrapper hands through exactly the bytes and errors of the
one it wraps and a child always reads, so all levels share one here. The recursion depth is bounded by `fuel`. -/
def buildRec (T : RTables) : (fuel : Nat) → Prog (Except Err Rec)
  | 0 => .panic .outOfFuel
  | fuel + 1 => do
    let (id, _, _) ← readString
    let (name, _, _) ← readString
    match ← readMetadata T.fuel T.keys with
    | .error e => pure (.error e)
    | .ok md =>
      let (numStreams, _, _) ← readUvarint
      Prog.make numStreams 16
      let colls ← readStreams T numStreams
      let (numRefs, _, _) ← readUvarint
      Prog.make numRefs 16
      let refs ← readRefs T numRefs
      let (numBins, _, _) ← readUvarint
      Prog.make numBins 16
      let bins ← readBins T numBins
      let (numRecs, _, _) ← readUvarint
      Prog.make numRecs 16
      match ← readChildren (buildRec T fuel) numRecs with
      | .error e => pure (.error e)
      | .ok recs => .erErr fun e =>
        match e with
        | some e => .pure (.error e)
        | none => .pure (.ok (.mk id name colls recs md bins refs))

/-- The header loop (format/io/reader.go:210-218). -/
def readHeaders : Nat → (total : Nat) → Prog (Except Err (List Bytes) × Nat)
  | 0, total => pure (.ok [], total)
  | n + 1, total => do
    let (header, read, err) ← readBytesArray
    match err with
    | some e => pure (.error e, total + read)
    | none =>
      match ← readHeaders n (total + read) with
      | (.error e, total) => pure (.error e, total)
      | (.ok hs, total) => pure (.ok (header :: hs), total)

/-- A source whose remaining bytes and final error can be named. -/
class Drain (σ : Type) extends Src σ where
  rest : σ → Bytes × Err

instance : Drain Flat where
  rest s := (s.data, s.fin)

instance : Drain Chunked where
  rest s := (s.chunks.flatten, s.fin)

/-- Headers and key table (format/io/reader.go:210-225). -/
def readTables (encs : List Encoder) (total : Nat) : Prog (Except Err (List Bytes × List Bytes) × Nat) := do
  match ← readHeaders encs.length total with
  | (.error e, total) => pure (.error e, total)
  | (.ok headers, total) =>
    let (keys, read, err) ← readStringArray
    match err with
    | some e => pure (.error e, total + read)
    | none => pure (.ok (headers, keys), total + read)

/-- `Read` from line 210 on (format/io/reader.go:210-234), on `readcloser`. -/
def readBody {σ : Type} [Drain σ] (encs : List Encoder) (total : Nat) (s : σ) : Go ((Rec × Nat × Option Err) × σ) := do
  match ← (readTables encs total).run s with
  | ((.error e, total), s) => .ok ((.nil, total, some e), s)
  | ((.ok (headers, keys), total), s) =>
    let fuel := (Drain.rest s).1.length + 2
    let (r, er) ← (buildRec ⟨keys, encs.zip headers, fuel⟩ fuel).run (ER.new s)
    match r with
    | .error e => .ok ((.nil, total + er.n, some e), er.src)
    | .ok rec => .ok ((rec, total + er.n, none), er.src)

/-- The first part of `Read` (format/io/reader.go:173-203), up to the compression flag: result of a finished call, or
encoders, flag and count so far. -/
def readPrelude (X : Ext) (unmarshal : Bytes → Except Err V1.Recording) (registered : List Encoder) :
    Prog ((Rec × Nat × Option Err) ⊕ (List Encoder × UInt8 × Nat)) :=
  .read 1 fun got err =>
    match err with
    | some e => .pure (.inl (.nil, got.length, some e))
    | none =>
      let version := (got.headD 0).toNat
      let total := got.length
      if version = 1 then do
        let (rec, read, err) ← V1.readRecording X unmarshal
        pure (.inl (rec, read + total, err))
      else if version ≠ 2 then .pure (.inl (.nil, total, some (.badVersion version)))
      else do
        match ← readEncoders registered with
        | (.error e, read) => pure (.inl (.nil, total + read, some e))
        | (.ok encs, read) =>
          let total := total + read
          .read 1 fun got err =>
            match err with
            | some e => .pure (.inl (.nil, total + got.length, some e))
            | none => .pure (.inr (encs, got.headD 0, total + got.length))

/-- `Reader.Read` (format/io/reader.go:168-235), with `GetRecoringVersion` (load.go:14-23): recording (nil on error),
bytes read, error; and the source afterwards. How much of a compressed source `flate` has consumed is not modelled:
the source is then reported as it was when decompression started. -/
def read {σ : Type} [Drain σ] (F : Flate) (X : Ext) (unmarshal : Bytes → Except Err V1.Recording)
    (registered : List Encoder) (s : σ) : Go ((Rec × Nat × Option Err) × σ) := do
  match ← (readPrelude X unmarshal registered).run s with
  | (.inl r, s) => .ok (r, s)
  | (.inr (encs, flag, total), s) =>
    if flag = 1 then do
      let r := F.inflate (Drain.rest s).1 (Drain.rest s).2
      let (res, _) ← readBody encs total (⟨r.1, r.2⟩ : Flat)
      .ok (res, s)
    else readBody encs total s

end Rap
