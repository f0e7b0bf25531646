import Verif.Model.Recording
import Verif.Model.Bst

/-!
# The encoders, format/encoding/*
-/

namespace Rap

/-- `encoding.Encoder` (format/encoding/encoder.go:5-11). `encode` returns the header and one block per collection, or
an error; `decode name header body times` returns the collection (`none` is nil) and the error. -/
structure Encoder where
  sig : Bytes
  version : Nat
  accepts : Coll → Bool
  encode : List Coll → Go (Except Err (Bytes × List Bytes))
  decode : (name header body : Bytes) → (times : List F64) → Go (Option Coll × Option Err)

/-- Running a program over the bytes of a `bytes.Reader`/`bytes.Buffer`, keeping the result only. -/
def Prog.onBytes {α : Type} (p : Prog α) (data : Bytes) : Go α := do
  let r ← p.run (⟨data, .eof⟩ : Flat)
  .ok r.1

/-- Running a program through a fresh `ErrReader` over bytes: result and `Error()`. -/
def Prog.onErrReader {α : Type} (p : Prog α) (data : Bytes) : Go (α × Option Err) := do
  let r ← p.run (ER.new (⟨data, .eof⟩ : Flat))
  .ok (r.1, r.2.err)

/-! ## Dictionaries -/

/-- Looking up a string in a `map[string]int` that assigns consecutive indexes, adding it when missing
(format/encoding/enum/enum.go:42-47, format/encoding/event/event.go:45-47 and 57-60). The map is the list of its keys,
ordered by index. -/
def dictAdd (d : List Bytes) (k : Bytes) : List Bytes × Nat :=
  if k ∈ d then (d, d.idxOf k) else (d ++ [k], d.length)

/-- The same for a sequence of strings. -/
def dictAddAll : List Bytes → List Bytes → List Bytes × List Nat
  | d, [] => (d, [])
  | d, k :: ks =>
    match dictAdd d k with
    | (d1, i) =>
      match dictAddAll d1 ks with
      | (d2, is) => (d2, i :: is)

/-! ## enum -/

/-- The loop over streams of enum `Encode` (format/encoding/enum/enum.go:36-63): the dictionary of members grows, one
block per stream. A collection that is not an `enum.Collection` panics in the type assertion (line 37). -/
def enumStreams : List Bytes → List Coll → Go (List Bytes × List Bytes)
  | d, [] => .ok (d, [])
  | d, .enum _ members caps :: cs =>
    match dictAddAll d members with
    | (d1, idx) => do
      let block := uvarintArrayToBytes idx ++ (caps.map fun c => putUvarint c.2.toNat).flatten
      let (d2, blocks) ← enumStreams d1 cs
      .ok (d2, block :: blocks)
  | _, _ :: _ => .error .typeAssertion

/-- enum `Encode` (format/encoding/enum/enum.go:31-79). -/
def enumEncode (cs : List Coll) : Go (Except Err (Bytes × List Bytes)) := do
  let (d, blocks) ← enumStreams [] cs
  .ok (.ok (stringArrayToBytes d, blocks))

/-- `allEnumMembers[i]` for each index (format/encoding/enum/enum.go:92-94). -/
def lookupAll (table : List Bytes) : List Nat → Go (List Bytes)
  | [] => .ok []
  | i :: is =>
    match table[i]? with
    | none => .error .indexOutOfRange
    | some s => do
      let rest ← lookupAll table is
      .ok (s :: rest)

/-- The capture loop of enum `Decode` (format/encoding/enum/enum.go:97-100). Standard library `binary.ReadUvarint`,
whose value on an error is what was read so far. -/
def enumCaptures : List F64 → Prog (List (F64 × BitVec 64))
  | [] => pure []
  | t :: ts => do
    let (value, _, _) ← readUvarint
    let rest ← enumCaptures ts
    pure ((t, BitVec.ofNat 64 value) :: rest)

/-- enum `Decode` (format/encoding/enum/enum.go:81-103). -/
def enumDecode (name header body : Bytes) (times : List F64) : Go (Option Coll × Option Err) := do
  let (members, _, err) ← readStringArray.onBytes header
  match err with
  | some e => .ok (none, some e)
  | none =>
    let ((ms, caps), err) ← Prog.onErrReader (do
      let (idx, _, _) ← readUvarIntArray
      let ms ← Prog.ofGo (lookupAll members idx)
      let caps ← enumCaptures times
      pure (ms, caps)) body
    .ok (some (.enum name ms caps), err)

/-- format/encoding/enum/enum.go:13-29 -/
def enumEncoder : Encoder :=
  { sig := sigEnum, version := 0, accepts := fun c => c.sig == sigEnum, encode := enumEncode, decode := enumDecode }

/-! ## event -/

/-- The metadata loop of event `Encode` (format/encoding/event/event.go:56-64): the key dictionary, the key indexes
and the bytes of the values. -/
def eventKeys : List Bytes → Block → Go (List Bytes × List Nat × Bytes)
  | keys, [] => .ok (keys, [], [])
  | keys, (k, v) :: kvs =>
    match dictAdd keys k with
    | (keys1, i) => do
      let c ← v.code
      let b ← v.data
      let (keys2, is, bytes) ← eventKeys keys1 kvs
      .ok (keys2, i :: is, c :: b ++ bytes)

/-- The capture loop of event `Encode` (format/encoding/event/event.go:39-68): name and key dictionaries, and the
bytes. -/
def eventCaps : List Bytes → List Bytes → List (F64 × Bytes × Block) → Go (List Bytes × List Bytes × Bytes)
  | names, keys, [] => .ok (names, keys, [])
  | names, keys, (_, name, md) :: caps =>
    match dictAdd names name with
    | (names1, i) => do
      let (keys1, is, values) ← eventKeys keys md
      let (names2, keys2, rest) ← eventCaps names1 keys1 caps
      .ok (names2, keys2, putUvarint i ++ uvarintArrayToBytes is ++ values ++ rest)

/-- The loop over streams of event `Encode` (format/encoding/event/event.go:38-69). Captures of another type are an
error (lines 40-43); such a collection without captures gives an empty block. -/
def eventStreams : List Bytes → List Bytes → List Coll → Go (Except Err (List Bytes × List Bytes × List Bytes))
  | names, keys, [] => .ok (.ok (names, keys, []))
  | names, keys, .event _ caps :: cs => do
    let (names1, keys1, block) ← eventCaps names keys caps
    match ← eventStreams names1 keys1 cs with
    | .error e => .ok (.error e)
    | .ok (names2, keys2, blocks) => .ok (.ok (names2, keys2, block :: blocks))
  | names, keys, c :: cs =>
    if c.times.isEmpty then do
      match ← eventStreams names keys cs with
      | .error e => .ok (.error e)
      | .ok (names2, keys2, blocks) => .ok (.ok (names2, keys2, [] :: blocks))
    else .ok (.error .badCapture)

/-- event `Encode` (format/encoding/event/event.go:33-91). -/
def eventEncode (cs : List Coll) : Go (Except Err (Bytes × List Bytes)) := do
  match ← eventStreams [] [] cs with
  | .error e => .ok (.error e)
  | .ok (names, keys, blocks) => .ok (.ok (stringArrayToBytes names ++ stringArrayToBytes keys, blocks))

/-- `readHeader` (format/encoding/event/event.go:93-98): the second error overwrites the first. -/
def eventHeader : Prog (List Bytes × List Bytes × Option Err) := do
  let (names, _, _) ← readStringArray
  let (keys, _, err) ← readStringArray
  pure (names, keys, err)

/-- The metadata loop of event `Decode` (format/encoding/event/event.go:121-127). -/
def eventBlock (fuel : Nat) (keys : List Bytes) : List Nat → Block → Prog (Except Err Block)
  | [], acc => pure (.ok acc)
  | i :: is, acc => do
    match ← readProperty fuel with
    | .error e => pure (.error e)
    | .ok p =>
      match keys[i]? with
      | none => .panic .indexOutOfRange
      | some k => eventBlock fuel keys is (mapSet acc k p)

/-- The capture loop of event `Decode` (format/encoding/event/event.go:109-129). `eventNames[int(eventNameIndex)]`
panics when out of range (also for indexes of 2^63 and more, negative as int). -/
def eventCaptures (fuel : Nat) (names keys : List Bytes) : List F64 → Prog (Except Err (List (F64 × Bytes × Block)))
  | [] => pure (.ok [])
  | t :: ts => do
    let (i, _, err) ← readUvarint
    match err with
    | some e => pure (.error e)
    | none =>
      let (is, _, err) ← readUvarIntArray
      match err with
      | some e => pure (.error e)
      | none =>
        match ← eventBlock fuel keys is [] with
        | .error e => pure (.error e)
        | .ok block =>
          match names[i]? with
          | none => .panic .indexOutOfRange
          | some name =>
            match ← eventCaptures fuel names keys ts with
            | .error e => pure (.error e)
            | .ok rest => pure (.ok ((t, name, block) :: rest))

/-- event `Decode` (format/encoding/event/event.go:100-132). The `bufio.Reader` over bytes behaves like the bytes
for the reads made (single bytes and full reads). -/
def eventDecode (name header body : Bytes) (times : List F64) : Go (Option Coll × Option Err) := do
  let (names, keys, err) ← eventHeader.onBytes header
  match err with
  | some e => .ok (none, some e)
  | none =>
    match ← (eventCaptures (body.length + 1) names keys times).onBytes body with
    | .error e => .ok (none, some e)
    | .ok caps => .ok (some (.event name caps), none)

/-- format/encoding/event/event.go:15-31 -/
def eventEncoder : Encoder :=
  { sig := sigEvent, version := 0, accepts := fun c => c.sig == sigEvent, encode := eventEncode,
    decode := eventDecode }

/-! ## Shared pieces of the numeric encoders -/

/-- `binary.Write(out, binary.LittleEndian, float32(x))`. -/
def putF32 (x : F64) : Bytes := leBytes 4 (narrow x).toNat

/-- Three components as float32. -/
def putV32 (v : V3) : Bytes := putF32 v.x ++ putF32 v.y ++ putF32 v.z

/-- `binary.Read(r, binary.LittleEndian, &v)` of a float32 variable holding `old`: its new value and the error. -/
def readF32 (old : F32) : Prog (F32 × Option Err) :=
  .readFull 4 fun b err =>
    match err with
    | some e => .pure (old, some e)
    | none => .pure (BitVec.ofNat 32 (leNat b), none)

/-- `r.Read(buf)`: the buffer afterwards (bytes not read keep their value) and the error. -/
def readInto (buf : Bytes) : Prog (Bytes × Option Err) :=
  .read buf.length fun got err => .pure (got ++ buf.drop got.length, err)

/-- `math.Float64frombits(binary.LittleEndian.Uint64(buf))` -/
def bufF64 (buf : Bytes) : F64 := BitVec.ofNat 64 (leNat (buf.take 8))

/-- One component in a buffer of `w` bytes of which the first 8 are used. -/
def putRaw64 (w : Nat) (x : F64) : Bytes := leBytes 8 x.toNat ++ List.replicate (w - 8) 0

/-- `encodeRaw64` of position (format/encoding/position/raw64.go:11-25, `w = 8`) and of euler
(format/encoding/euler/raw64.go:11-25, `w = 10`, the buffer being `binary.MaxVarintLen64` long). -/
def encRaw64 (w : Nat) (vs : List V3) : Bytes :=
  (vs.map fun v => putRaw64 w v.x ++ putRaw64 w v.y ++ putRaw64 w v.z).flatten

/-- `decodeRaw64` of position (format/encoding/position/raw64.go:27-53) and euler (format/encoding/euler/raw64.go:27-55):
`buf` is the reused buffer. -/
def decRaw64 : List F64 → (buf : Bytes) → Prog (Except Err (List (F64 × V3)))
  | [], _ => pure (.ok [])
  | t :: ts, buf => do
    let (buf, err) ← readInto buf
    match err with
    | some e => pure (.error e)
    | none =>
      let x := bufF64 buf
      let (buf, err) ← readInto buf
      match err with
      | some e => pure (.error e)
      | none =>
        let y := bufF64 buf
        let (buf, err) ← readInto buf
        match err with
        | some e => pure (.error e)
        | none =>
          let z := bufF64 buf
          match ← decRaw64 ts buf with
          | .error e => pure (.error e)
          | .ok rest => pure (.ok ((t, ⟨x, y, z⟩) :: rest))

/-- `encodeRaw32` of position (format/encoding/position/raw32.go:10-20) and euler
(format/encoding/euler/raw32.go:10-18). -/
def encRaw32 (vs : List V3) : Bytes := (vs.map putV32).flatten

/-- `decodeRaw32` of position (format/encoding/position/raw32.go:22-36, `stale = false`: fresh variables per capture)
and euler (format/encoding/euler/raw32.go:20-34, `stale = true`: variables kept between captures). -/
def decRaw32 (stale : Bool) : List F64 → (x y z : F32) → Prog (List (F64 × V3))
  | [], _, _, _ => pure []
  | t :: ts, x, y, z => do
    let (x, _) ← readF32 (if stale then x else 0)
    let (y, _) ← readF32 (if stale then y else 0)
    let (z, _) ← readF32 (if stale then z else 0)
    let rest ← decRaw32 stale ts x y z
    pure ((t, ⟨widen x, widen y, widen z⟩) :: rest)

/-- The captures of `Captures()` cast one by one to the captures of a vector collection: `c.(position.Capture)`
(position.go:43-45), `c.(euler.Capture)` (euler.go:39-41). A failing assertion panics. -/
def castPosition : Coll → Go (List (F64 × V3))
  | .position _ caps => .ok caps
  | c => if c.times.isEmpty then .ok [] else .error .typeAssertion

/-- See `castPosition`. -/
def castEuler : Coll → Go (List (F64 × V3))
  | .euler _ caps => .ok caps
  | c => if c.times.isEmpty then .ok [] else .error .typeAssertion

/-! ## euler -/

/-- The constant 360. -/
def f360 : F64 := 0x4076800000000000

/-- `wrapEulerAngle` (format/encoding/euler/raw16.go:12-14). -/
def wrapEuler (angle : F64) : F64 := angle.sub (f360.mul (angle.div f360).floor)

/-- One angle in two bytes (format/encoding/euler/raw16.go:32-33). -/
def putAngle (a : F64) : Bytes := bstEnc (wrapEuler a) 0 f360 2

/-- `encodeRaw16` (format/encoding/euler/raw16.go:16-42). -/
def encRaw16 : List V3 → Bytes
  | [] => []
  | [v] => putV32 ⟨wrapEuler v.x, wrapEuler v.y, wrapEuler v.z⟩
  | vs => (vs.map fun v => putAngle v.x ++ putAngle v.y ++ putAngle v.z).flatten

/-- The loop of `decodeRaw16` (format/encoding/euler/raw16.go:60-68); read errors are ignored. -/
def decRaw16Loop : List F64 → (buf : Bytes) → Prog (List (F64 × V3))
  | [], _ => pure []
  | t :: ts, buf => do
    let (b1, _) ← readInto buf
    let (b2, _) ← readInto b1
    let (b3, _) ← readInto b2
    let rest ← decRaw16Loop ts b3
    pure ((t, ⟨bstDec 0 f360 b1, bstDec 0 f360 b2, bstDec 0 f360 b3⟩) :: rest)

/-- Three float32 variables read one after another; only the last error is kept
(format/encoding/euler/raw16.go:47-54, format/encoding/position/oct24.go:145-153, oct48.go:176-184). -/
def readV32 : Prog (V3 × Option Err) := do
  let (x, _) ← readF32 0
  let (y, _) ← readF32 0
  let (z, err) ← readF32 0
  pure (⟨widen x, widen y, widen z⟩, err)

/-- `decodeRaw16` (format/encoding/euler/raw16.go:44-71). -/
def decRaw16 (times : List F64) : Prog (Except Err (List (F64 × V3))) :=
  match times with
  | [t] => do
    let (v, err) ← readV32
    match err with
    | some e => pure (.error e)
    | none => pure (.ok [(t, v)])
  | _ => do
    let caps ← decRaw16Loop times [0, 0]
    pure (.ok caps)

/-- `Encoder.encode` (format/encoding/euler/euler.go:35-58). -/
def eulerEncode1 (technique : Nat) (c : Coll) : Go Bytes := do
  let caps ← castEuler c
  let vs := caps.map (·.2)
  .ok (technique.toUInt8 ::
    (if technique = 0 then encRaw64 10 vs else if technique = 1 then encRaw32 vs
     else if technique = 2 then encRaw16 vs else []))

/-- The loop over collections of `Encode` (euler.go:60-72, position.go:77-89). -/
def mapGo {α β : Type} (f : α → Go β) : List α → Go (List β)
  | [] => .ok []
  | a :: as => do
    let b ← f a
    let bs ← mapGo f as
    .ok (b :: bs)

/-- euler `Encode` (format/encoding/euler/euler.go:60-72). -/
def eulerEncode (technique : Nat) (cs : List Coll) : Go (Except Err (Bytes × List Bytes)) := do
  let blocks ← mapGo (eulerEncode1 technique) cs
  .ok (.ok ([], blocks))

/-- The captures read by `decode` (format/encoding/euler/euler.go:74-108). -/
def eulerCaptures (times : List F64) : Prog (Except Err (List (F64 × V3))) :=
  .read 1 fun got err =>
    match err with
    | some e => .pure (.error e)
    | none =>
      let t := (got.headD 0).toNat
      if t = 0 then decRaw64 times (List.replicate 10 0)
      else if t = 1 then do
        let caps ← decRaw32 true times 0 0 0
        pure (.ok caps)
      else if t = 2 then decRaw16 times
      else .pure (.error (.badTechnique t))

/-- euler `Decode` (format/encoding/euler/euler.go:74-112). -/
def eulerDecode (name _header body : Bytes) (times : List F64) : Go (Option Coll × Option Err) := do
  match ← (eulerCaptures times).onBytes body with
  | .error e => .ok (none, some e)
  | .ok caps => .ok (some (.euler name caps), none)

/-- format/encoding/euler/euler.go:27-33, 114-124 -/
def eulerEncoder (technique : Nat) : Encoder :=
  { sig := sigEuler, version := 0, accepts := fun c => c.sig == sigEuler, encode := eulerEncode technique,
    decode := eulerDecode }

/-! ## position -/

/-- The loop of `Vec3ToOctCells` (format/encoding/position/oct.go:28-54): `k` cells left. -/
def octCellsLoop (v : V3) : (k : Nat) → (center inc : V3) → List UInt8
  | 0, _, _ => []
  | k + 1, c, i =>
    let topBit : UInt8 := if v.y.lt c.y then 1 else 0
    let newY := if v.y.lt c.y then c.y.sub i.y else c.y.add i.y
    let rightBit : UInt8 := if v.x.lt c.x then 1 else 0
    let newX := if v.x.lt c.x then c.x.sub i.x else c.x.add i.x
    let forwardBit : UInt8 := if v.z.lt c.z then 1 else 0
    let newZ := if v.z.lt c.z then c.z.sub i.z else c.z.add i.z
    (topBit <<< 2 ||| rightBit <<< 1 ||| forwardBit) ::
      octCellsLoop v k ⟨newX, newY, newZ⟩ ⟨i.x.div f2, i.y.div f2, i.z.div f2⟩

/-- `min.Add(max).DivByConstant(2.0)` (oct.go:22, 58). -/
def octCenter (min max : V3) : V3 :=
  ⟨(min.x.add max.x).div f2, (min.y.add max.y).div f2, (min.z.add max.z).div f2⟩

/-- `crossSection / 4.0` (oct.go:23-26, 59-62). -/
def octInc (min max : V3) : V3 :=
  ⟨(max.x.sub min.x).div f4, (max.y.sub min.y).div f4, (max.z.sub min.z).div f4⟩

/-- `Vec3ToOctCells` (format/encoding/position/oct.go:21-55) with `k` cells. -/
def vec3ToOctCells (v min max : V3) (k : Nat) : List UInt8 := octCellsLoop v k (octCenter min max) (octInc min max)

/-- The loop of `OctCellsToVec3` (format/encoding/position/oct.go:64-83). -/
def octDecLoop : List UInt8 → (center inc : V3) → V3
  | [], c, _ => c
  | cell :: cells, c, i =>
    let newY := if cell &&& 4 = 0 then c.y.add i.y else c.y.sub i.y
    let newX := if cell &&& 2 = 0 then c.x.add i.x else c.x.sub i.x
    let newZ := if cell &&& 1 = 0 then c.z.add i.z else c.z.sub i.z
    octDecLoop cells ⟨newX, newY, newZ⟩ ⟨i.x.div f2, i.y.div f2, i.z.div f2⟩

/-- `OctCellsToVec3` (format/encoding/position/oct.go:57-85). -/
def octCellsToVec3 (min max : V3) (cells : List UInt8) : V3 := octDecLoop cells (octCenter min max) (octInc min max)

/-- `octCellsToBytes24` (format/encoding/position/oct24.go:12-37): bit `i` of byte 0/1/2 is bit 0/1/2 of cell `i`. -/
def octBytes24 (cells : List UInt8) : Bytes :=
  [byteOfBits (cells.map fun c => c &&& 1 != 0), byteOfBits (cells.map fun c => c &&& 2 != 0),
   byteOfBits (cells.map fun c => c &&& 4 != 0)]

/-- `octCellsToBytes24` for `n = 1` (oct24.go:12-37), `octCellsToBytes48` for `n = 2` (oct48.go:12-58): three bytes per
eight cells. -/
def octBytes : (n : Nat) → List UInt8 → Bytes
  | 0, _ => []
  | n + 1, cells => octBytes24 (cells.take 8) ++ octBytes n (cells.drop 8)

/-- `bytesToOctCells24` (oct24.go:39-54). -/
def octCells24 (b0 b1 b2 : UInt8) : List UInt8 :=
  (List.range 8).map fun i =>
    let i := i.toUInt8
    ((b0 >>> i) &&& (1 : UInt8)) ||| (((b1 >>> i) &&& (1 : UInt8)) <<< 1) ||| (((b2 >>> i) &&& (1 : UInt8)) <<< 2)

/-- `bytesToOctCells24` (oct24.go:39-54), `bytesToOctCells48` (oct48.go:60-85). -/
def octCells : Bytes → List UInt8
  | b0 :: b1 :: b2 :: rest => octCells24 b0 b1 b2 ++ octCells rest
  | _ => []

/-- `if d > max { max = d }` -/
def fmax (max d : F64) : F64 := if max.lt d then d else max
/-- `if d < min { min = d }` -/
def fmin (min d : F64) : F64 := if d.lt min then d else min

/-- Differences of consecutive elements (oct24.go:80, oct48.go:111). -/
def deltas : List V3 → List V3
  | a :: b :: rest => b.sub a :: deltas (b :: rest)
  | _ => []

/-- The largest delta per axis (oct24.go:77-90, oct48.go:108-121). -/
def octMax (vs : List V3) : V3 :=
  (deltas vs).foldl (fun m d => ⟨fmax m.x d.x, fmax m.y d.y, fmax m.z d.z⟩) ⟨F64.ninf, F64.ninf, F64.ninf⟩

/-- The smallest delta per axis (oct24.go:76, 92-100, oct48.go:107, 123-131). -/
def octMin (vs : List V3) : V3 :=
  (deltas vs).foldl (fun m d => ⟨fmin m.x d.x, fmin m.y d.y, fmin m.z d.z⟩) ⟨F64.inf, F64.inf, F64.inf⟩

/-- The encoding loop (oct24.go:120-135, oct48.go:151-166): `q` is `quantizedPosition`. -/
def octEncLoop (n : Nat) (min max : V3) : V3 → List V3 → Bytes
  | _, [] => []
  | q, p :: ps =>
    let cells := vec3ToOctCells (p.sub q) min max (8 * n)
    octBytes n cells ++ octEncLoop n min max (q.add (octCellsToVec3 min max cells)) ps

/-- `encodeOct24` for `n = 1` (oct24.go:56-138), `encodeOct48` for `n = 2` (oct48.go:87-169). -/
def encOct (n : Nat) : List V3 → Bytes
  | [] => []
  | [p] => putV32 p
  | p :: ps =>
    let min := octMin (p :: ps)
    let max := octMax (p :: ps)
    putV32 min ++ putV32 max ++ putV32 p ++ octEncLoop n min max p ps

/-- The decoding loop after the first capture (oct24.go:182-191, oct48.go:213-222); read errors are ignored. -/
def octDecodeLoop (min max : V3) : List F64 → V3 → (buf : Bytes) → Prog (List (F64 × V3))
  | [], _, _ => pure []
  | t :: ts, cur, buf => do
    let (buf, _) ← readInto buf
    let cur := cur.add (octCellsToVec3 min max (octCells buf))
    let rest ← octDecodeLoop min max ts cur buf
    pure ((t, cur) :: rest)

/-- `decodeOct24` for `n = 1` (oct24.go:140-194), `decodeOct48` for `n = 2` (oct48.go:171-225). Only the error of the
last of the nine floats is returned. -/
def decOct (n : Nat) : List F64 → Prog (Except Err (List (F64 × V3)))
  | [] => pure (.ok [])
  | [t] => do
    let (v, err) ← readV32
    match err with
    | some e => pure (.error e)
    | none => pure (.ok [(t, v)])
  | t :: ts => do
    let (min, _) ← readV32
    let (max, _) ← readV32
    let (start, err) ← readV32
    let rest ← octDecodeLoop min max ts start (List.replicate (3 * n) 0)
    match err with
    | some e => pure (.error e)
    | none => pure (.ok ((t, start) :: rest))

/-- `Encoder.encode` (format/encoding/position/position.go:39-75). -/
def positionEncode1 (technique : Nat) (c : Coll) : Go Bytes := do
  let caps ← castPosition c
  let vs := caps.map (·.2)
  .ok (technique.toUInt8 ::
    (if technique = 0 then encRaw64 8 vs else if technique = 1 then encRaw32 vs
     else if technique = 2 then encOct 2 vs else if technique = 3 then encOct 1 vs else []))

/-- position `Encode` (format/encoding/position/position.go:77-89). -/
def positionEncode (technique : Nat) (cs : List Coll) : Go (Except Err (Bytes × List Bytes)) := do
  let blocks ← mapGo (positionEncode1 technique) cs
  .ok (.ok ([], blocks))

/-- The captures read by `decode` (format/encoding/position/position.go:91-132). -/
def positionCaptures (times : List F64) : Prog (Except Err (List (F64 × V3))) :=
  .read 1 fun got err =>
    match err with
    | some e => .pure (.error e)
    | none =>
      let t := (got.headD 0).toNat
      if t = 0 then decRaw64 times (List.replicate 8 0)
      else if t = 1 then do
        let caps ← decRaw32 false times 0 0 0
        pure (.ok caps)
      else if t = 2 then decOct 2 times
      else if t = 3 then decOct 1 times
      else .pure (.error (.badTechnique t))

/-- position `Decode` (format/encoding/position/position.go:91-136). -/
def positionDecode (name _header body : Bytes) (times : List F64) : Go (Option Coll × Option Err) := do
  match ← (positionCaptures times).onBytes body with
  | .error e => .ok (none, some e)
  | .ok caps => .ok (some (.position name caps), none)

/-- format/encoding/position/position.go:31-37, 138-148 -/
def positionEncoder (technique : Nat) : Encoder :=
  { sig := sigPosition, version := 0, accepts := fun c => c.sig == sigPosition, encode := positionEncode technique,
    decode := positionDecode }

/-! ## float -/

/-- The captures of a float collection, or the error for captures of another type (float.go:50-53, 61-64, 74-77). -/
def castFloat : Coll → Except Err (List F64)
  | .float _ caps => .ok (caps.map (·.2))
  | c => if c.times.isEmpty then .ok [] else .error .badCapture

/-- `encode64` (format/encoding/float/float.go:48-57). -/
def floatEnc64 (vs : List F64) : Bytes := (vs.map fun v => leBytes 8 v.toNat).flatten

/-- `encode32` (format/encoding/float/float.go:59-68). -/
def floatEnc32 (vs : List F64) : Bytes := (vs.map putF32).flatten

/-- `encodeBST16` (format/encoding/float/float.go:70-99). -/
def floatEncBst (vs : List F64) : Bytes :=
  let min := vs.foldl fmin F64.inf
  let max := vs.foldl fmax F64.ninf
  putF32 min ++ putF32 max ++ (vs.map fun v => bstEnc v min (max.sub min) 2).flatten

/-- One stream of `Encode` (format/encoding/float/float.go:103-130). -/
def floatEncode1 (technique : Nat) (c : Coll) : Except Err Bytes :=
  if technique ≤ 2 then
    match castFloat c with
    | .error e => .error e
    | .ok vs => .ok (technique.toUInt8 ::
        (if technique = 0 then floatEnc64 vs else if technique = 1 then floatEnc32 vs else floatEncBst vs))
  else .ok [technique.toUInt8]

/-- The loop of `Encode` (format/encoding/float/float.go:103-135). -/
def floatStreams (technique : Nat) : List Coll → Except Err (List Bytes)
  | [] => .ok []
  | c :: cs =>
    match floatEncode1 technique c with
    | .error e => .error e
    | .ok b =>
      match floatStreams technique cs with
      | .error e => .error e
      | .ok bs => .ok (b :: bs)

/-- float `Encode` (format/encoding/float/float.go:101-138). -/
def floatEncode (technique : Nat) (cs : List Coll) : Go (Except Err (Bytes × List Bytes)) :=
  match floatStreams technique cs with
  | .error e => .ok (.error e)
  | .ok blocks => .ok (.ok ([], blocks))

/-- `decodeRaw64` (format/encoding/float/float.go:158-166): the variable is kept between captures. -/
def floatDec64 : List F64 → (value : F64) → Prog (List (F64 × F64))
  | [], _ => pure []
  | t :: ts, value =>
    .readFull 8 fun b err =>
      let value := if err.isSome then value else BitVec.ofNat 64 (leNat b)
      do
        let rest ← floatDec64 ts value
        pure ((t, value) :: rest)

/-- `decodeRaw32` (format/encoding/float/float.go:168-176): the variable is kept between captures. -/
def floatDec32 : List F64 → (value : F32) → Prog (List (F64 × F64))
  | [], _ => pure []
  | t :: ts, value => do
    let (value, _) ← readF32 value
    let rest ← floatDec32 ts value
    pure ((t, widen value) :: rest)

/-- The loop of `decodeBST16` (format/encoding/float/float.go:149-153). -/
def floatDecBstLoop (min max : F32) : List F64 → (buf : Bytes) → Prog (List (F64 × F64))
  | [], _ => pure []
  | t :: ts, buf => do
    let (buf, _) ← readInto buf
    let rest ← floatDecBstLoop min max ts buf
    pure ((t, bstDec (widen min) (widen (max.sub min)) buf) :: rest)

/-- `decodeBST16` (format/encoding/float/float.go:140-156); `max-min` is computed in float32. -/
def floatDecBst (times : List F64) : Prog (List (F64 × F64)) := do
  let (min, _) ← readF32 0
  let (max, _) ← readF32 0
  floatDecBstLoop min max times [0, 0]

/-- float `Decode` (format/encoding/float/float.go:178-205): an unknown technique gives a collection without
captures and no error. -/
def floatDecode (name _header body : Bytes) (times : List F64) : Go (Option Coll × Option Err) :=
  match body with
  | [] => .ok (none, some .eof)
  | b :: rest => do
    let t := b.toNat
    let (caps, err) ← Prog.onErrReader
      (if t = 0 then floatDec64 times 0 else if t = 1 then floatDec32 times 0 else if t = 2 then floatDecBst times
       else pure []) rest
    .ok (some (.float name caps), err)

/-- format/encoding/float/float.go:28-46 -/
def floatEncoder (technique : Nat) : Encoder :=
  { sig := sigFloat, version := 0, accepts := fun c => c.sig == sigFloat, encode := floatEncode technique,
    decode := floatDecode }

end Rap
