import Verif.Model.Encoders

/-!
# Capture times, format/io/time.go
-/

namespace Rap

/-- `encodeTime64` (format/io/time.go:26-34). -/
def encTime64 (ts : List F64) : Bytes := (ts.map fun t => leBytes 8 t.toNat).flatten

/-- `encodeTime32` (format/io/time.go:36-44). -/
def encTime32 (ts : List F64) : Bytes := (ts.map putF32).flatten

/-- The differences of consecutive times (format/io/time.go:64). -/
def timeGaps : List F64 → List F64
  | a :: b :: rest => b.sub a :: timeGaps (b :: rest)
  | _ => []

/-- `maxTimeDifference` (format/io/time.go:53, 63-68). -/
def maxGap (ts : List F64) : F64 := (timeGaps ts).foldl fmax F64.ninf

/-- `startingTime` (format/io/time.go:51, 56-58). -/
def startTime (ts : List F64) : F64 := ts.foldl fmin F64.inf

/-- The loop of `encodeTimeBST16` (format/io/time.go:81-89); `total` is `totalledQuantizedDuration`. -/
def encTimeLoop (gap : F64) : (total : F64) → List F64 → Bytes
  | _, [] => []
  | total, t :: ts =>
    let b := bstEnc (t.sub total) 0 gap 2
    b ++ encTimeLoop gap (total.add (bstDec 0 gap b)) ts

/-- `encodeTimeBST16` (format/io/time.go:46-91). -/
def encTimeBst : List F64 → Bytes
  | [] => []
  | [t] => putF32 (startTime [t])
  | t :: ts =>
    putF32 (startTime (t :: ts)) ++ putF32 (maxGap (t :: ts)) ++
      encTimeLoop (maxGap (t :: ts)) (startTime (t :: ts)) ts

/-- `encodeTime` (format/io/time.go:93-127): the bytes handed to `out.Write`. -/
def encTime (technique : Nat) (ts : List F64) : Bytes :=
  technique.toUInt8 :: (putUvarint (u64 ts.length) ++
    (if technique = 0 then encTime64 ts else if technique = 1 then encTime32 ts
     else if technique = 2 then encTimeBst ts else []))

/-- The loop of `decodeTime64` (format/io/time.go:131-137); read errors leave 0. -/
def decTime64Loop : Nat → Prog (List F64)
  | 0 => pure []
  | n + 1 => .readFull 8 fun b err => do
      let rest ← decTime64Loop n
      pure ((if err.isSome then 0 else BitVec.ofNat 64 (leNat b)) :: rest)

/-- The loop of `decodeTime32` (format/io/time.go:143-149). -/
def decTime32Loop : Nat → Prog (List F64)
  | 0 => pure []
  | n + 1 => do
    let (t, _) ← readF32 0
    let rest ← decTime32Loop n
    pure (widen t :: rest)

/-- The loop of `decodeTimeBST16` (format/io/time.go:180-186). -/
def decTimeBstLoop (gap : F64) : Nat → (cur : F64) → (buf : Bytes) → Prog (List F64)
  | 0, _, _ => pure []
  | n + 1, cur, buf => do
    let (buf, _) ← readInto buf
    let cur := cur.add (bstDec 0 gap buf)
    let rest ← decTimeBstLoop gap n cur buf
    pure (cur :: rest)

/-- `decodeTimeBST16` (format/io/time.go:154-189). -/
def decTimeBst : (n : Nat) → Prog (List F64 × Option Err)
  | 0 => pure ([], none)
  | n + 1 => do
    let (start, err) ← readF32 0
    match err with
    | some e => pure ([], some e)
    | none =>
      if n = 0 then pure ([widen start], none)
      else do
        let (gap, err) ← readF32 0
        match err with
        | some e => pure ([], some e)
        | none =>
          Prog.make (n + 1) 8
          let rest ← decTimeBstLoop (widen gap) n (widen start) [0, 0]
          pure (widen start :: rest, none)

/-- `decodeTime` (format/io/time.go:191-219). A nil slice is the empty list. `int(numCaptures)` is negative from 2^63
on, where `make` panics just as for other lengths over the limit; for BST16 a negative count reaches `make` only after two
successful reads, as here. -/
def decTime : Prog (List F64 × Option Err) :=
  .read 1 fun got err =>
    match err with
    | some e => .pure ([], some e)
    | none => do
      let technique := (got.headD 0).toNat
      let (n, _, err) ← readUvarint
      match err with
      | some e => pure ([], some e)
      | none =>
        if technique = 0 then do
          Prog.make n 8
          let ts ← decTime64Loop n
          pure (ts, none)
        else if technique = 1 then do
          Prog.make n 8
          let ts ← decTime32Loop n
          pure (ts, none)
        else if technique = 2 then decTimeBst n
        else pure ([], some (.badTimeTechnique technique))

end Rap
