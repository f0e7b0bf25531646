import Verif.Model.Go

/-!
# Writer programs

Go code that takes an `io.Writer` and keeps going after errors (everything below `recurseRecordingToBytes`) is a tree of
the `Write` calls it makes. `write b k` is `ew.Write(b)`; the continuation receives the returned count and error.
`err k` reads `ew.err`.
-/

namespace Rap

/-- See the module comment. -/
inductive WProg (α : Type) where
  | pure (a : α)
  | panic (p : Panic)
  | write (b : Bytes) (k : Nat → Option Err → WProg α)
  | err (k : Option Err → WProg α)

namespace WProg

/-- Sequential composition of Go statements. -/
def bind {α β : Type} : WProg α → (α → WProg β) → WProg β
  | pure a, f => f a
  | panic p, _ => panic p
  | write b k, f => write b fun n e => bind (k n e) f
  | err k, f => err fun e => bind (k e) f

instance : Monad WProg where
  pure := WProg.pure
  bind := WProg.bind

/-- A Go computation that does not write. -/
def ofGo {α : Type} : Go α → WProg α
  | .ok a => pure a
  | .error p => panic p

/-- `ew.Write(b)`. -/
def put (b : Bytes) : WProg (Nat × Option Err) := .write b fun n e => .pure (n, e)

end WProg

/-- What a Go `io.Writer` offers: `Write(p)` returns the number of bytes accepted and the error. -/
class Snk (σ : Type) where
  write : Bytes → σ → Nat × Option Err × σ

/-- `bytes.Buffer` as an output: it keeps everything; the bytes written so far. -/
structure Buf where
  bytes : Bytes
  deriving DecidableEq, Repr

instance : Snk Buf where
  write b s := (b.length, none, ⟨s.bytes ++ b⟩)

/-- `errWriter` (format/io/writer.go:22-26). -/
structure EW (σ : Type) where
  sink : σ
  err : Option Err
  n : Nat
  deriving Repr

/-- `&errWriter{Writer: out}` -/
def EW.new {σ : Type} (s : σ) : EW σ := ⟨s, none, 0⟩

/-- `errWriter.Write` (format/io/writer.go:28-37). -/
def EW.write {σ : Type} [Snk σ] (b : Bytes) (e : EW σ) : Nat × Option Err × EW σ :=
  match e.err with
  | some x => (0, some x, e)
  | none =>
    match Snk.write b e.sink with
    | (n, err, s) => (n, err, { sink := s, err := err, n := e.n + n })

instance {σ : Type} [Snk σ] : Snk (EW σ) where
  write := EW.write

/-- Running a writer program on an `errWriter`. -/
def WProg.run {σ α : Type} [Snk σ] : WProg α → EW σ → Go (α × EW σ)
  | .pure a, s => .ok (a, s)
  | .panic p, _ => .error p
  | .write b k, s =>
    match EW.write b s with
    | (n, e, s') => (k n e).run s'
  | .err k, s => (k s.err).run s

/-- A `flate.Writer` seen from outside (Go standard library `compress/flate`): it keeps a state, turns each `Write` and
`Close` into a list of pieces it writes to the underlying writer. `inflate data fin` is what `flate.NewReader`
yields over a source with bytes `data` ending in `fin`: the bytes and the error at their end. -/
structure Flate where
  S : Type
  init : S
  step : S → Bytes → List Bytes × S
  close : S → List Bytes
  inflate : Bytes → Err → Bytes × Err

/-- All pieces produced by writing `ws` one after another and closing. -/
def Flate.output (F : Flate) : F.S → List Bytes → Bytes
  | s, [] => (F.close s).flatten
  | s, w :: ws => (F.step s w).1.flatten ++ F.output (F.step s w).2 ws

/-- A `flate.Writer` on a sink. -/
structure FW (F : Flate) (σ : Type) where
  sink : σ
  st : F.S
  err : Option Err

/-- Writing pieces until the first error (`huffmanBitWriter.write`, Go standard library). -/
def writeAll {σ : Type} [Snk σ] : List Bytes → σ → Option Err × σ
  | [], s => (none, s)
  | b :: bs, s =>
    match Snk.write b s with
    | (_, none, s') => writeAll bs s'
    | (_, some e, s') => (some e, s')

/-- `flate.Writer.Write`: errors are sticky, a failing call reports 0 bytes. -/
def FW.write {F : Flate} {σ : Type} [Snk σ] (b : Bytes) (w : FW F σ) : Nat × Option Err × FW F σ :=
  match w.err with
  | some e => (0, some e, w)
  | none =>
    match writeAll (F.step w.st b).1 w.sink with
    | (none, s) => (b.length, none, { sink := s, st := (F.step w.st b).2, err := none })
    | (some e, s) => (0, some e, { sink := s, st := (F.step w.st b).2, err := some e })

instance {F : Flate} {σ : Type} [Snk σ] : Snk (FW F σ) where
  write := FW.write

/-- An `io.WriteCloser` around a sink of type `σ`. -/
class WC (ω : Type) (σ : outParam Type) [Snk σ] extends Snk ω where
  /-- `Close()`: the error, and the underlying sink afterwards -/
  close : ω → Option Err × σ
  /-- the underlying sink -/
  under : ω → σ

/-- `errWriter.Close` (format/io/writer.go:43-45). -/
instance {σ : Type} [Snk σ] : WC (EW σ) σ where
  close e := (e.err, e.sink)
  under e := e.sink

/-- `flate.Writer.Close`. -/
instance {F : Flate} {σ : Type} [Snk σ] : WC (FW F σ) σ where
  close w :=
    match w.err with
    | some e => (some e, w.sink)
    | none => writeAll (F.close w.st) w.sink
  under w := w.sink

end Rap
