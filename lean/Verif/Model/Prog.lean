import Verif.Model.Go

/-!
# Reader programs

Go code that takes an `io.Reader` is modelled as a tree of the calls it makes on that reader. `read n k` is
`r.Read(p)` with `len(p) = n > 0`; `readFull n k` is `io.ReadFull(r, p)` with `len(p) = n`; the continuation `k` receives
the bytes stored at the beginning of `p` and the returned error. `erErr k` asks an `ErrReader` for its stored
error (`ErrReader.Error()`).
-/

namespace Rap

/-- See the module comment. Models the control flow of functions taking an `io.Reader`. -/
inductive Prog (α : Type) where
  | pure (a : α)
  | panic (p : Panic)
  | read (n : Nat) (k : Bytes → Option Err → Prog α)
  | readFull (n : Nat) (k : Bytes → Option Err → Prog α)
  | erErr (k : Option Err → Prog α)

namespace Prog

/-- Sequential composition of Go statements. -/
def bind {α β : Type} : Prog α → (α → Prog β) → Prog β
  | pure a, f => f a
  | panic p, _ => panic p
  | read n k, f => read n fun b e => bind (k b e) f
  | readFull n k, f => readFull n fun b e => bind (k b e) f
  | erErr k, f => erErr fun e => bind (k e) f

instance : Monad Prog where
  pure := Prog.pure
  bind := Prog.bind

/-- A Go computation that does not read. -/
def ofGo {α : Type} : Go α → Prog α
  | .ok a => pure a
  | .error p => panic p

/-- `make([]T, n)` with `sizeof(T) = elem`. -/
def make (n elem : Nat) : Prog Unit :=
  if n * elem ≤ maxAlloc then Prog.pure () else Prog.panic .makeSlice

end Prog

/-- What a Go `io.Reader` offers to the code. -/
class Src (σ : Type) where
  /-- `Read(p)`, `len(p) > 0` -/
  read : Nat → σ → Bytes × Option Err × σ
  /-- `io.ReadFull(r, p)` -/
  readFull : Nat → σ → Bytes × Option Err × σ
  /-- `ErrReader.Error()`; nil for plain readers -/
  erErr : σ → Option Err

/-- Running a reader program against a source. -/
def Prog.run {σ α : Type} [Src σ] : Prog α → σ → Go (α × σ)
  | .pure a, s => .ok (a, s)
  | .panic p, _ => .error p
  | .read n k, s =>
    match Src.read n s with
    | (b, e, s') => (k b e).run s'
  | .readFull n k, s =>
    match Src.readFull n s with
    | (b, e, s') => (k b e).run s'
  | .erErr k, s => (k (Src.erErr s)).run s

/-- Bytes in memory (`bytes.Reader`, `bytes.Buffer`, a file read without short reads). `fin` is the error at the end:
`io.EOF`, or the error with which a decompressor stops. -/
structure Flat where
  data : Bytes
  fin : Err
  deriving DecidableEq, Repr

/-- The error `io.ReadFull` reports when the source stops with `fin` after some bytes (io.ReadAtLeast, Go standard
library). -/
def midErr (fin : Err) : Err := if fin = .eof then .unexpectedEOF else fin

instance : Src Flat where
  read n s :=
    if s.data.isEmpty then ([], some s.fin, s)
    else (s.data.take n, none, { s with data := s.data.drop n })
  readFull n s :=
    if n ≤ s.data.length then (s.data.take n, none, { s with data := s.data.drop n })
    else (s.data, some (if s.data.isEmpty then s.fin else midErr s.fin), { s with data := [] })
  erErr _ := none

/-- A source that hands its bytes out in pieces: each `Read` returns at most the rest of the current piece. -/
structure Chunked where
  chunks : List Bytes
  fin : Err
  deriving DecidableEq, Repr

/-- `io.ReadFull` on a source that delivers pieces: keep calling `Read` until `n` bytes have arrived
(io.ReadAtLeast, Go standard library). Returns the bytes, whether they are complete, and the remaining pieces. -/
def Chunked.fill : Nat → List Bytes → Bytes × Bool × List Bytes
  | n, [] => ([], n == 0, [])
  | n, c :: cs =>
    if n = 0 then ([], true, c :: cs)
    else if c.length ≤ n then
      match Chunked.fill (n - c.length) cs with
      | (b, ok, cs') => (c ++ b, ok, cs')
    else (c.take n, true, c.drop n :: cs)

instance : Src Chunked where
  read n s :=
    match s.chunks with
    | [] => ([], some s.fin, s)
    | c :: cs =>
      if c.length ≤ n then (c, none, { s with chunks := cs })
      else (c.take n, none, { s with chunks := c.drop n :: cs })
  readFull n s :=
    match Chunked.fill n s.chunks with
    | (b, true, cs) => (b, none, { s with chunks := cs })
    | (b, false, cs) => (b, some (if b.isEmpty then s.fin else midErr s.fin), { s with chunks := cs })
  erErr _ := none

/-- `binary.ErrReader` (internal/io/binary/reader.go:8-12): the wrapped reader, the stored error, the byte count. -/
structure ER (σ : Type) where
  src : σ
  err : Option Err
  n : Nat
  deriving Repr

/-- `NewErrReader` (internal/io/binary/reader.go:14-16). -/
def ER.new {σ : Type} (s : σ) : ER σ := ⟨s, none, 0⟩

/-- `ErrReader.Read` (internal/io/binary/reader.go:22-31). -/
def ER.doRead {σ : Type} [Src σ] (n : Nat) (e : ER σ) : Bytes × Option Err × ER σ :=
  match e.err with
  | some x => ([], some x, e)
  | none =>
    match Src.readFull n e.src with
    | (b, err, s) => (b, err, { src := s, err := err, n := e.n + b.length })

/-- `Read` is reader.go:22-31. `io.ReadFull` on an `ErrReader` makes no call for an empty buffer and otherwise exactly
one, since `ErrReader.Read` fills the buffer or fails. `erErr` is reader.go:18-20. -/
instance {σ : Type} [Src σ] : Src (ER σ) where
  read := ER.doRead
  readFull n e := if n = 0 then ([], none, e) else ER.doRead n e
  erErr e := e.err

end Rap
