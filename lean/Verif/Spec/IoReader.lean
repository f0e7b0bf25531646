import Verif.Model.Reader

/-!
# Every io.Reader

`Model/Prog.lean` has two kinds of sources: bytes in memory and bytes handed out in given pieces. Here a source is any
implementation of the interface `io.Reader`: a state and a `Read` method, which decides call by call how many
bytes to hand out and whether to report the end of the data together with the last of them.
-/

namespace Rap

/-- The loop of `io.ReadAtLeast` (Go standard library): call `Read` until `n` bytes have arrived or an error comes. Each
call without an error brings a byte (see `Honest`), so `n` rounds are enough. -/
def readLoop {σ : Type} (rd : Nat → σ → Bytes × Option Err × σ) : (fuel n : Nat) → σ → Bytes × Option Err × σ
  | 0, _, s => ([], none, s)
  | fuel + 1, n, s =>
    if n = 0 then ([], none, s)
    else
      match rd n s with
      | (b, some e, s') => (b, some e, s')
      | (b, none, s') =>
        match readLoop rd fuel (n - b.length) s' with
        | (b', e, s'') => (b ++ b', e, s'')

/-- `io.ReadFull` (Go standard library): an error that comes with the last byte asked for is dropped; `io.EOF` after
some bytes becomes `io.ErrUnexpectedEOF`. -/
def ioReadFull {σ : Type} (rd : Nat → σ → Bytes × Option Err × σ) (n : Nat) (s : σ) : Bytes × Option Err × σ :=
  match readLoop rd n n s with
  | (b, e, s') =>
    if n ≤ b.length then (b, none, s')
    else if b.isEmpty then (b, e, s')
    else (b, e.map fun e => if e = .eof then .unexpectedEOF else e, s')

/-- The contract of `io.Reader`, with its advice not to return "0, nil": a call hands out at least one and at most `n`
of the remaining bytes, in order; or it hands out all that remain (possibly none) together with the final error. Which
of the two, and how many bytes, may depend on the state and on `n`. -/
def Honest {σ : Type} (rd : Nat → σ → Bytes × Option Err × σ) (content : σ → Bytes) (fin : σ → Err) : Prop :=
  ∀ n s, 0 < n →
    content s = (rd n s).1 ++ content (rd n s).2.2 ∧ (rd n s).1.length ≤ n ∧ fin (rd n s).2.2 = fin s ∧
      ((rd n s).2.1 = none ∧ (rd n s).1 ≠ [] ∨ (rd n s).2.1 = some (fin s) ∧ content (rd n s).2.2 = [])

/-- An implementation of `io.Reader` that keeps the contract. `content` names the bytes a state has still to hand out
and `fin` the error at their end; the code cannot see them. -/
structure IoReader where
  σ : Type
  read : Nat → σ → Bytes × Option Err × σ
  content : σ → Bytes
  fin : σ → Err
  honest : Honest read content fin

/-- A state of the reader. -/
structure IoReader.At (R : IoReader) where
  st : R.σ

instance (R : IoReader) : Drain R.At where
  read n s := match R.read n s.st with | (b, e, s') => (b, e, ⟨s'⟩)
  readFull n s := match ioReadFull R.read n s.st with | (b, e, s') => (b, e, ⟨s'⟩)
  erErr _ := none
  rest s := (R.content s.st, R.fin s.st)

/-- `Reader.Read` (format/io/reader.go:168-235) like `read`, but with a decompressor (`flate.NewReader`, line 206) that
hands out the decompressed bytes as it likes: `inflated b e` is its state when it has `b` to hand out and `e` to report
at the end. -/
def readVia {σ τ : Type} [Drain σ] [Drain τ] (inflated : Bytes → Err → τ) (F : Flate) (X : Ext)
    (unmarshal : Bytes → Except Err V1.Recording) (registered : List Encoder) (s : σ) :
    Go ((Rec × Nat × Option Err) × σ) := do
  match ← (readPrelude X unmarshal registered).run s with
  | (.inl r, s) => .ok (r, s)
  | (.inr (encs, flag, total), s) =>
    if flag = 1 then do
      let r := F.inflate (Drain.rest s).1 (Drain.rest s).2
      let (res, _) ← readBody encs total (inflated r.1 r.2)
      .ok (res, s)
    else readBody encs total s

end Rap
