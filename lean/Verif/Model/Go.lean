/-!
# Basic vocabulary of the model

Values shared by all modelled Go code: bytes, errors, panics, the `Go` monad, and the size limit of Go's `make`.
-/

namespace Rap

/-- A Go `[]byte` or `string` (Go strings are arbitrary byte sequences). -/
abbrev Bytes := List UInt8

/-- Error values. Only the identity of an error matters to the code (nil / `io.EOF` / other), so message texts are
replaced by one constructor per `errors.New` site. -/
inductive Err where
  /-- `io.EOF` -/
  | eof
  /-- `io.ErrUnexpectedEOF` -/
  | unexpectedEOF
  /-- `overflow`, internal/io/binary/util.go:9 -/
  | overflow
  /-- any other error coming from the source or the sink -/
  | io (code : Nat)
  /-- "unrecognized property type code", format/metadata/io.go -/
  | badProperty (code : Nat)
  /-- "unrecognized time encoding technique", format/io/time.go:214 -/
  | badTimeTechnique (code : Nat)
  /-- unknown storage technique byte in a stream (euler.go:104, position.go:128) -/
  | badTechnique (code : Nat)
  /-- "no encoder registered to handle stream", format/io/writer.go -/
  | noEncoder
  /-- nil collection / recording / binary / reference, format/io/writer.go -/
  | nilItem
  /-- encoder signature of the file is not registered, format/io/reader.go -/
  | unknownEncoder
  /-- registered encoder is older than the one the file was written with, format/io/reader.go -/
  | oldEncoder
  /-- unsupported file version, format/io/reader.go -/
  | badVersion (v : Nat)
  /-- "capture is not of type ..." -/
  | badCapture
  /-- not chronological, format/validate.go -/
  | notChronological
  /-- a parse error of a text format (JSON, CSV, numbers, hex) -/
  | parse (code : Nat)
  deriving DecidableEq, Repr

/-- Run-time panics of Go. -/
inductive Panic where
  | indexOutOfRange
  | makeSlice
  | nilDeref
  | typeAssertion
  | message
  /-- not a Go outcome: the fuel of a modelled recursion ran out (shown unreachable, `Props/Robust.lean`) -/
  | outOfFuel
  deriving DecidableEq, Repr

/-- A computation that returns a value or panics. -/
abbrev Go (α : Type) := Except Panic α

/-- Go's `maxAlloc` on 64-bit Linux: `make([]T, n)` panics ("makeslice: len out of range") when `n * sizeof(T)`
exceeds 2^48. -/
def maxAlloc : Nat := 2 ^ 48

/-- `uint64` arithmetic wraps around. -/
def u64 (n : Nat) : Nat := n % 2 ^ 64

end Rap
