import Mathlib.Data.List.Forall2
import Verif.Spec.Metadata
import Verif.Model.Writer
import Verif.Model.Reader

/-!
# Specification: recordings, outputs, what a file stores
-/

namespace Rap

/-! ## Recordings a user can build -/

/-- Event captures carry metadata built with the public constructors; nothing else is required of a collection. -/
def GoodColl : Coll → Prop
  | .event _ caps => ∀ cap ∈ caps, GoodBlock cap.2.2
  | _ => True

/-- A reference: its metadata is user-built and its size is a uint64. -/
def GoodRef (r : BinRef) : Prop := GoodBlock r.md ∧ r.size < 2 ^ 64

/-- A binary: its metadata is user-built and it announces the number of bytes it holds. -/
def GoodBin (b : Bin) : Prop := GoodBlock b.md ∧ b.size = b.data.length

/-- A recording tree without nil parts whose parts are all user-built. -/
inductive GoodRec : Rec → Prop where
  | mk (id name : Bytes) (colls : List Coll) (recs : List Rec) (md : Block) (bins : List Bin) (refs : List BinRef) :
      (∀ c ∈ colls, GoodColl c) → (∀ r ∈ recs, GoodRec r) → GoodBlock md → (∀ b ∈ bins, GoodBin b) →
      (∀ r ∈ refs, GoodRef r) → GoodRec (.mk id name (colls.map some) recs md (bins.map some) (refs.map some))

/-- `orders` are the orders in which the runtime may iterate the metadata maps of `rec` when the writer collects the
keys: for each map one arrangement of its keys. -/
def KeyOrders (rec : Rec) (orders : List (List Bytes)) : Prop :=
  List.Forall₂ (fun o (b : Block) => o.Perm (b.map (·.1))) orders (visitedBlocks rec)

/-! ## Outputs -/

/-- An output obeying the rules of `io.Writer`: it accepts a prefix of what it is given, and all of it when it reports no
error. `content` is what it has accepted so far. -/
class LawfulSnk (σ : Type) extends Snk σ where
  content : σ → Bytes
  law : ∀ b s, (Snk.write b s).1 ≤ b.length ∧ content (Snk.write b s).2.2 = content s ++ b.take (Snk.write b s).1 ∧
    ((Snk.write b s).2.1 = none → (Snk.write b s).1 = b.length)

instance : LawfulSnk Buf where
  content := Buf.bytes
  law b s := ⟨Nat.le_refl _, by simp [Snk.write], fun _ => rfl⟩

/-- Decompressing what the compressor produced gives the writes back, whatever follows in the file, and ends with
`io.EOF`. -/
def Flate.Lawful (F : Flate) : Prop :=
  ∀ (ws : List Bytes) (rest : Bytes) (fin : Err), F.inflate (F.output F.init ws ++ rest) fin = (ws.flatten, .eof)

end Rap
