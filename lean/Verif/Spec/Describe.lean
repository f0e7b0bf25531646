import Verif.Spec.Text
import Verif.Spec.Metadata
import Verif.Model.Describe

/-!
# Specification: metadata as text
-/

namespace Rap

/-- The line of one entry of a block. -/
def entryLine (e : Bytes × Bytes) : Bytes := b!"\t\"" ++ e.1 ++ b!"\": " ++ e.2 ++ b!";\n"

/-- `TextOf F p t`: the text `t` shows the value `p`. A block shows every key once, in ascending order of the keys, with the
text of its value. An array shows the code of its items (`a`) and how many it has (`n`), whether it is
stored item by item or as bytes. -/
inductive TextOf (F : FmtExt) : Property → Bytes → Prop where
  | str (s) : TextOf F (.str s) s
  | int {i : BitVec 32} {t} : IsInteger t i.toInt → TextOf F (.int32 i) t
  | f32 (f) : TextOf F (.f32 f) (F.single f)
  | true : TextOf F (.bool .true) b!"true"
  | false : TextOf F (.bool .false) b!"false"
  | byte {b : UInt8} {t} : IsDecimal t b.toNat → TextOf F (.byte b) t
  | vec2 (x y) : TextOf F (.vec2 x y) (F.double x ++ b!", " ++ F.double y)
  | vec3 (x y z) : TextOf F (.vec3 x y z) (F.double x ++ b!", " ++ F.double y ++ b!", " ++ F.double z)
  | time {i : BitVec 64} {t} : IsInteger t i.toInt → TextOf F (.time i) (t ++ b!" μs")
  | block {kvs sorted : Block} {ts : List Bytes} : sorted.Perm kvs → (sorted.map (·.1)).Pairwise (· < ·) →
      sorted.length = ts.length → (∀ x ∈ sorted.zip ts, TextOf F x.1.2 x.2) →
      TextOf F (.block kvs) (b!"{\n" ++ (((sorted.map (·.1)).zip ts).map entryLine).flatten ++ b!"}")
  | array {base : UInt8} {props : List Property} {a n} : IsDecimal a base.toNat → IsDecimal n props.length →
      TextOf F (.array base props) (b!"Type " ++ a ++ b!" Array of " ++ n ++ b!" elements")
  | raw {base : UInt8} {b : Bytes} {a n} : IsDecimal a base.toNat → IsDecimal n b.length →
      TextOf F (.raw base (bytesArrayToBytes b)) (b!"Type " ++ a ++ b!" Array of " ++ n ++ b!" elements")

/-- The value is nil, or is a block that has such a value in it. -/
inductive NilInBlock : Property → Prop where
  | nil : NilInBlock .nil
  | block {kvs : Block} {kv : Bytes × Property} : kv ∈ kvs → NilInBlock kv.2 → NilInBlock (.block kvs)

/-- The same value, if the order of the entries of maps does not count. -/
inductive SameUpToOrder : Property → Property → Prop where
  | refl (p) : SameUpToOrder p p
  | block {kvs kvs' mid : Block} : kvs.Perm mid → mid.map (·.1) = kvs'.map (·.1) →
      (∀ x ∈ mid.zip kvs', SameUpToOrder x.1.2 x.2.2) → SameUpToOrder (.block kvs) (.block kvs')
  | array (base) {l l' : List Property} : l.length = l'.length → (∀ x ∈ l.zip l', SameUpToOrder x.1 x.2) →
      SameUpToOrder (.array base l) (.array base l')

/-- The keys of every map reached through maps are distinct. -/
inductive DistinctKeys : Property → Prop where
  | block {kvs : Block} : (kvs.map (·.1)).Nodup → (∀ kv ∈ kvs, DistinctKeys kv.2) → DistinctKeys (.block kvs)
  | other {p} : (∀ kvs, p ≠ .block kvs) → DistinctKeys p

/-- A block of binary data or of booleans. -/
inductive IsRaw : Property → Prop where
  | mk (base data) : IsRaw (.raw base data)

/-- No raw array is reached through maps. -/
inductive NoRaw : Property → Prop where
  | block {kvs : Block} : (∀ kv ∈ kvs, NoRaw kv.2) → NoRaw (.block kvs)
  | other {p} : (∀ kvs, p ≠ .block kvs) → ¬ IsRaw p → NoRaw p

end Rap
