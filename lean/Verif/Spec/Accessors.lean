import Verif.Model.Accessors

/-!
# Specification: the captures of a collection, one by one
-/

namespace Rap

/-- `x` is the capture of `c` at place `i`, of the kind that belongs to `c`. -/
inductive Holds : Coll → Nat → Capture → Prop where
  | position {n : Bytes} {c : List (F64 × V3)} {i : Nat} {t : F64} {v : V3} : c[i]? = some (t, v) →
      Holds (.position n c) i (.position t v)
  | euler {n : Bytes} {c : List (F64 × V3)} {i : Nat} {t : F64} {v : V3} : c[i]? = some (t, v) →
      Holds (.euler n c) i (.euler t v)
  | event {n : Bytes} {c : List (F64 × Bytes × Block)} {i : Nat} {t : F64} {name : Bytes} {md : Block} :
      c[i]? = some (t, name, md) → Holds (.event n c) i (.event t name md)
  | enum {n : Bytes} {m : List Bytes} {c : List (F64 × BitVec 64)} {i : Nat} {t : F64} {v : BitVec 64} :
      c[i]? = some (t, v) → Holds (.enum n m c) i (.enum t v)
  | float {n : Bytes} {c : List (F64 × F64)} {i : Nat} {t x : F64} : c[i]? = some (t, x) →
      Holds (.float n c) i (.float t x)
  | other {s n : Bytes} {c : List (F64 × Bytes)} {i : Nat} {t : F64} {v : Bytes} : c[i]? = some (t, v) →
      Holds (.other s n c) i (.other t v)

end Rap
