import Verif.Spec.JsonDecode

/-!
# Values that are the same but for the order of members
-/

namespace Rap

/-- The values are the same, but for the order of the members of objects. -/
inductive Reordered : JVal → JVal → Prop
  | null : Reordered .null .null
  | bool {b : Bool} : Reordered (.bool b) (.bool b)
  | num {d : F64} : Reordered (.num d) (.num d)
  | str {s : Bytes} : Reordered (.str s) (.str s)
  | arr {l l' : List JVal} : List.Forall₂ Reordered l l' → Reordered (.arr l) (.arr l')
  | obj {d e e' : List (Bytes × JVal)} : d.map (·.1) = e.map (·.1) → List.Forall₂ Reordered (d.map (·.2)) (e.map (·.2)) →
      e.Perm e' → Reordered (.obj d) (.obj e')

/-- Members of objects are in ascending order of their names, and no two have the same name. -/
inductive Sorted : JVal → Prop
  | null : Sorted .null
  | bool {b : Bool} : Sorted (.bool b)
  | num {d : F64} : Sorted (.num d)
  | str {s : Bytes} : Sorted (.str s)
  | arr {l : List JVal} : (∀ v ∈ l, Sorted v) → Sorted (.arr l)
  | obj {d : List (Bytes × JVal)} : (d.map (·.1)).Pairwise (· < ·) → (∀ m ∈ d, Sorted m.2) → Sorted (.obj d)

/-- The value is part of the other one. -/
inductive PartOf : JVal → JVal → Prop
  | self {v : JVal} : PartOf v v
  | item {v w : JVal} {l : List JVal} : w ∈ l → PartOf v w → PartOf v (.arr l)
  | member {v w : JVal} {k : Bytes} {d : List (Bytes × JVal)} : (k, w) ∈ d → PartOf v w → PartOf v (.obj d)

end Rap
