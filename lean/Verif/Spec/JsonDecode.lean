import Verif.Spec.JsonText
import Verif.Spec.JsonNumber
import Verif.Spec.ParseFloat

/-!
# What a decoder makes of bytes that are JSON texts
-/

namespace Rap

/-- At most `n` arrays and objects are inside each other. -/
inductive Nests : Nat → JVal → Prop
  | null {n : Nat} : Nests n .null
  | bool {n : Nat} {b : Bool} : Nests n (.bool b)
  | num {n : Nat} {d : F64} : Nests n (.num d)
  | str {n : Nat} {s : Bytes} : Nests n (.str s)
  | arr {n : Nat} {items : List JVal} : (∀ v ∈ items, Nests n v) → Nests (n + 1) (.arr items)
  | obj {n : Nat} {d : List (Bytes × JVal)} : (∀ m ∈ d, Nests n m.2) → Nests (n + 1) (.obj d)

/-- The UTF-8 text made of the bytes: those that do not start the UTF-8 form of any character are replaced by U+FFFD. -/
inductive Coerced : Bytes → Bytes → Prop
  | nil : Coerced [] []
  | char {c : Char} {s t : Bytes} : Coerced s t → Coerced (String.utf8EncodeChar c ++ s) (String.utf8EncodeChar c ++ t)
  | bad {b : UInt8} {s t : Bytes} : (∀ c r, b :: s ≠ String.utf8EncodeChar c ++ r) → Coerced s t →
      Coerced (b :: s) (utf8 0xFFFD ++ t)

/-- No number in the text is longer than 2000 characters, unless its exponent has at most five digits. -/
def ModestNumbers (t : Bytes) : Prop := ∀ u, u <:+: t → (∃ minus v, NumberText u minus v) → FloatText.Modest u

/-- The last of the members of each name. -/
def LastMembers (d l : List (Bytes × JVal)) : Prop :=
  (l.map (·.1)).Nodup ∧ ∀ m, m ∈ l ↔ ∃ pre post, d = pre ++ m :: post ∧ m.1 ∉ post.map (·.1)

/-- The value with the last of the members of each name only. -/
inductive LastOnly : JVal → JVal → Prop
  | null : LastOnly .null .null
  | bool {b : Bool} : LastOnly (.bool b) (.bool b)
  | num {d : F64} : LastOnly (.num d) (.num d)
  | str {s : Bytes} : LastOnly (.str s) (.str s)
  | arr {l l' : List JVal} : List.Forall₂ LastOnly l l' → LastOnly (.arr l) (.arr l')
  | obj {d l e : List (Bytes × JVal)} : LastMembers d l → l.map (·.1) = e.map (·.1) →
      List.Forall₂ LastOnly (l.map (·.2)) (e.map (·.2)) → LastOnly (.obj d) (.obj e)

end Rap
