import Lean.Elab.Command
import Verif.Model.Go

/-!
# Text constants of the modelled code
-/

namespace Rap

open Lean in
/-- `b!"text"` is the list of the bytes of the text in UTF-8, written out. -/
macro:max "b!" s:str : term => do
  let mut out ← `(([] : Bytes))
  for b in s.getString.toUTF8.data.toList.reverse do
    out ← `(List.cons ($(quote b.toNat) : UInt8) $out)
  pure out

example : b!"a€" = [97, 0xE2, 0x82, 0xAC] := rfl

end Rap
