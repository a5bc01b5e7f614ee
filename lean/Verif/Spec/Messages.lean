import Verif.Spec.Breaks
import Verif.Model.Messages

/-!
# Specification: what the exceptions of `decode` say

`natDigits n` is `str(n)` and `bytesRepr b` is `repr(b)` (`Spec/BytesText.lean` and `C78_repr`).
-/
namespace EthAbi.Spec

/-- The word in the text. -/
def Container.name : Container → List Char
  | .array => t!"array"
  | .tuple => t!"tuple"

/-- What the exception for a trouble says; `none` if Python raises it and not the library. -/
def Trouble.text : Trouble → Option (List Char)
  | .noWord got => some (t!"Tried to read 32 bytes, only got " ++ natDigits got ++ t!" bytes.")
  | .cut asked got =>
    some (t!"Tried to read " ++ natDigits asked ++ t!" bytes, only got " ++ natDigits got ++ t!" bytes")
  | .pointer c loc =>
    some (t!"Invalid pointer in " ++ c.name ++ t!" at location " ++ natDigits loc ++ t!" in payload")
  | .padding b => some (t!"Padding bytes were not empty: " ++ bytesRepr b)
  | .boolean b => some (t!"Boolean must be either 0x0 or 0x1.  Got: " ++ bytesRepr b)
  | .tooLong => none
  | .notText => none

/-- The types with negative values. -/
def Signed : Ty → Prop
  | .int _ => True
  | .fixed _ _ => True
  | _ => False

end EthAbi.Spec
