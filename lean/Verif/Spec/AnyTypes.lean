import Verif.Model.AnyTypes
import Verif.Spec.Api

/-! # Specification: type arguments of any kind -/
namespace EthAbi.Spec

/-- The Python value is a `str`. -/
def IsStr (v : PyVal) : Prop := ∃ s, v = .str s

/-- The Python `str` with these characters. -/
def pyStr (s : TypeStr) : PyVal := .str (ofChars s)

/-- The value is a list or a tuple of these strings. -/
def IsListOfStr (v : PyVal) (ss : List TypeStr) : Prop := IsListOf v (ss.map pyStr)

/-- The value is a list or a tuple whose first items are these strings, followed by `x`. -/
def BeginsWith (v : PyVal) (ss : List TypeStr) (x : PyVal) : Prop := ∃ rest, IsListOf v (ss.map pyStr ++ x :: rest)

/-- The text has `()` in it. -/
def HasEmptyParens (s : PyStr) : Prop := ∃ before after, s = before ++ ofChars ['(', ')'] ++ after

end EthAbi.Spec
