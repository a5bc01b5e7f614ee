import Verif.Model.EthUtils

/-!
# How Python shows bytes

`repr(b)` of a `bytes` object, written down from the documentation, without reference to the model's function.
-/
namespace EthAbi.Spec

/-- The hexadecimal digits. -/
def hexDigits : List Char := t!"0123456789abcdef"

/-- How one byte is shown between two quotes `q`. -/
inductive ByteText (q : Char) : UInt8 → List Char → Prop where
  /-- Printable ASCII as it is. -/
  | plain {c : Char} : 32 ≤ c.toNat → c.toNat ≤ 126 → c ≠ q → c ≠ '\\' → ByteText q (UInt8.ofNat c.toNat) [c]
  /-- The quote and the backslash after a backslash. -/
  | quote : ByteText q (UInt8.ofNat q.toNat) ['\\', q]
  | backslash : ByteText q 92 ['\\', '\\']
  | tab : ByteText q 9 ['\\', 't']
  | newline : ByteText q 10 ['\\', 'n']
  | carriageReturn : ByteText q 13 ['\\', 'r']
  /-- All others by two hexadecimal digits. -/
  | hex {x : UInt8} {i j : Nat} {h l : Char} : x.toNat < 32 ∨ 126 < x.toNat → x ≠ 9 → x ≠ 10 → x ≠ 13 →
      hexDigits[i]? = some h → hexDigits[j]? = some l → x.toNat = 16 * i + j → ByteText q x ['\\', 'x', h, l]

/-- How bytes are shown, one after the other. -/
inductive ByteTexts (q : Char) : Bytes → List Char → Prop where
  | nil : ByteTexts q [] []
  | cons {x : UInt8} {b : Bytes} {w ws : List Char} : ByteText q x w → ByteTexts q b ws → ByteTexts q (x :: b) (w ++ ws)

/-- `repr(b)`: the letter b and the bytes in quotes.  The quotes are double if there is a single quote among the bytes and no double
one, and single otherwise. -/
inductive BytesText : Bytes → List Char → Prop where
  | single {b : Bytes} {w : List Char} : (39 ∉ b ∨ 34 ∈ b) → ByteTexts '\'' b w → BytesText b (t!"b'" ++ w ++ t!"'")
  | double {b : Bytes} {w : List Char} : 39 ∈ b → 34 ∉ b → ByteTexts '"' b w → BytesText b (t!"b\"" ++ w ++ t!"\"")

end EthAbi.Spec
