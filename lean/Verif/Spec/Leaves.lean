import Verif.Spec.Abi
import Mathlib.Algebra.Order.Field.Rat
import Mathlib.Data.Rat.Cast.Defs

/-! # Specification: elementary values -/
namespace EthAbi.Spec

/-- The number that a string of bytes is in big-endian notation. -/
def beValue (b : Bytes) : Nat := b.foldl (fun n x => 256 * n + x.toNat) 0

/-- The exact value of the decimal `m · 10^e`. -/
def decValue (x : Dec10) : ℚ := (x.1 : ℚ) * (10 : ℚ) ^ x.2

/-- The code point is a hexadecimal digit, in any case, with this value. -/
inductive HexDigit : CodePoint → Nat → Prop where
  | digit {c : CodePoint} : 48 ≤ c.val → c.val ≤ 57 → HexDigit c (c.val - 48)
  | lower {c : CodePoint} : 97 ≤ c.val → c.val ≤ 102 → HexDigit c (c.val - 87)
  | upper {c : CodePoint} : 65 ≤ c.val → c.val ≤ 70 → HexDigit c (c.val - 55)

/-- The text is the bytes in hexadecimal, two digits for each. -/
inductive HexText : PyStr → Bytes → Prop where
  | nil : HexText [] []
  | cons {c d : CodePoint} {h l : Nat} {s : PyStr} {x : UInt8} {b : Bytes} : HexDigit c h →
      HexDigit d l → x.toNat = 16 * h + l → HexText s b → HexText (c :: d :: s) (x :: b)

/-- The value spells the address `a`: the 20 bytes themselves, or 40 hexadecimal digits, possibly
after `0x` or `0X`. -/
inductive SpellsAddress : PyVal → Bytes → Prop where
  | bytes {a : Bytes} : a.length = 20 → SpellsAddress (.bytes a) a
  | bytearray {a : Bytes} : a.length = 20 → SpellsAddress (.bytearray a) a
  | text {s : PyStr} {a : Bytes} : a.length = 20 → HexText s a → SpellsAddress (.str s) a
  | text0x {s : PyStr} {a : Bytes} {c d : CodePoint} : c.val = 48 → d.val = 120 ∨ d.val = 88 →
      a.length = 20 → HexText s a → SpellsAddress (.str (c :: d :: s)) a

/-- The text has an upper-case and a lower-case letter among its characters. -/
def MixedCase (s : PyStr) : Prop :=
  (∃ c ∈ s, 65 ≤ c.val ∧ c.val ≤ 90) ∧ ∃ c ∈ s, 97 ≤ c.val ∧ c.val ≤ 122

/-- The case of the letters in `digits` is that of EIP-55: a letter is upper-case when the hexadecimal
digit in its place in the hash of the lower-case digits `low` is 8 or more, and lower-case otherwise. -/
def Checksummed [Ext] (low digits : PyStr) : Prop :=
  ∀ i c, digits[i]? = some c →
    (65 ≤ c.val ∧ c.val ≤ 90 → 8 ≤ Ext.keccakDigit low i) ∧
    (97 ≤ c.val ∧ c.val ≤ 122 → Ext.keccakDigit low i < 8)

end EthAbi.Spec
