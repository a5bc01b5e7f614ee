import Verif.Spec.Read

/-!
# Specification: UTF-8

The table of RFC 3629, section 3, and of the Unicode standard (Table 3-6): the bits of the number of a character are put into
one to four bytes, as few as possible, and surrogates have no UTF-8.
-/
namespace EthAbi.Spec

/-- A surrogate, U+D800 to U+DFFF. -/
def Surrogate (c : CodePoint) : Prop := 0xD800 ≤ c.val ∧ c.val ≤ 0xDFFF

/-- `Utf8Char c b`: the bytes `b`, as numbers, are the UTF-8 of the character with the number `c`.
```
0xxxxxxx
110xxxxx 10xxxxxx
1110xxxx 10xxxxxx 10xxxxxx
11110xxx 10xxxxxx 10xxxxxx 10xxxxxx
```
-/
inductive Utf8Char : Nat → List Nat → Prop where
  | one {x : Nat} : x < 2 ^ 7 → Utf8Char x [x]
  | two {x y : Nat} : x < 2 ^ 5 → y < 2 ^ 6 → 0x80 ≤ x * 2 ^ 6 + y →
      Utf8Char (x * 2 ^ 6 + y) [0b11000000 + x, 0b10000000 + y]
  | three {x y z : Nat} : x < 2 ^ 4 → y < 2 ^ 6 → z < 2 ^ 6 → 0x800 ≤ x * 2 ^ 12 + y * 2 ^ 6 + z →
      ¬ (0xD800 ≤ x * 2 ^ 12 + y * 2 ^ 6 + z ∧ x * 2 ^ 12 + y * 2 ^ 6 + z ≤ 0xDFFF) →
      Utf8Char (x * 2 ^ 12 + y * 2 ^ 6 + z) [0b11100000 + x, 0b10000000 + y, 0b10000000 + z]
  | four {w x y z : Nat} : w < 2 ^ 3 → x < 2 ^ 6 → y < 2 ^ 6 → z < 2 ^ 6 →
      0x10000 ≤ w * 2 ^ 18 + x * 2 ^ 12 + y * 2 ^ 6 + z → w * 2 ^ 18 + x * 2 ^ 12 + y * 2 ^ 6 + z ≤ 0x10FFFF →
      Utf8Char (w * 2 ^ 18 + x * 2 ^ 12 + y * 2 ^ 6 + z)
        [0b11110000 + w, 0b10000000 + x, 0b10000000 + y, 0b10000000 + z]

/-- The bytes are the UTF-8 of the characters, one after the other. -/
inductive Utf8 : PyStr → Bytes → Prop where
  | nil : Utf8 [] []
  | cons {c : CodePoint} {cs : PyStr} {b bs : Bytes} : Utf8Char c.val (b.map UInt8.toNat) → Utf8 cs bs →
      Utf8 (c :: cs) (b ++ bs)

end EthAbi.Spec
