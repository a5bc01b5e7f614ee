import Verif.Model.Numeric

/-!
# The `eth_utils` and standard-library functions the code calls

`eth_utils` is an external dependency: nothing here is code of /repo.  These definitions state the
behaviour that /repo relies on, and belong to the trusted base (DESIGN.md).
-/
namespace EthAbi

/-- What the model leaves open about the outside world; every theorem holds for every instance.
* `keccakDigit s i` is the hexadecimal digit `i` of the Keccak-256 hash of the ASCII text `s`, as a
  number.
* `uniWord c` says whether a non-ASCII character is matched by `\w` in a `str` regex.
* `maxStrDigits` is `sys.get_int_max_str_digits()`: the most digits `int(s)` accepts and `repr(i)` gives
  (4300 unless the user changes it, at least 640; `none` for no limit, as in Python before 3.10.7).
* `triesAtEnd` says whether `parsimonious` tries the expression in `e?`, `e*` and `e+` at the very end of the string too (see
  `Model/Pointing.lean`).  Keccak:
/repo/eth_abi/encoding.py:456 and /repo/eth_abi/tools/_strategies.py:103; `\w`:
/repo/eth_abi/grammar.py:408-410; digits: /repo/eth_abi/grammar.py:92-93, /repo/eth_abi/utils/string.py:11; `parsimonious`:
/repo/eth_abi/grammar.py:4-7,14-38. -/
class Ext where
  keccakDigit : PyStr → Nat → Nat
  uniWord : Char → Bool
  maxStrDigits : Option Nat
  maxStrDigits_ge : ∀ n, maxStrDigits = some n → 640 ≤ n
  triesAtEnd : Bool

/-- `str(i)`, `repr(i)` or `f"{i}"` returns: `int` raises `ValueError` where the number has more digits than
`sys.get_int_max_str_digits()`.  Used in /repo/eth_abi/encoding.py:273-274 and /repo/eth_abi/utils/string.py:11. -/
def strOk [Ext] (i : Int) : Bool :=
  match Ext.maxStrDigits with
  | some k => decide (i.natAbs < 10 ^ k)
  | none => true

mutual
/-- `repr(value)` returns: the `repr` of a list, tuple or `deque` takes that of its elements.  Simplification: so that of every
sequence (those of `range` and `memoryview` do not).  Used in
/repo/eth_abi/utils/string.py:11. -/
def reprOk [Ext] : PyVal → Bool
  | .int i => strOk i
  | .list xs => reprOkAll xs
  | .tuple xs => reprOkAll xs
  | .seq xs => reprOkAll xs
  | .fraction n d => strOk n && strOk d
  | _ => true
/-- `repr` of every element returns.  Used in /repo/eth_abi/utils/string.py:11. -/
def reprOkAll [Ext] : List PyVal → Bool
  | [] => true
  | x :: xs => reprOk x && reprOkAll xs
end

/-- `eth_utils.is_boolean`.  Used in /repo/eth_abi/encoding.py:219. -/
def isBoolean : PyVal → Bool
  | .bool _ => true
  | _ => false

/-- `eth_utils.is_integer`: an `int` that is not a `bool`.  Used in /repo/eth_abi/encoding.py:281,302. -/
def isInteger : PyVal → Bool
  | .int _ => true
  | _ => false

/-- `eth_utils.is_number`: `isinstance(value, numbers.Number)`, true of a `bool` too.  Used in
/repo/eth_abi/encoding.py:337. -/
def isNumber : PyVal → Bool
  | .int _ | .bool _ | .float | .dec _ | .complex | .fraction _ _ => true
  | _ => false

/-- `eth_utils.is_bytes`: `bytes` or `bytearray`.  `some` gives the contents.  Used in
/repo/eth_abi/encoding.py:478,512 and /repo/eth_abi/utils/validation.py:11. -/
def asBytes? : PyVal → Option Bytes
  | .bytes b => some b
  | .bytearray b => some b
  | _ => none

/-- `eth_utils.is_text`.  Used in /repo/eth_abi/encoding.py:544. -/
def asText? : PyVal → Option PyStr
  | .str s => some s
  | _ => none

/-- `eth_utils.is_list_like`: a `Sequence` that is not a string or a bytes object.  Used in
/repo/eth_abi/encoding.py:112,583. -/
def asListLike? : PyVal → Option (List PyVal)
  | .list xs => some xs
  | .tuple xs => some xs
  | .seq xs => some xs
  | _ => none

/-- Big-endian digits base 256, most significant first, no leading zero; `[]` for zero.
(With fuel; fuel `n` always suffices.)  Used in /repo/eth_abi/encoding.py:279,305,379,414. -/
def natToBEAux : Nat → Nat → Bytes → Bytes
  | 0, _, acc => acc
  | fuel + 1, n, acc => if n = 0 then acc else natToBEAux fuel (n / 256) (UInt8.ofNat n :: acc)

/-- `eth_utils.int_to_big_endian` on a non-negative integer: the minimal big-endian form, and one
zero byte for zero.  Used in /repo/eth_abi/encoding.py:279,305,379,414. -/
def intToBigEndian (n : Nat) : Bytes :=
  if n = 0 then [0] else natToBEAux n n []

/-- `eth_utils.int_to_big_endian`: `int.to_bytes` raises `OverflowError` on a negative integer.  Used in
/repo/eth_abi/encoding.py:279,305,379,414. -/
def intToBigEndian? (i : Int) : PyM Bytes :=
  if i < 0 then .error .overflowError else .ok (intToBigEndian i.toNat)

/-- `eth_utils.big_endian_to_int`.  Used in /repo/eth_abi/decoding.py:463,481,537,553. -/
def bigEndianToInt (b : Bytes) : Nat :=
  b.foldl (fun acc x => acc * 256 + x.toNat) 0

/-! ## Addresses -/

/-- The value of a hexadecimal digit, either case.  Used in /repo/eth_abi/encoding.py:456. -/
def hexVal (c : CodePoint) : Option Nat :=
  if 48 ≤ c.val ∧ c.val ≤ 57 then some (c.val - 48)
  else if 97 ≤ c.val ∧ c.val ≤ 102 then some (c.val - 87)
  else if 65 ≤ c.val ∧ c.val ≤ 70 then some (c.val - 55)
  else none

/-- `eth_utils.remove_0x_prefix`: drops a leading `0x` or `0X`.  Used in /repo/eth_abi/encoding.py:456. -/
def remove0x : PyStr → PyStr
  | c :: d :: rest => if c.val = 48 ∧ (d.val = 120 ∨ d.val = 88) then rest else c :: d :: rest
  | s => s

/-- `eth_utils.is_hex_address` on text: `(0x)?[0-9a-f]{40}` in full, ignoring case.  Used in
/repo/eth_abi/encoding.py:456. -/
def isHexAddress (s : PyStr) : Bool :=
  (remove0x s).length == 40 && (remove0x s).all fun c => (hexVal c).isSome

/-- ASCII lower case of one code point.  Used in /repo/eth_abi/encoding.py:456. -/
def lowerCP (c : CodePoint) : CodePoint :=
  if h : 65 ≤ c.val ∧ c.val ≤ 90 then ⟨c.val + 32, by omega⟩ else c

/-- The code points of `0x`.  Used in /repo/eth_abi/encoding.py:456. -/
def zeroX : PyStr := [⟨48, by decide⟩, ⟨120, by decide⟩]

/-- `eth_utils.to_normalized_address` on a hex address: `0x` and lower-case digits.  Used in
/repo/eth_abi/encoding.py:456. -/
def normalizedHex (s : PyStr) : PyStr := zeroX ++ (remove0x s).map lowerCP

/-- ASCII upper case of one code point.  Used in /repo/eth_abi/encoding.py:456. -/
def upperCP (c : CodePoint) : CodePoint :=
  if h : 97 ≤ c.val ∧ c.val ≤ 122 then ⟨c.val - 32, by omega⟩ else c

/-- The digits of a checksummed address (EIP-55): a digit is upper-cased if the hash of all the
lower-case digits has a digit above 7 in its place.  Used in /repo/eth_abi/encoding.py:456. -/
def checksumDigits (hash : Nat → Nat) (digits : PyStr) : PyStr :=
  digits.mapIdx fun i c => if 7 < hash i then upperCP c else c

/-- `eth_utils.to_checksum_address` of a normalized address.  Used in /repo/eth_abi/encoding.py:456. -/
def toChecksum [Ext] (norm : PyStr) : PyStr :=
  zeroX ++ checksumDigits (Ext.keccakDigit (remove0x norm)) (remove0x norm)

/-- `_is_checksum_formatted`: on a hex string, `not islower() and not isupper() and not isnumeric()`,
that is, both an upper-case and a lower-case letter occur.  Used in /repo/eth_abi/encoding.py:456. -/
def isChecksumFormatted (s : PyStr) : Bool :=
  (remove0x s).any (fun c => decide (97 ≤ c.val ∧ c.val ≤ 122)) &&
    (remove0x s).any (fun c => decide (65 ≤ c.val ∧ c.val ≤ 90))

/-- `eth_utils.is_checksum_address`.  Used in /repo/eth_abi/encoding.py:456. -/
def isChecksumAddress [Ext] (s : PyStr) : Bool :=
  isHexAddress s && s == toChecksum (normalizedHex s)

/-- `eth_utils.is_address`: a hex address (with a right checksum if it is in mixed case) or a
20-byte bytes object.  Used in /repo/eth_abi/encoding.py:456. -/
def isAddress [Ext] (v : PyVal) : Bool :=
  match asText? v with
  | some s =>
    if isHexAddress s then (if isChecksumFormatted s then isChecksumAddress s else true) else false
  | none =>
    match asBytes? v with
    | some b => b.length == 20
    | none => false

/-- Pairs of hexadecimal digits to bytes (`eth_utils.decode_hex` after the prefix).  Used in
/repo/eth_abi/encoding.py:451. -/
def decodeHexDigits : PyStr → Option Bytes
  | [] => some []
  | [_] => none
  | c :: d :: rest => do
    let x ← hexVal c
    let y ← hexVal d
    let bs ← decodeHexDigits rest
    return UInt8.ofNat (x * 16 + y) :: bs

/-- The lower-case hexadecimal digit of `n % 16`.  Used in /repo/eth_abi/decoding.py:452. -/
def hexDigit (n : Nat) : CodePoint :=
  if h : n % 16 < 10 then ⟨48 + n % 16, by omega⟩ else ⟨87 + n % 16, by omega⟩

/-- `bytes.hex()`.  Used in /repo/eth_abi/decoding.py:452. -/
def encodeHexDigits (b : Bytes) : PyStr :=
  b.flatMap fun x => [hexDigit (x.toNat / 16), hexDigit (x.toNat % 16)]

/-- `eth_utils.to_normalized_address` on a 20-byte bytes object, `ValueError` otherwise.  Used in
/repo/eth_abi/decoding.py:452. -/
def toNormalizedAddress (b : Bytes) : PyM PyStr :=
  if b.length = 20 then .ok (zeroX ++ encodeHexDigits b) else .error .valueError

/-- `eth_utils.to_checksum_address` on a 20-byte bytes object, `ValueError` otherwise.  Used in
/repo/eth_abi/tools/_strategies.py:103. -/
def toChecksumAddress [Ext] (b : Bytes) : PyM PyStr := do
  let norm ← toNormalizedAddress b
  return toChecksum norm

/-- `eth_utils.to_canonical_address`: the 20 bytes of an address given as text or as bytes;
`ValueError`/`TypeError` on anything else (unreachable after `is_address`).  Used in
/repo/eth_abi/encoding.py:451. -/
def toCanonicalAddress (v : PyVal) : PyM Bytes :=
  match asText? v with
  | some s =>
    if isHexAddress s then
      match decodeHexDigits ((remove0x s).map lowerCP) with
      | some b => .ok b
      | none => .error .valueError
    else .error .valueError
  | none =>
    match asBytes? v with
    | some b => if b.length = 20 then .ok b else .error .valueError
    | none => .error .typeError

/-! ## UTF-8 (Python's `utf8` codec, `errors='strict'`) -/

/-- UTF-8 of one code point, by the standard table; surrogates have none.  Used in
/repo/eth_abi/encoding.py:551,570. -/
def utf8Char (c : CodePoint) : Option Bytes :=
  let n := c.val
  if n < 0x80 then some [UInt8.ofNat n]
  else if n < 0x800 then some [UInt8.ofNat (0xC0 + n / 64), UInt8.ofNat (0x80 + n % 64)]
  else if 0xD800 ≤ n ∧ n ≤ 0xDFFF then none
  else if n < 0x10000 then
    some [UInt8.ofNat (0xE0 + n / 4096), UInt8.ofNat (0x80 + n / 64 % 64),
      UInt8.ofNat (0x80 + n % 64)]
  else
    some [UInt8.ofNat (0xF0 + n / 262144), UInt8.ofNat (0x80 + n / 4096 % 64),
      UInt8.ofNat (0x80 + n / 64 % 64), UInt8.ofNat (0x80 + n % 64)]

/-- UTF-8 of a string; `none` if it holds a lone surrogate.  Used in /repo/eth_abi/encoding.py:551,570. -/
def utf8Encode? : PyStr → Option Bytes
  | [] => some []
  | c :: cs => do
    let b ← utf8Char c
    let bs ← utf8Encode? cs
    return b ++ bs

/-- `codecs.encode(value, "utf8")`.  Used in /repo/eth_abi/encoding.py:551,570. -/
def utf8Encode (s : PyStr) : PyM Bytes :=
  match utf8Encode? s with
  | some b => .ok b
  | none => .error .unicodeEncodeError

/-- Is `b` a continuation byte?.  Used in /repo/eth_abi/decoding.py:641. -/
def isCont (b : UInt8) : Bool := decide (0x80 ≤ b.toNat ∧ b.toNat < 0xC0)

/-- Make a code point, if in range.  Used in /repo/eth_abi/decoding.py:641. -/
def mkCP (n : Nat) : Option CodePoint := if h : n < 0x110000 then some ⟨n, h⟩ else none

/-- One step of the strict UTF-8 decoder: no overlong forms, no surrogates, nothing above
U+10FFFF.  Used in /repo/eth_abi/decoding.py:641. -/
def utf8Step : Bytes → Option (CodePoint × Bytes)
  | [] => none
  | b0 :: rest =>
    let x := b0.toNat
    if x < 0x80 then (mkCP x).map fun c => (c, rest)
    else if 0xC2 ≤ x ∧ x < 0xE0 then
      match rest with
      | b1 :: rest =>
        if isCont b1 then
          (mkCP ((x - 0xC0) * 64 + (b1.toNat - 0x80))).map fun c => (c, rest)
        else none
      | _ => none
    else if 0xE0 ≤ x ∧ x < 0xF0 then
      match rest with
      | b1 :: b2 :: rest =>
        let n := (x - 0xE0) * 4096 + (b1.toNat - 0x80) * 64 + (b2.toNat - 0x80)
        if isCont b1 && isCont b2 && decide (0x800 ≤ n) && !decide (0xD800 ≤ n ∧ n ≤ 0xDFFF) then
          (mkCP n).map fun c => (c, rest)
        else none
      | _ => none
    else if 0xF0 ≤ x ∧ x < 0xF5 then
      match rest with
      | b1 :: b2 :: b3 :: rest =>
        let n := (x - 0xF0) * 262144 + (b1.toNat - 0x80) * 4096 + (b2.toNat - 0x80) * 64 +
          (b3.toNat - 0x80)
        if isCont b1 && isCont b2 && isCont b3 && decide (0x10000 ≤ n) then
          (mkCP n).map fun c => (c, rest)
        else none
      | _ => none
    else none

/-- The strict decoder loop (fuel `b.length` always suffices).  Used in /repo/eth_abi/decoding.py:641. -/
def utf8DecodeAux : Nat → Bytes → Option PyStr
  | _, [] => some []
  | 0, _ :: _ => none
  | fuel + 1, b => do
    let (c, rest) ← utf8Step b
    let cs ← utf8DecodeAux fuel rest
    return c :: cs

/-- `data.decode("utf-8", errors="strict")`.  Used in /repo/eth_abi/decoding.py:641. -/
def utf8Decode (b : Bytes) : PyM PyStr :=
  match utf8DecodeAux b.length b with
  | some s => .ok s
  | none => .error .unicodeDecodeError

end EthAbi
