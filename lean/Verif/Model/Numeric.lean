import Verif.Model.Py

/-!
# `eth_abi/utils/numeric.py`, `eth_abi/utils/padding.py` and the `decimal` arithmetic they use
-/
namespace EthAbi

/-- `ceil32` of any integer: /repo/eth_abi/utils/numeric.py:14-15 (`%` with a positive modulus is
never negative in Python, as `Int.emod`). -/
def ceil32Int (x : Int) : Int :=
  if x % 32 = 0 then x else x + 32 - (x % 32)

/-- `ceil32` of a length, the only use in /repo: /repo/eth_abi/utils/numeric.py:14-15. -/
def ceil32 (x : Nat) : Nat :=
  if x % 32 = 0 then x else x + 32 - (x % 32)

/-- `compute_unsigned_integer_bounds`: /repo/eth_abi/utils/numeric.py:18-22. -/
def computeUnsignedIntegerBounds (numBits : Nat) : Int × Int :=
  (0, 2 ^ numBits - 1)

/-- `compute_signed_integer_bounds`: /repo/eth_abi/utils/numeric.py:25-29.
(`num_bits ≥ 8` on every path that reaches it, so `num_bits - 1` is not truncated.) -/
def computeSignedIntegerBounds (numBits : Nat) : Int × Int :=
  (-1 * 2 ^ (numBits - 1), 2 ^ (numBits - 1) - 1)

/-! ## The fragment of `decimal` used by the code

A finite decimal is a pair `(m, e)` standing for `m · 10^e`.  `abi_decimal_context` is
`decimal.Context(prec=999)` (/repo/eth_abi/utils/numeric.py:6-8): precision 999, round half even,
`Emin = -999999`, `Emax = 999999`, traps InvalidOperation, DivisionByZero and Overflow. -/

/-- A finite decimal `m · 10^e`.  The values of /repo/eth_abi/utils/numeric.py:11,36-55. -/
abbrev Dec10 := Int × Int

/-- `ABI_DECIMAL_PREC`: /repo/eth_abi/utils/numeric.py:6. -/
def abiDecimalPrec : Nat := 999

/-- `Emax` of `decimal.Context(prec=999)`.  /repo/eth_abi/utils/numeric.py:8. -/
def decEmax : Int := 999999

/-- `Etiny = Emin - (prec - 1)` of `decimal.Context(prec=999)`.  /repo/eth_abi/utils/numeric.py:8. -/
def decEtiny : Int := -999999 - 998

/-- Number of decimal digits of `n` (with fuel; `n + 1` always suffices).  /repo/eth_abi/utils/numeric.py:6-8. -/
def ndigitsAux : Nat → Nat → Nat
  | 0, _ => 1
  | fuel + 1, n => if n < 10 then 1 else ndigitsAux fuel (n / 10) + 1

/-- Number of decimal digits of `n`; `1` for `n = 0`.  /repo/eth_abi/utils/numeric.py:6-8. -/
def ndigits (n : Nat) : Nat := ndigitsAux n n

/-- Round `m / 10^k` half to even, on the magnitude.  /repo/eth_abi/utils/numeric.py:6-8. -/
def roundHalfEven (m : Int) (k : Nat) : Int :=
  let a := m.natAbs
  let q := a / 10 ^ k
  let r := a % 10 ^ k
  let q' := if 10 ^ k < 2 * r ∨ (2 * r = 10 ^ k ∧ q % 2 = 1) then q + 1 else q
  if m < 0 then -(q' : Int) else (q' : Int)

/-- Rounding of an exact result `m · 10^e` in `abi_decimal_context` (the `finalize` step of every
`decimal` operation): at most 999 digits, exponent at least `Etiny`, `Overflow` trapped.
/repo/eth_abi/utils/numeric.py:6-8. -/
def ctxFinal (x : Dec10) : PyM Dec10 :=
  let (m, e) := x
  if m = 0 then .ok (0, max e decEtiny)
  else
    let e' := max (max e (e + ((ndigits m.natAbs : Int) - abiDecimalPrec))) decEtiny
    let k := (e' - e).toNat
    let y : Dec10 :=
      if k = 0 then (m, e)
      else
        let m' := roundHalfEven m k
        if m'.natAbs = 10 ^ abiDecimalPrec then (m' / 10, e' + 1) else (m', e')
    if decEmax < y.2 + (ndigits y.1.natAbs : Int) - 1 then .error .decimalOverflow else .ok y

/-- `a * b` in `abi_decimal_context`.  Used in /repo/eth_abi/utils/numeric.py:39,52-53,74,
/repo/eth_abi/encoding.py:376,409. -/
def decMul (a b : Dec10) : PyM Dec10 := ctxFinal (a.1 * b.1, a.2 + b.2)

/-- `TEN ** f` for `0 ≤ f ≤ 80` in `abi_decimal_context` (exact).  Used in /repo/eth_abi/encoding.py:376,409,
/repo/eth_abi/decoding.py:540,560. -/
def tenPow (f : Nat) : Dec10 := (10 ^ f, 0)

/-- `TEN ** -f` for `0 ≤ f ≤ 80` in `abi_decimal_context` (exact).  Used in
/repo/eth_abi/utils/numeric.py:39,51,70, /repo/eth_abi/encoding.py:350. -/
def tenPowNeg (f : Nat) : Dec10 := (1, -(f : Int))

/-- Two decimals brought to the common exponent `min`.  Used in /repo/eth_abi/encoding.py:269,352. -/
def decAlign (a b : Dec10) : Int × Int × Int :=
  let e := min a.2 b.2
  (a.1 * 10 ^ (a.2 - e).toNat, b.1 * 10 ^ (b.2 - e).toNat, e)

/-- `a < b` (comparisons of finite decimals are exact).  Used in /repo/eth_abi/encoding.py:269,352. -/
def decLt (a b : Dec10) : Bool :=
  let (x, y, _) := decAlign a b
  decide (x < y)

/-- `a % b` for finite `b ≠ 0` in `abi_decimal_context`: the remainder of the division truncated
towards zero, so it takes the sign of `a`; `InvalidOperation` if the integer quotient has more
than 999 digits.  Used in /repo/eth_abi/encoding.py:350. -/
def decRem (a b : Dec10) : PyM Dec10 :=
  let (x, y, e) := decAlign a b
  if 10 ^ abiDecimalPrec ≤ (x.tdiv y).natAbs then .error .decimalInvalidOperation
  else ctxFinal (x.tmod y, e)

/-- `int(a)`: truncation towards zero.  Used in /repo/eth_abi/encoding.py:377,410. -/
def decToInt (a : Dec10) : Int :=
  if 0 ≤ a.2 then a.1 * 10 ^ a.2.toNat else a.1.tdiv (10 ^ (-a.2).toNat)

/-- `decimal.Decimal(m) / TEN ** f` in `abi_decimal_context`.  The quotient is exact; `decimal`
returns it with the exponent closest to the ideal exponent `0`, i.e. with trailing zeros removed
while the exponent is negative.  Simplification: rounding is omitted because the only callers have
`|m| < 2^256`, hence far fewer than 999 digits.  Used in /repo/eth_abi/decoding.py:540,560. -/
def decDivTenPow (m : Int) : Nat → Dec10
  | 0 => (m, 0)
  | f + 1 => if m % 10 = 0 then decDivTenPow (m / 10) f else (m, -((f + 1 : Nat) : Int))

/-- `compute_unsigned_fixed_bounds`: /repo/eth_abi/utils/numeric.py:32-41. -/
def computeUnsignedFixedBounds (numBits fracPlaces : Nat) : PyM (Dec10 × Dec10) := do
  let intUpper := (computeUnsignedIntegerBounds numBits).2
  let upper ← decMul (intUpper, 0) (tenPowNeg fracPlaces)
  return ((0, 0), upper)

/-- `compute_signed_fixed_bounds`: /repo/eth_abi/utils/numeric.py:44-55. -/
def computeSignedFixedBounds (numBits fracPlaces : Nat) : PyM (Dec10 × Dec10) := do
  let (intLower, intUpper) := computeSignedIntegerBounds numBits
  let exp := tenPowNeg fracPlaces
  let lower ← decMul (intLower, 0) exp
  let upper ← decMul (intUpper, 0) exp
  return (lower, upper)

/-- `TEN ** p` for any integer in `abi_decimal_context`: the exact power, rounded.  Used in
/repo/eth_abi/utils/numeric.py:70. -/
def tenPowInt (p : Int) : PyM Dec10 :=
  ctxFinal (if 0 ≤ p then (10 ^ p.toNat, 0) else (1, p))

/-- `scale_places(places)(x)`: /repo/eth_abi/utils/numeric.py:58-82, for an `int` (anything else raises
`ValueError`, line 63). -/
def scalePlaces (places : Int) (x : Dec10) : PyM Dec10 := do
  let factor ← tenPowInt (-places)
  decMul x factor

/-! ## `eth_abi/utils/padding.py` -/

/-- `zpad`: /repo/eth_abi/utils/padding.py:8-9 (`bytes.rjust` never truncates). -/
def zpad (value : Bytes) (length : Nat) : Bytes :=
  List.replicate (length - value.length) 0x00 ++ value

/-- `zpad_right`: /repo/eth_abi/utils/padding.py:16-17. -/
def zpadRight (value : Bytes) (length : Nat) : Bytes :=
  value ++ List.replicate (length - value.length) 0x00

/-- `fpad`: /repo/eth_abi/utils/padding.py:24-25. -/
def fpad (value : Bytes) (length : Nat) : Bytes :=
  List.replicate (length - value.length) 0xff ++ value

/-- `value.rjust(length, fill)`, for any integer `length`.  Used in /repo/eth_abi/utils/padding.py:9,25. -/
def rjust (value : Bytes) (length : Int) (fill : UInt8) : Bytes :=
  List.replicate (length - value.length).toNat fill ++ value

/-- `value.ljust(length, fill)`, for any integer `length`.  Used in /repo/eth_abi/utils/padding.py:17. -/
def ljust (value : Bytes) (length : Int) (fill : UInt8) : Bytes :=
  value ++ List.replicate (length - value.length).toNat fill

/-- `zpad` with any integer `length`: /repo/eth_abi/utils/padding.py:8-9. -/
def zpadInt (value : Bytes) (length : Int) : Bytes := rjust value length 0x00

/-- `zpad_right` with any integer `length`: /repo/eth_abi/utils/padding.py:16-17. -/
def zpadRightInt (value : Bytes) (length : Int) : Bytes := ljust value length 0x00

/-- `fpad` with any integer `length`: /repo/eth_abi/utils/padding.py:24-25. -/
def fpadInt (value : Bytes) (length : Int) : Bytes := rjust value length 0xff

/-- `zpad32`, `zpad32_right`, `fpad32`: /repo/eth_abi/utils/padding.py:12,20,28. -/
def zpad32 (value : Bytes) : Bytes := zpadInt value 32
/-- `zpad32_right`: /repo/eth_abi/utils/padding.py:20. -/
def zpad32Right (value : Bytes) : Bytes := zpadRightInt value 32
/-- `fpad32`: /repo/eth_abi/utils/padding.py:28. -/
def fpad32 (value : Bytes) : Bytes := fpadInt value 32

/-- `abbr`: /repo/eth_abi/utils/string.py:6-19, applied to `repr(value)`.  `limit` is any integer. -/
def abbr (rep : List Char) (limit : Int := 79) : PyM (List Char) :=
  if limit < rep.length then
    if limit < 3 then .error .valueError
    else .ok (rep.take (limit - 3).toNat ++ t!"...")
  else .ok rep

end EthAbi
