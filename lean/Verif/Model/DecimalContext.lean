import Verif.Model.Encoding
import Verif.Model.Decoding

/-!
# The decimal contexts of the fixed-point coders

The arithmetic of `decimal` reads the current context of the thread (precision, rounding, range of exponents, traps) and sets
flags in it.  `Model/Numeric` has that arithmetic in `abi_decimal_context` only.  Here is the same arithmetic in any context,
and the lines of the code that switch contexts with `decimal.localcontext`, function by function.
-/
namespace EthAbi.DecimalContext

open EthAbi

/-- The rounding modes of `decimal`.  Python's; used through /repo/eth_abi/utils/numeric.py:8. -/
inductive Rounding where
  | up | down | ceiling | floor | halfUp | halfDown | halfEven | zeroFiveUp
  deriving DecidableEq, Repr

/-- The signals of `decimal` that arithmetic with finite numbers can raise, in the order in which a trapped one is chosen.
Python's; used through /repo/eth_abi/utils/numeric.py:8. -/
inductive Signal where
  | invalidOperation | overflow | underflow | subnormal | inexact | rounded | clamped
  deriving DecidableEq, Repr

/-- A `decimal.Context`.  Simplification: `capitals` (it only shows in the text of a number) and `clamp` (it only moves
zeros between a coefficient and its exponent near the largest exponent) are left out, and so are the signals
`DivisionByZero` and `FloatOperation`: nothing is divided by zero, and no `float` comes to any arithmetic.
Python's; used through /repo/eth_abi/utils/numeric.py:8. -/
structure Ctx where
  prec : Nat
  emin : Int
  emax : Int
  rounding : Rounding
  traps : Signal → Bool
  flags : Signal → Bool

/-- How a computation can stop: with an exception of the rest of the model, with another signal of `decimal` as exception,
or (untrapped) with an infinity or a NaN, from where on it is not followed.  Used in /repo/eth_abi/utils/numeric.py:38-74. -/
inductive Stop where
  | exc (e : Exc)
  | signal (s : Signal)
  | notFinite
  deriving DecidableEq, Repr

/-- A computation that reads and changes the current context of the thread.  An exception does not undo the changes.
Python's; used through /repo/eth_abi/utils/numeric.py:38-74. -/
def DM (α : Type) := Ctx → Except Stop α × Ctx

/-- One statement after the other.  Python's; used through /repo/eth_abi/utils/numeric.py:38-74. -/
instance : Monad DM where
  pure a := fun c => (.ok a, c)
  bind x f := fun c =>
    match x c with
    | (.ok a, c') => f a c'
    | (.error e, c') => (.error e, c')

/-- What raises an exception of the rest of the model.  No code of its own. -/
def lift {α : Type} : PyM α → Except Stop α
  | .ok a => .ok a
  | .error e => .error (.exc e)

/-- Code that neither reads nor changes the current context.  No code of its own. -/
def plain {α : Type} (x : PyM α) : DM α := fun c => (lift x, c)

/-- `with decimal.localcontext(context): body`: the body runs in a copy of `context`, and whatever happens the former context
is the current one again, with its own flags.  Used in /repo/eth_abi/utils/numeric.py:38,50,69,73,
/repo/eth_abi/encoding.py:349,375,408, /repo/eth_abi/decoding.py:539,559. -/
def localcontext {α : Type} (context : Ctx) (body : DM α) : DM α := fun c => ((body context).1, c)

/-- The exception of a trapped signal.  Python's; used through /repo/eth_abi/utils/numeric.py:38-74. -/
def Signal.stop : Signal → Stop
  | .invalidOperation => .exc .decimalInvalidOperation
  | .overflow => .exc .decimalOverflow
  | s => .signal s

/-- An operation has raised `signals`: their flags are set, and the first trapped one is raised as exception.
Python's; used through /repo/eth_abi/utils/numeric.py:38-74. -/
def addStatus {α : Type} (signals : List Signal) (result : Except Stop α) : DM α := fun c =>
  (match signals.find? c.traps with
    | some s => .error s.stop
    | none => result,
   { c with flags := fun s => c.flags s || signals.contains s })

/-- Whether a magnitude `q + r / p` with `0 < r < p` is rounded away from zero.
Python's; used through /repo/eth_abi/utils/numeric.py:8. -/
def Rounding.away (mode : Rounding) (neg : Bool) (q r p : Nat) : Bool :=
  match mode with
  | .up => true
  | .down => false
  | .ceiling => !neg
  | .floor => neg
  | .halfUp => decide (p ≤ 2 * r)
  | .halfDown => decide (p < 2 * r)
  | .halfEven => decide (p < 2 * r ∨ (2 * r = p ∧ q % 2 = 1))
  | .zeroFiveUp => decide (q % 10 = 0 ∨ q % 10 = 5)

/-- `m / 10^k` rounded to an integer, on the magnitude.  Python's; used through /repo/eth_abi/utils/numeric.py:8. -/
def roundTo (mode : Rounding) (m : Int) (k : Nat) : Int :=
  let a := m.natAbs
  let q := a / 10 ^ k
  let r := a % 10 ^ k
  let q' := if r ≠ 0 ∧ mode.away (decide (m < 0)) q r (10 ^ k) = true then q + 1 else q
  if m < 0 then -(q' : Int) else (q' : Int)

/-- The last step of every operation: the exact result is brought into the current context (`_fix` of `_pydecimal.py`).
Simplification: the exponent of a zero is not cut at the largest exponent, which changes no value.
Python's; used through /repo/eth_abi/utils/numeric.py:38-74. -/
def finalize (x : Dec10) : DM Dec10 := fun c =>
  let (m, e) := x
  let etiny : Int := c.emin - (c.prec - 1)
  if m = 0 then
    addStatus (if e < etiny then [.clamped] else []) (.ok (0, max e etiny)) c
  else
    let digits : Int := ndigits m.natAbs
    let subnormal := decide (e + digits - 1 < c.emin)
    let e' := max (max e (e + (digits - c.prec))) etiny
    let k := (e' - e).toNat
    let m' := roundTo c.rounding m k
    let y : Dec10 :=
      if k = 0 then (m, e)
      else if m'.natAbs = 10 ^ c.prec then (m' / 10, e' + 1) else (m', e')
    if c.emax < y.2 + (ndigits y.1.natAbs : Int) - 1 then
      addStatus [.overflow, .inexact, .rounded] (.error .notFinite) c
    else
      let changed := decide (k ≠ 0 ∧ m.natAbs % 10 ^ k ≠ 0)
      addStatus ((if changed && subnormal then [.underflow] else []) ++ (if subnormal then [.subnormal] else []) ++
        (if changed then [.inexact] else []) ++ (if k ≠ 0 then [.rounded] else []) ++
        (if k ≠ 0 ∧ y.1 = 0 then [.clamped] else [])) (.ok y) c

/-- `a * b`.  Used in /repo/eth_abi/utils/numeric.py:39,52-53,74, /repo/eth_abi/encoding.py:376,409. -/
def mul (a b : Dec10) : DM Dec10 := finalize (a.1 * b.1, a.2 + b.2)

/-- `TEN ** p`.  Used in /repo/eth_abi/utils/numeric.py:39,51,70, /repo/eth_abi/encoding.py:350,376,409,
/repo/eth_abi/decoding.py:540,560. -/
def powTen (p : Int) : DM Dec10 := finalize (if 0 ≤ p then (10 ^ p.toNat, 0) else (1, p))

/-- `a % b` for `b ≠ 0`: `InvalidOperation` if the integer quotient has more digits than the precision.
Used in /repo/eth_abi/encoding.py:350. -/
def rem (a b : Dec10) : DM Dec10 := fun c =>
  let (x, y, e) := decAlign a b
  if 10 ^ c.prec ≤ (x.tdiv y).natAbs then addStatus [.invalidOperation] (.error .notFinite) c
  else finalize (x.tmod y, e) c

/-- `decimal.Decimal(m) / TEN ** f`: the power is computed first; the exact quotient with the exponent closest to `0` is
brought into the context.  Simplification: in a context of fewer than 81 digits the power can have another exponent, and then
trailing zeros of the quotient differ.  Used in /repo/eth_abi/decoding.py:540,560. -/
def divTenPow (m : Int) (f : Nat) : DM Dec10 := do
  let _ ← powTen f
  finalize (decDivTenPow m f)

/-- `decimal.Context(prec=ABI_DECIMAL_PREC)`: what is not given is taken from `decimal.DefaultContext` as it is when the
package is imported; the new context has no flags set.  /repo/eth_abi/utils/numeric.py:6-8. -/
def importedContext (default : Ctx) : Ctx := { default with prec := 999, flags := fun _ => false }

/-- `decimal.DefaultContext` as Python sets it up.  Used in /repo/eth_abi/utils/numeric.py:8. -/
def defaultContext : Ctx where
  prec := 28
  emin := -999999
  emax := 999999
  rounding := .halfEven
  traps := fun s => s = .invalidOperation || s = .overflow
  flags := fun _ => false

/-- `compute_unsigned_fixed_bounds`: /repo/eth_abi/utils/numeric.py:32-41. -/
def unsignedFixedBounds (abi : Ctx) (numBits fracPlaces : Nat) : DM (Dec10 × Dec10) := do
  let intUpper := (computeUnsignedIntegerBounds numBits).2
  let upper ← localcontext abi (do
    let exp ← powTen (-(fracPlaces : Int))
    mul (intUpper, 0) exp)
  return ((0, 0), upper)

/-- `compute_signed_fixed_bounds`: /repo/eth_abi/utils/numeric.py:44-55. -/
def signedFixedBounds (abi : Ctx) (numBits fracPlaces : Nat) : DM (Dec10 × Dec10) := do
  let (intLower, intUpper) := computeSignedIntegerBounds numBits
  localcontext abi (do
    let exp ← powTen (-(fracPlaces : Int))
    let lower ← mul (intLower, 0) exp
    let upper ← mul (intUpper, 0) exp
    return (lower, upper))

/-- `scale_places(places)(x)`: /repo/eth_abi/utils/numeric.py:58-82. -/
def scalePlaces (abi : Ctx) (places : Int) (x : Dec10) : DM Dec10 := do
  let factor ← localcontext abi (powTen (-places))
  localcontext abi (mul x factor)

/-- `BaseFixedEncoder.validate_value`: /repo/eth_abi/encoding.py:254-275,335-358.  The comparisons are outside the
`with` statement; comparing finite numbers uses no context. -/
def fixedValidate [Ext] (abi : Ctx) (bounds : DM (Dec10 × Dec10)) (fracPlaces : Nat) (v : PyVal) : DM Unit := do
  plain (if !(isNumber v && v != .float) then invalidateValue v .encodingTypeError else .ok ())
  match asDec10? v with
  | none =>
    match v with
    | .complex => do
      let b ← bounds
      plain (oddValidate (.ok b) v)
    | .fraction _ _ => do
      let b ← bounds
      plain (oddValidate (.ok b) v)
    | _ => plain (invalidateValue v .illegalValue)
  | some x => do
    let (lower, upper) ← bounds
    plain (if decLt x lower || decLt upper x then invalidateValue v .valueOutOfBounds else .ok ())
    let residue ← localcontext abi (do
      let exp ← powTen (-(fracPlaces : Int))
      rem x exp)
    plain (if 0 < residue.1 then invalidateValue v .illegalValue else .ok ())

/-- `integer_value = int(value * TEN**frac_places)`: /repo/eth_abi/encoding.py:375-377,408-410. -/
def fixedScaled (abi : Ctx) (fracPlaces : Nat) (v : PyVal) : DM Int :=
  match asDec10? v with
  | some x => localcontext abi (do
    let exp ← powTen fracPlaces
    let scaled ← mul x exp
    return decToInt scaled)
  | none => plain (.error .typeError)

/-- `UnsignedFixedEncoder.encode`: /repo/eth_abi/encoding.py:191-202,370-379. -/
def ufixedEncode [Ext] (abi : Ctx) (valueBitSize fracPlaces dataByteSize : Nat) (isBigEndian : Bool) (v : PyVal) :
    DM Bytes := do
  fixedValidate abi (unsignedFixedBounds abi valueBitSize fracPlaces) fracPlaces v
  let i ← fixedScaled abi fracPlaces v
  let base ← plain (intToBigEndian? i)
  if isBigEndian then return zpad base dataByteSize
  else return zpadRight base dataByteSize

/-- `SignedFixedEncoder.encode`: /repo/eth_abi/encoding.py:403-425. -/
def sfixedEncode [Ext] (abi : Ctx) (valueBitSize fracPlaces dataByteSize : Nat) (v : PyVal) : DM Bytes := do
  fixedValidate abi (signedFixedBounds abi valueBitSize fracPlaces) fracPlaces v
  let i ← fixedScaled abi fracPlaces v
  let base ← plain (intToBigEndian? (i % (2 ^ valueBitSize)))
  match asDec10? v with
  | some x => if 0 ≤ x.1 then return zpad base dataByteSize else return fpad base dataByteSize
  | none => plain (.error .typeError)

/-- `UnsignedFixedDecoder.decoder_fn`: /repo/eth_abi/decoding.py:536-542. -/
def ufixedDecoderFn (abi : Ctx) (fracPlaces : Nat) (data : Bytes) : DM PyVal := do
  let value := bigEndianToInt data
  let x ← localcontext abi (divTenPow value fracPlaces)
  return decVal x

/-- `SignedFixedDecoder.decoder_fn`: /repo/eth_abi/decoding.py:552-562. -/
def sfixedDecoderFn (abi : Ctx) (valueBitSize fracPlaces : Nat) (data : Bytes) : DM PyVal := do
  let x ← localcontext abi (divTenPow (toSigned valueBitSize data) fracPlaces)
  return decVal x

/-- `SingleDecoder.decode` with such a `decoder_fn`: /repo/eth_abi/decoding.py:251-259,387-418. -/
def decodeFixed (valueBitSize : Nat) (decoderFn : Bytes → DM PyVal) (isNeg : PyVal → Bool) (st : Stream) :
    DM (PyVal × Stream) := do
  let (raw, st) ← plain (readFixed 32 st)
  let (data, padding) := splitDataAndPadding (valueBitSize / 8) 32 true raw
  let value ← decoderFn data
  plain (validatePadding (valueBitSize / 8) 32 (isNeg value) padding)
  return (value, st)

end EthAbi.DecimalContext
