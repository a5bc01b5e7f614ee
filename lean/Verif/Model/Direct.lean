import Verif.Model.Encoding
import Verif.Model.Decoding

/-!
# Coder objects constructed with keyword arguments

`UnsignedIntegerEncoder(value_bit_size=24, data_byte_size=5)` and the like: `BaseCoder.__init__`
(/repo/eth_abi/base.py:116-137), the class attributes, and the methods `validate`.

Modelled are the fixed-size classes and their attributes `value_bit_size`, `data_byte_size`, `frac_places`
and `is_big_endian`.  A value is a natural number or `None` (`True` is `1`, `False` is `0`); the bounds of the
signed classes are those of the code when `value_bit_size` is not `0`.  Not modelled: arguments that replace a
method.
-/
namespace EthAbi

/-- The name of a keyword argument: one of the numeric attributes, or a name that no class has.
/repo/eth_abi/encoding.py:165-169,333, /repo/eth_abi/decoding.py:363-365,522. -/
inductive Key where
  | valueBitSize
  | dataByteSize
  | fracPlaces
  | isBigEndian
  | unknown (name : List Char)
  deriving DecidableEq, Repr

/-- The fixed-size classes.  (The `Packed...` encoder classes differ in the default of `data_byte_size`.).
/repo/eth_abi/encoding.py:207-523, /repo/eth_abi/decoding.py:438-583. -/
inductive Cls where
  | bool
  | uint
  | int
  | ufixed
  | fixed
  | address
  | bytesM
  deriving DecidableEq, Repr

/-- The numeric attributes of an object; `none` is `None`.  /repo/eth_abi/encoding.py:165-169,333,
/repo/eth_abi/decoding.py:363-365,522. -/
structure Attrs where
  value : Option Nat
  data : Option Nat
  frac : Option Nat
  big : Option Nat
  deriving DecidableEq, Repr

namespace Cls

/-- `hasattr(cls, key)`: `value_bit_size`, `data_byte_size` and `is_big_endian` are attributes of
`FixedSizeEncoder` and `FixedByteSizeDecoder` (/repo/eth_abi/encoding.py:164-169,
/repo/eth_abi/decoding.py:361-365),
`frac_places` of `BaseFixedEncoder` and `BaseFixedDecoder` (/repo/eth_abi/encoding.py:333,
/repo/eth_abi/decoding.py:522). -/
def hasattr : Cls → Key → Bool
  | _, .valueBitSize => true
  | _, .dataByteSize => true
  | _, .isBigEndian => true
  | .ufixed, .fracPlaces => true
  | .fixed, .fracPlaces => true
  | _, .fracPlaces => false
  | _, .unknown _ => false

/-- The class attributes: /repo/eth_abi/encoding.py:165-169,209-210,214-215,236-237,241,331,450-452,470-471,475
and /repo/eth_abi/decoding.py:363-365,421-422,426-427,450-451,464,478,510,522-523. -/
def attrs : Cls → Attrs
  | .bool => ⟨some 8, some 32, none, some 1⟩
  | .address => ⟨some (20 * 8), some 32, none, some 1⟩
  | .bytesM => ⟨none, some 32, none, some 0⟩
  | _ => ⟨none, some 32, none, some 1⟩

end Cls

/-- `setattr(self, key, value)`.  /repo/eth_abi/base.py:118-135. -/
def Attrs.set (a : Attrs) : Key → Option Nat → Attrs
  | .valueBitSize, v => { a with value := v }
  | .dataByteSize, v => { a with data := v }
  | .fracPlaces, v => { a with frac := v }
  | .isBigEndian, v => { a with big := v }
  | .unknown _, _ => a

/-- The loop of `BaseCoder.__init__`: /repo/eth_abi/base.py:119-130. -/
def initKwargs (c : Cls) : List (Key × Option Nat) → Attrs → PyM Attrs
  | [], a => .ok a
  | (key, v) :: kwargs, a =>
    if !c.hasattr key then .error .attributeError else initKwargs c kwargs (a.set key v)

/-- `may not be none`: `ValueError`.  /repo/eth_abi/encoding.py:174-181, /repo/eth_abi/decoding.py:370-377. -/
def notNone (v : Option Nat) : PyM Nat :=
  match v with
  | some n => .ok n
  | none => .error .valueError

/-- `AddressEncoder.validate`: /repo/eth_abi/encoding.py:459-463. -/
def checkAddressBits (valueBitSize : Nat) : PyM Unit :=
  if valueBitSize ≠ 20 * 8 then .error .valueError else .ok ()

/-- The object `cls(**kwargs)` of an encoder class: /repo/eth_abi/base.py:116-133 with `validate` of the
class (/repo/eth_abi/encoding.py:171-190,246-252,360-367,459-463).  The methods are those of
`Model/Encoding`, with `is_big_endian` as given; `SignedIntegerEncoder.encode` and
`SignedFixedEncoder.encode` do not look at it (/repo/eth_abi/encoding.py:307-316,416-425). -/
def Cls.encoder [Ext] (c : Cls) (kwargs : List (Key × Option Nat)) : PyM Encoder := do
  let a ← initKwargs c kwargs c.attrs
  let v ← notNone a.value
  let d ← notNone a.data
  let bigEndian ← notNone a.big
  let big := decide (bigEndian ≠ 0)
  checkSizes v d
  match c with
  | .bool => return { isDynamic := some false
                      validate := some boolValidate
                      call := fixedSizeEncode boolValidate boolEncodeFn big d }
  | .uint =>
    let validate := intValidate (computeUnsignedIntegerBounds v)
    return { isDynamic := some false
             validate := some validate
             call := fixedSizeEncode validate uintEncodeFn big d }
  | .int => mkSInt v d
  | .ufixed => do
    let f ← notNone a.frac
    checkFrac f
    let validate := fixedValidate (computeUnsignedFixedBounds v f) f
    return { isDynamic := some false
             validate := some validate
             call := fixedSizeEncode validate (ufixedEncodeFn f) big d }
  | .fixed => do
    let f ← notNone a.frac
    mkSFixed v f d
  | .address => do
    checkAddressBits v
    return { isDynamic := some false
             validate := some addressValidate
             call := fixedSizeEncode addressValidate toCanonicalAddress big d }
  | .bytesM => return { isDynamic := some false
                        validate := some (bytesMValidate v)
                        call := fixedSizeEncode (bytesMValidate v) bytesEncodeFn big d }

/-- `SingleDecoder.decode` for an object with `data_byte_size = dataByteSize`:
/repo/eth_abi/decoding.py:251-259,387-418. -/
def decodeFixed (valueBitSize dataByteSize : Nat) (isBigEndian : Bool) (decoderFn : Bytes → PyM PyVal)
    (isNeg : PyVal → Bool) (st : Stream) : PyM (PyVal × Stream) := do
  let (raw, st) ← readFixed dataByteSize st
  let (data, padding) := splitDataAndPadding (valueBitSize / 8) dataByteSize isBigEndian raw
  let value ← decoderFn data
  validatePadding (valueBitSize / 8) dataByteSize (isNeg value) padding
  return (value, st)

/-- The decoders that the registry makes are the case of 32 bytes. -/
theorem decodeFixed_32 (v : Nat) (be : Bool) (fn : Bytes → PyM PyVal) (neg : PyVal → Bool) :
    decodeFixed v 32 be fn neg = decodeFixed32 v be fn neg := rfl

/-- The object `cls(**kwargs)` of a decoder class: /repo/eth_abi/base.py:116-133 with `validate` of the
class (/repo/eth_abi/decoding.py:367-385,525-532).  `AddressDecoder` has no check of its own. -/
def Cls.decoder (c : Cls) (kwargs : List (Key × Option Nat)) : PyM Decoder := do
  let a ← initKwargs c kwargs c.attrs
  let v ← notNone a.value
  let d ← notNone a.data
  let bigEndian ← notNone a.big
  let big := decide (bigEndian ≠ 0)
  checkSizesD v d
  match c with
  | .bool => return fixedDecoder (decodeFixed v d big boolDecoderFn neverNeg)
  | .uint => return fixedDecoder (decodeFixed v d big uintDecoderFn neverNeg)
  | .int => return fixedDecoder (decodeFixed v d big (fun data => .ok (.int (toSigned v data))) valNeg)
  | .ufixed => do
    let f ← notNone a.frac
    checkFracD f
    return fixedDecoder (decodeFixed v d big
      (fun data => .ok (decVal (decDivTenPow (bigEndianToInt data) f))) neverNeg)
  | .fixed => do
    let f ← notNone a.frac
    checkFracD f
    return fixedDecoder (decodeFixed v d big
      (fun data => .ok (decVal (decDivTenPow (toSigned v data) f))) valNeg)
  | .address => return fixedDecoder (decodeFixed v d big addressDecoderFn neverNeg)
  | .bytesM => return fixedDecoder (decodeFixed v d big (fun data => .ok (.bytes data)) neverNeg)

end EthAbi
