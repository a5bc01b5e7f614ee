import Verif.Model.Base

/-!
# `eth_abi/encoding.py`

An encoder object is the record of what the rest of the code can observe of it.  Each Python class
is a function that builds such a record (its constructor and `from_type_str`'s use of it), with
`validate_value` and `encode` as local functions.
-/
namespace EthAbi

/-- An encoder: a `BaseEncoder` object or a plain callable.
* `isDynamic`: the attribute `is_dynamic`, `none` if there is no such attribute;
* `validate`: the method `validate_value`, `none` if there is no such method;
* `call`: `encoder(value)`.  /repo/eth_abi/encoding.py:55-94. -/
structure Encoder where
  isDynamic : Option Bool
  validate : Option (PyVal → PyM Unit)
  call : PyVal → PyM Bytes

namespace Encoder

/-- `getattr(e, "is_dynamic", False)`.  /repo/eth_abi/encoding.py:103,138,600. -/
def dyn (e : Encoder) : Bool := e.isDynamic.getD false

/-- `e.validate_value(value)`; `AttributeError` when there is no such method.
/repo/eth_abi/encoding.py:70-75,128,590. -/
def validateValue (e : Encoder) (v : PyVal) : PyM Unit :=
  match e.validate with
  | some f => f v
  | none => .error .attributeError

end Encoder

/-- `len(value)`, `TypeError` for an object without length.  /repo/eth_abi/encoding.py:118,633,677,695. -/
def pyLen : PyVal → PyM Nat
  | .str s => .ok s.length
  | .bytes b => .ok b.length
  | .bytearray b => .ok b.length
  | .list xs => .ok xs.length
  | .tuple xs => .ok xs.length
  | .seq xs => .ok xs.length
  | _ => .error .typeError

/-- `BaseEncoder.invalidate_value`: /repo/eth_abi/encoding.py:77-91.  The message quotes the value
(/repo/eth_abi/utils/string.py:11), so an integer of too many digits in it leads to a `ValueError`. -/
def invalidateValue [Ext] (v : PyVal) (exc : Exc) : PyM Unit :=
  if reprOk v then .error exc else .error .valueError

/-! ## Fixed-size encoders -/

/-- The checks of `FixedSizeEncoder.validate`: /repo/eth_abi/encoding.py:171-190. -/
def checkSizes (valueBitSize dataByteSize : Nat) : PyM Unit :=
  if valueBitSize % 8 ≠ 0 then .error .valueError
  else if dataByteSize * 8 < valueBitSize then .error .valueError
  else .ok ()

/-- `FixedSizeEncoder.encode` with `is_big_endian`: /repo/eth_abi/encoding.py:195-206. -/
def fixedSizeEncode (validate : PyVal → PyM Unit) (encodeFn : PyVal → PyM Bytes)
    (isBigEndian : Bool) (dataByteSize : Nat) (v : PyVal) : PyM Bytes := do
  validate v
  let base ← encodeFn v
  if isBigEndian then return zpad base dataByteSize
  else return zpadRight base dataByteSize

/-- `BooleanEncoder.validate_value`: /repo/eth_abi/encoding.py:217-220. -/
def boolValidate [Ext] (v : PyVal) : PyM Unit :=
  if isBoolean v then .ok () else invalidateValue v .encodingTypeError

/-- `BooleanEncoder.encode_fn`: /repo/eth_abi/encoding.py:222-229. -/
def boolEncodeFn : PyVal → PyM Bytes
  | .bool true => .ok [1]
  | .bool false => .ok [0]
  | _ => .error .valueError

/-- `BooleanEncoder` (`data_byte_size = 32`) and `PackedBooleanEncoder` (`data_byte_size = 1`):
/repo/eth_abi/encoding.py:213-237. -/
def mkBool [Ext] (dataByteSize : Nat) : PyM Encoder := do
  checkSizes 8 dataByteSize
  return { isDynamic := some false
           validate := some boolValidate
           call := fixedSizeEncode boolValidate boolEncodeFn true dataByteSize }

/-- `NumberEncoder.validate_value` for the integer encoders (`type_check_fn = is_integer`, no
`illegal_value_fn`): /repo/eth_abi/encoding.py:254-275,280-281,301-302.  The message of lines 273-274 has
the bounds in it. -/
def intValidate [Ext] (bounds : Int × Int) (v : PyVal) : PyM Unit :=
  match v with
  | .int i =>
    if i < bounds.1 ∨ bounds.2 < i then
      if strOk bounds.1 && strOk bounds.2 then invalidateValue v .valueOutOfBounds else .error .valueError
    else .ok ()
  | _ => invalidateValue v .encodingTypeError

/-- `encode_fn = int_to_big_endian`: /repo/eth_abi/encoding.py:279. -/
def uintEncodeFn : PyVal → PyM Bytes
  | .int i => intToBigEndian? i
  | _ => .error .typeError

/-- `UnsignedIntegerEncoder` and `PackedUnsignedIntegerEncoder`:
/repo/eth_abi/encoding.py:278-297. -/
def mkUInt [Ext] (valueBitSize dataByteSize : Nat) : PyM Encoder := do
  checkSizes valueBitSize dataByteSize
  let validate := intValidate (computeUnsignedIntegerBounds valueBitSize)
  return { isDynamic := some false
           validate := some validate
           call := fixedSizeEncode validate uintEncodeFn true dataByteSize }

/-- `encode_uint_256(n)`: /repo/eth_abi/encoding.py:288. -/
def encodeUint256 [Ext] (n : Nat) : PyM Bytes :=
  fixedSizeEncode (intValidate (computeUnsignedIntegerBounds 256)) uintEncodeFn true 32 (.int n)

/-- `SignedIntegerEncoder.encode`: /repo/eth_abi/encoding.py:304-316. -/
def sintEncode (validate : PyVal → PyM Unit) (valueBitSize dataByteSize : Nat) (v : PyVal) :
    PyM Bytes := do
  validate v
  match v with
  | .int i =>
    let base ← intToBigEndian? (i % (2 ^ valueBitSize))
    if 0 ≤ i then return zpad base dataByteSize else return fpad base dataByteSize
  | _ => throw .typeError

/-- `SignedIntegerEncoder` and `PackedSignedIntegerEncoder`: /repo/eth_abi/encoding.py:300-329. -/
def mkSInt [Ext] (valueBitSize dataByteSize : Nat) : PyM Encoder := do
  checkSizes valueBitSize dataByteSize
  let validate := intValidate (computeSignedIntegerBounds valueBitSize)
  return { isDynamic := some false
           validate := some validate
           call := sintEncode validate valueBitSize dataByteSize }

/-- The finite decimal a number converts to in an arithmetic operation with a `Decimal`.
/repo/eth_abi/encoding.py:350,376,409. -/
def asDec10? : PyVal → Option Dec10
  | .int i => some (i, 0)
  | .bool b => some (if b then 1 else 0, 0)
  | .dec (.fin m e) => some (m, e)
  | _ => none

/-- `Fraction(n, d) < x`.  Used in /repo/eth_abi/encoding.py:269. -/
def fracLt (n : Int) (d : Nat) (x : Dec10) : Bool :=
  if 0 ≤ x.2 then decide (n < x.1 * 10 ^ x.2.toNat * d) else decide (n * 10 ^ (-x.2).toNat < x.1 * d)

/-- `x < Fraction(n, d)`.  Used in /repo/eth_abi/encoding.py:269. -/
def fracGt (n : Int) (d : Nat) (x : Dec10) : Bool :=
  if 0 ≤ x.2 then decide (x.1 * 10 ^ x.2.toNat * d < n) else decide (x.1 * d < n * 10 ^ (-x.2).toNat)

/-- `BaseFixedEncoder.validate_value` on numbers that are no finite decimal: NaN and infinities are refused by
`illegal_value_fn`, a `complex` cannot be compared with a bound, and a `Fraction` has no remainder by a `Decimal`.
/repo/eth_abi/encoding.py:261-275,339-350. -/
def oddValidate [Ext] (bounds : PyM (Dec10 × Dec10)) (v : PyVal) : PyM Unit :=
  match v with
  | .complex => do
    let _ ← bounds
    throw .typeError
  | .fraction n d => do
    let (lower, upper) ← bounds
    if fracLt n d lower || fracGt n d upper then invalidateValue v .valueOutOfBounds
    throw .typeError
  | _ => invalidateValue v .illegalValue

/-- `BaseFixedEncoder.validate_value` (with `NumberEncoder.validate_value`, `type_check_fn` and
`illegal_value_fn`): /repo/eth_abi/encoding.py:254-275,335-358. -/
def fixedValidate [Ext] (bounds : PyM (Dec10 × Dec10)) (fracPlaces : Nat) (v : PyVal) : PyM Unit := do
  if !(isNumber v && v != .float) then invalidateValue v .encodingTypeError
  match asDec10? v with
  | none => oddValidate bounds v
  | some x =>
    let (lower, upper) ← bounds
    if decLt x lower || decLt upper x then invalidateValue v .valueOutOfBounds
    let residue ← decRem x (tenPowNeg fracPlaces)
    if 0 < residue.1 then invalidateValue v .illegalValue

/-- `integer_value = int(value * TEN**frac_places)`: /repo/eth_abi/encoding.py:375-377,408-410. -/
def fixedScaled (fracPlaces : Nat) (v : PyVal) : PyM Int :=
  match asDec10? v with
  | some x => do
    let scaled ← decMul x (tenPow fracPlaces)
    return decToInt scaled
  | none => throw .typeError

/-- `UnsignedFixedEncoder.encode_fn`: /repo/eth_abi/encoding.py:374-379. -/
def ufixedEncodeFn (fracPlaces : Nat) (v : PyVal) : PyM Bytes := do
  let i ← fixedScaled fracPlaces v
  intToBigEndian? i

/-- The checks of `BaseFixedEncoder.validate`: /repo/eth_abi/encoding.py:360-367. -/
def checkFrac (fracPlaces : Nat) : PyM Unit :=
  if fracPlaces = 0 ∨ 80 < fracPlaces then .error .valueError else .ok ()

/-- `UnsignedFixedEncoder` and `PackedUnsignedFixedEncoder`: /repo/eth_abi/encoding.py:370-400. -/
def mkUFixed [Ext] (valueBitSize fracPlaces dataByteSize : Nat) : PyM Encoder := do
  checkSizes valueBitSize dataByteSize
  checkFrac fracPlaces
  let validate := fixedValidate (computeUnsignedFixedBounds valueBitSize fracPlaces) fracPlaces
  return { isDynamic := some false
           validate := some validate
           call := fixedSizeEncode validate (ufixedEncodeFn fracPlaces) true dataByteSize }

/-- `SignedFixedEncoder.encode`: /repo/eth_abi/encoding.py:407-425. -/
def sfixedEncode (validate : PyVal → PyM Unit) (valueBitSize fracPlaces dataByteSize : Nat)
    (v : PyVal) : PyM Bytes := do
  validate v
  let i ← fixedScaled fracPlaces v
  let base ← intToBigEndian? (i % (2 ^ valueBitSize))
  match asDec10? v with
  | some x => if 0 ≤ x.1 then return zpad base dataByteSize else return fpad base dataByteSize
  | none => throw .typeError

/-- `SignedFixedEncoder` and `PackedSignedFixedEncoder`: /repo/eth_abi/encoding.py:403-446. -/
def mkSFixed [Ext] (valueBitSize fracPlaces dataByteSize : Nat) : PyM Encoder := do
  checkSizes valueBitSize dataByteSize
  checkFrac fracPlaces
  let validate := fixedValidate (computeSignedFixedBounds valueBitSize fracPlaces) fracPlaces
  return { isDynamic := some false
           validate := some validate
           call := sfixedEncode validate valueBitSize fracPlaces dataByteSize }

/-- `AddressEncoder.validate_value`: /repo/eth_abi/encoding.py:454-457. -/
def addressValidate [Ext] (v : PyVal) : PyM Unit :=
  if isAddress v then .ok () else invalidateValue v .encodingTypeError

/-- `AddressEncoder` (`data_byte_size = 32`) and `PackedAddressEncoder` (`data_byte_size = 20`):
/repo/eth_abi/encoding.py:449-471. -/
def mkAddress [Ext] (dataByteSize : Nat) : PyM Encoder := do
  checkSizes (20 * 8) dataByteSize
  return { isDynamic := some false
           validate := some addressValidate
           call := fixedSizeEncode addressValidate toCanonicalAddress true dataByteSize }

/-- `BytesEncoder.validate_value`: /repo/eth_abi/encoding.py:477-487. -/
def bytesMValidate [Ext] (valueBitSize : Nat) (v : PyVal) : PyM Unit :=
  match asBytes? v with
  | none => invalidateValue v .encodingTypeError
  | some b => if valueBitSize / 8 < b.length then invalidateValue v .valueOutOfBounds else .ok ()

/-- `BytesEncoder.encode_fn`: /repo/eth_abi/encoding.py:489-491. -/
def bytesEncodeFn (v : PyVal) : PyM Bytes :=
  match asBytes? v with
  | some b => .ok b
  | none => .error .typeError

/-- `BytesEncoder` and `PackedBytesEncoder`: /repo/eth_abi/encoding.py:474-504. -/
def mkBytesM [Ext] (valueBitSize dataByteSize : Nat) : PyM Encoder := do
  checkSizes valueBitSize dataByteSize
  return { isDynamic := some false
           validate := some (bytesMValidate valueBitSize)
           call := fixedSizeEncode (bytesMValidate valueBitSize) bytesEncodeFn false dataByteSize }

/-! ## `bytes` and `string` -/

/-- `encode_uint_256(len(b)) + zpad_right(b, ceil32(len(b)))`:
/repo/eth_abi/encoding.py:518-523,552-557. -/
def lengthPrefixed [Ext] (b : Bytes) : PyM Bytes := do
  let size ← encodeUint256 b.length
  return size ++ zpadRight b (ceil32 b.length)

/-- `ByteStringEncoder.validate_value`: /repo/eth_abi/encoding.py:510-513. -/
def byteStringValidate [Ext] (v : PyVal) : PyM Unit :=
  match asBytes? v with
  | some _ => .ok ()
  | none => invalidateValue v .encodingTypeError

/-- `ByteStringEncoder`: /repo/eth_abi/encoding.py:507-527. -/
def byteStringEncoder [Ext] : Encoder where
  isDynamic := some true
  validate := some byteStringValidate
  call v := do
    byteStringValidate v
    let b ← bytesEncodeFn v
    lengthPrefixed b

/-- `PackedByteStringEncoder`: /repo/eth_abi/encoding.py:530-536. -/
def packedByteStringEncoder [Ext] : Encoder where
  isDynamic := some false
  validate := some byteStringValidate
  call v := do
    byteStringValidate v
    bytesEncodeFn v

/-- `TextStringEncoder.validate_value`: /repo/eth_abi/encoding.py:542-545. -/
def textValidate [Ext] (v : PyVal) : PyM Unit :=
  match asText? v with
  | some _ => .ok ()
  | none => invalidateValue v .encodingTypeError

/-- `codecs.encode(value, "utf8")`: /repo/eth_abi/encoding.py:551,570. -/
def textEncodeFn (v : PyVal) : PyM Bytes :=
  match asText? v with
  | some s => utf8Encode s
  | none => .error .typeError

/-- `TextStringEncoder`: /repo/eth_abi/encoding.py:539-561. -/
def textStringEncoder [Ext] : Encoder where
  isDynamic := some true
  validate := some textValidate
  call v := do
    textValidate v
    let b ← textEncodeFn v
    lengthPrefixed b

/-- `PackedTextStringEncoder`: /repo/eth_abi/encoding.py:564-570. -/
def packedTextStringEncoder [Ext] : Encoder where
  isDynamic := some false
  validate := some textValidate
  call v := do
    textValidate v
    textEncodeFn v

/-! ## Tuples -/

/-- One iteration of the loop of `TupleEncoder.validate_value`: /repo/eth_abi/encoding.py:126-130.
An `AttributeError` from anywhere inside `validate_value` leads to the call. -/
def validateOrCall (e : Encoder) (v : PyVal) : PyM Unit :=
  match e.validateValue v with
  | .error .attributeError => do
    let _ ← e.call v
    return ()
  | r => r

/-- The loop of `TupleEncoder.validate_value`: /repo/eth_abi/encoding.py:126-130. -/
def tupleValidateItems : List PyVal → List Encoder → PyM Unit
  | v :: vs, e :: es => do
    validateOrCall e v
    tupleValidateItems vs es
  | _, _ => .ok ()

/-- `TupleEncoder.validate_value`: /repo/eth_abi/encoding.py:111-130. -/
def tupleValidate [Ext] (encoders : List Encoder) (v : PyVal) : PyM Unit :=
  match asListLike? v with
  | none => invalidateValue v .encodingTypeError
  | some vs =>
    if vs.length ≠ encoders.length then invalidateValue v .valueOutOfBounds
    else tupleValidateItems vs encoders

/-- The loop filling `raw_head_chunks` and `tail_chunks`: /repo/eth_abi/encoding.py:135-143. -/
def tupleChunks : List PyVal → List Encoder → PyM (List (Option Bytes) × List Bytes)
  | v :: vs, e :: es => do
    let b ← e.call v
    let (hs, ts) ← tupleChunks vs es
    if e.dyn then return (none :: hs, b :: ts) else return (some b :: hs, [] :: ts)
  | _, _ => .ok ([], [])

/-- `sum(32 if item is None else len(item) for item in raw_head_chunks)`:
/repo/eth_abi/encoding.py:145. -/
def headLength (raw : List (Option Bytes)) : Nat :=
  (raw.map fun c => match c with
    | none => 32
    | some b => b.length).sum

/-- `accumulate(xs)`, continuing from `acc`.  /repo/eth_abi/encoding.py:146,605. -/
def accumulateFrom (acc : Nat) : List Nat → List Nat
  | [] => []
  | x :: xs => (acc + x) :: accumulateFrom (acc + x) xs

/-- `(0,) + tuple(accumulate(map(len, tail_chunks[:-1])))`: /repo/eth_abi/encoding.py:146,605. -/
def tailOffsets (tails : List Bytes) : List Nat :=
  0 :: accumulateFrom 0 (tails.dropLast.map List.length)

/-- `head_chunks` of a tuple: /repo/eth_abi/encoding.py:147-150. -/
def tupleHeadChunks [Ext] (headLen : Nat) : List (Option Bytes) → List Nat → PyM (List Bytes)
  | c :: cs, o :: os => do
    let b ← match c with
      | none => encodeUint256 (headLen + o)
      | some b => .ok b
    let bs ← tupleHeadChunks headLen cs os
    return b :: bs
  | _, _ => .ok []

/-- `TupleEncoder.encode`: /repo/eth_abi/encoding.py:132-153. -/
def tupleEncode [Ext] (encoders : List Encoder) (v : PyVal) : PyM Bytes := do
  tupleValidate encoders v
  match asListLike? v with
  | none => throw .typeError
  | some vs =>
    let (raw, tails) ← tupleChunks vs encoders
    let heads ← tupleHeadChunks (headLength raw) raw (tailOffsets tails)
    return (heads ++ tails).flatten

/-- `TupleEncoder`: /repo/eth_abi/encoding.py:97-161. -/
def mkTuple [Ext] (encoders : List Encoder) : Encoder where
  isDynamic := some (encoders.any (·.dyn))
  validate := some (tupleValidate encoders)
  call := tupleEncode encoders

/-! ## Arrays -/

/-- `for item in value: self.item_encoder.validate_value(item)`: /repo/eth_abi/encoding.py:589-590. -/
def arrayValidateItems (item : Encoder) : List PyVal → PyM Unit
  | [] => .ok ()
  | v :: vs => do
    item.validateValue v
    arrayValidateItems item vs

/-- `BaseArrayEncoder.validate_value`: /repo/eth_abi/encoding.py:582-590. -/
def arrayValidate [Ext] (item : Encoder) (v : PyVal) : PyM Unit :=
  match asListLike? v with
  | none => invalidateValue v .encodingTypeError
  | some vs => arrayValidateItems item vs

/-- `validate_value` of `SizedArrayEncoder` (/repo/eth_abi/encoding.py:674-683) and of
`PackedArrayEncoder` (630-639, `array_size` may be `None`). -/
def sizedArrayValidate [Ext] (item : Encoder) (arraySize : Option Nat) (v : PyVal) : PyM Unit := do
  arrayValidate item v
  match arraySize with
  | none => return ()
  | some n =>
    let len ← pyLen v
    if len ≠ n then invalidateValue v .valueOutOfBounds

/-- `tuple(item_encoder(i) for i in value)`: /repo/eth_abi/encoding.py:598. -/
def encodeAll (item : Encoder) : List PyVal → PyM (List Bytes)
  | [] => .ok []
  | v :: vs => do
    let b ← item.call v
    let bs ← encodeAll item vs
    return b :: bs

/-- `tuple(encode_uint_256(head_length + offset) for offset in tail_offsets)`:
/repo/eth_abi/encoding.py:606-608. -/
def arrayHeadChunks [Ext] (headLen : Nat) : List Nat → PyM (List Bytes)
  | [] => .ok []
  | o :: os => do
    let b ← encodeUint256 (headLen + o)
    let bs ← arrayHeadChunks headLen os
    return b :: bs

/-- `BaseArrayEncoder.encode_elements`: /repo/eth_abi/encoding.py:592-609. -/
def encodeElements [Ext] (validate : PyVal → PyM Unit) (item : Encoder) (v : PyVal) : PyM Bytes := do
  validate v
  match asListLike? v with
  | none => throw .typeError
  | some vs =>
    let tails ← encodeAll item vs
    if !item.dyn || vs.length == 0 then return tails.flatten
    else
      let heads ← arrayHeadChunks (32 * vs.length) (tailOffsets tails)
      return (heads ++ tails).flatten

/-- `SizedArrayEncoder`: /repo/eth_abi/encoding.py:660-688.  The constructor reads
`self.item_encoder.is_dynamic` (line 666): `AttributeError` if the item has no such attribute. -/
def mkSizedArray [Ext] (arraySize : Nat) (item : Encoder) : PyM Encoder :=
  match item.isDynamic with
  | none => .error .attributeError
  | some d =>
    let validate := sizedArrayValidate item (some arraySize)
    .ok { isDynamic := some d
          validate := some validate
          call := encodeElements validate item }

/-- `DynamicArrayEncoder`: /repo/eth_abi/encoding.py:691-699. -/
def mkDynamicArray [Ext] (item : Encoder) : Encoder where
  isDynamic := some true
  validate := some (arrayValidate item)
  call v := do
    let len ← pyLen v
    let size ← encodeUint256 len
    let elements ← encodeElements (arrayValidate item) item v
    return size ++ elements

/-- `PackedArrayEncoder`: /repo/eth_abi/encoding.py:627-657. -/
def mkPackedArray [Ext] (arraySize : Option Nat) (item : Encoder) : Encoder where
  isDynamic := some false
  validate := some (sizedArrayValidate item arraySize)
  call := encodeElements (sizedArrayValidate item arraySize) item

end EthAbi
