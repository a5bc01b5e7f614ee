import Verif.Model.Base

/-!
# `eth_abi/decoding.py`

A decoder object is the record of what the rest of the code can observe of it.
-/
namespace EthAbi

/-! ## `ContextFramesBytesIO` -/

/-- `ContextFramesBytesIO`: /repo/eth_abi/decoding.py:35-113.  `frames` is the stack `_frames` with
the top first, `total` is `_total_offset`. -/
structure Stream where
  data : Bytes
  pos : Nat
  frames : List (Nat × Nat)
  total : Nat
  deriving DecidableEq, Repr

namespace Stream

/-- `ContextFramesBytesIO(data)`: /repo/eth_abi/decoding.py:79-83. -/
def init (data : Bytes) : Stream := ⟨data, 0, [], 0⟩

/-- `BytesIO.read(n)`: what is left, at most `n` bytes; `OverflowError` when `n` does not fit in
`Py_ssize_t`.  Used in /repo/eth_abi/decoding.py:388,599. -/
def read (st : Stream) (n : Nat) : PyM (Bytes × Stream) :=
  if ssizeMax < n then .error .overflowError
  else
    let b := (st.data.drop st.pos).take n
    .ok (b, { st with pos := st.pos + b.length })

/-- `BytesIO.seek(pos)`: any position, also past the end; `OverflowError` when it does not fit in
`Py_ssize_t`.  Used in /repo/eth_abi/decoding.py:89,113,222,323. -/
def seek (st : Stream) (pos : Nat) : PyM Stream :=
  if ssizeMax < pos then .error .overflowError else .ok { st with pos := pos }

/-- `seek_in_frame`: /repo/eth_abi/decoding.py:85-89. -/
def seekInFrame (st : Stream) (pos : Nat) : PyM Stream := st.seek (st.total + pos)

/-- `push_frame`: /repo/eth_abi/decoding.py:91-100. -/
def pushFrame (st : Stream) (offset : Nat) : PyM Stream :=
  seekInFrame { st with frames := (offset, st.pos) :: st.frames, total := st.total + offset } 0

/-- `pop_frame`: /repo/eth_abi/decoding.py:102-113.  (`_total_offset` is the sum of the offsets on
the stack, so the subtraction does not go below zero.) -/
def popFrame (st : Stream) : PyM Stream :=
  match st.frames with
  | [] => .error .indexError
  | (offset, ret) :: fs => seek { st with frames := fs, total := st.total - offset } ret

end Stream

/-! ## Decoder objects -/

/-- Where the attribute `strict` of a decoder lives: in the object itself when it was made for this
lookup, or in an object that the user registered and that several lookups share.  /repo/eth_abi/decoding.py:123,
set in /repo/eth_abi/registry.py:477-481. -/
inductive StrictRef where
  | own (b : Bool)
  | shared (id : Nat)
  deriving DecidableEq, Repr

/-- The `strict` attributes of the registered decoder objects.  /repo/eth_abi/decoding.py:123, set in
/repo/eth_abi/registry.py:477-481. -/
abbrev Flags := Nat → Bool

/-- A decoder: a `BaseDecoder` object or a plain callable.
* `isDynamic`: the attribute `is_dynamic`, `none` if absent;
* `isHeadTail`: `isinstance(decoder, HeadTailDecoder)`;
* `arraySize`: the attribute `array_size`, `none` if absent;
* `strict`: where the attribute `strict` is;
* `run flags strict stream`: `decoder(stream)` when the attribute `strict` has the value `strict`.
/repo/eth_abi/decoding.py:116-134. -/
structure Decoder where
  isDynamic : Option Bool
  isHeadTail : Bool
  arraySize : Option Nat
  strict : StrictRef
  run : Flags → Bool → Stream → PyM (PyVal × Stream)

namespace Decoder

/-- `getattr(d, "is_dynamic", False)`.  /repo/eth_abi/decoding.py:179,183,275. -/
def dyn (d : Decoder) : Bool := d.isDynamic.getD false

/-- The current value of `d.strict`.  /repo/eth_abi/decoding.py:123. -/
def isStrict (d : Decoder) (fl : Flags) : Bool :=
  match d.strict with
  | .own b => b
  | .shared i => fl i

/-- `decoder(stream)`.  /repo/eth_abi/decoding.py:133-134. -/
def call (d : Decoder) (fl : Flags) (st : Stream) : PyM (PyVal × Stream) :=
  d.run fl (d.isStrict fl) st

end Decoder

/-! ## Fixed-size decoders -/

/-- The checks of `FixedByteSizeDecoder.validate`: /repo/eth_abi/decoding.py:367-385. -/
def checkSizesD (valueBitSize dataByteSize : Nat) : PyM Unit :=
  if valueBitSize % 8 ≠ 0 then .error .valueError
  else if dataByteSize * 8 < valueBitSize then .error .valueError
  else .ok ()

/-- `FixedByteSizeDecoder.read_data_from_stream`: /repo/eth_abi/decoding.py:387-396. -/
def readFixed (dataByteSize : Nat) (st : Stream) : PyM (Bytes × Stream) := do
  let (data, st) ← st.read dataByteSize
  if data.length ≠ dataByteSize then throw .insufficientDataBytes
  return (data, st)

/-- `split_data_and_padding`: /repo/eth_abi/decoding.py:398-409. -/
def splitDataAndPadding (valueByteSize dataByteSize : Nat) (isBigEndian : Bool) (raw : Bytes) :
    Bytes × Bytes :=
  let paddingSize := dataByteSize - valueByteSize
  if isBigEndian then (raw.drop paddingSize, raw.take paddingSize)
  else (raw.take valueByteSize, raw.drop valueByteSize)

/-- `validate_padding_bytes`: `0x00` expected (/repo/eth_abi/decoding.py:411-418), or `0xff` if the
value is negative (487-499, 564-576). -/
def validatePadding (valueByteSize dataByteSize : Nat) (negative : Bool) (padding : Bytes) :
    PyM Unit :=
  let paddingSize := dataByteSize - valueByteSize
  let expected : Bytes :=
    if negative then List.replicate paddingSize 0xff else List.replicate paddingSize 0x00
  if padding ≠ expected then .error .nonEmptyPaddingBytes else .ok ()

/-- `SingleDecoder.decode` for the 32-byte decoders: /repo/eth_abi/decoding.py:251-259 with
`Fixed32ByteSizeDecoder`.  `isNeg value` says whether `validate_padding_bytes` expects `0xff`. -/
def decodeFixed32 (valueBitSize : Nat) (isBigEndian : Bool) (decoderFn : Bytes → PyM PyVal)
    (isNeg : PyVal → Bool) (st : Stream) : PyM (PyVal × Stream) := do
  let (raw, st) ← readFixed 32 st
  let (data, padding) := splitDataAndPadding (valueBitSize / 8) 32 isBigEndian raw
  let value ← decoderFn data
  validatePadding (valueBitSize / 8) 32 (isNeg value) padding
  return (value, st)

/-- A decoder object of a fixed-size class.  /repo/eth_abi/decoding.py:361-422. -/
def fixedDecoder (run : Stream → PyM (PyVal × Stream)) : Decoder where
  isDynamic := some false
  isHeadTail := false
  arraySize := none
  strict := .own true
  run _ _ st := run st

/-- No value is negative (`FixedByteSizeDecoder.validate_padding_bytes`).  /repo/eth_abi/decoding.py:411-418. -/
def neverNeg (_ : PyVal) : Bool := false

/-- `value < 0` for the integers and decimals decoded by the signed decoders.
/repo/eth_abi/decoding.py:487-499,564-576. -/
def valNeg : PyVal → Bool
  | .int i => decide (i < 0)
  | .dec (.fin m _) => decide (m < 0)
  | _ => false

/-- `BooleanDecoder.decoder_fn`: /repo/eth_abi/decoding.py:433-442. -/
def boolDecoderFn (data : Bytes) : PyM PyVal :=
  if data = [0] then .ok (.bool false)
  else if data = [1] then .ok (.bool true)
  else .error .nonEmptyPaddingBytes

/-- `BooleanDecoder`: /repo/eth_abi/decoding.py:429-446. -/
def boolDecoder : Decoder := fixedDecoder (decodeFixed32 8 true boolDecoderFn neverNeg)

/-- `decoder_fn = to_normalized_address`: /repo/eth_abi/decoding.py:452. -/
def addressDecoderFn (data : Bytes) : PyM PyVal := do
  let s ← toNormalizedAddress data
  return .str s

/-- `AddressDecoder`: /repo/eth_abi/decoding.py:449-456. -/
def addressDecoder : Decoder := fixedDecoder (decodeFixed32 160 true addressDecoderFn neverNeg)

/-- `decoder_fn = big_endian_to_int`: /repo/eth_abi/decoding.py:463. -/
def uintDecoderFn (data : Bytes) : PyM PyVal := .ok (.int (bigEndianToInt data))

/-- `UnsignedIntegerDecoder`: /repo/eth_abi/decoding.py:462-468. -/
def mkUIntD (valueBitSize : Nat) : PyM Decoder := do
  checkSizesD valueBitSize 32
  return fixedDecoder (decodeFixed32 valueBitSize true uintDecoderFn neverNeg)

/-- `decode_uint_256(stream)`: /repo/eth_abi/decoding.py:471. -/
def decodeUint256 (st : Stream) : PyM (Nat × Stream) := do
  let (raw, st) ← readFixed 32 st
  let (data, padding) := splitDataAndPadding (256 / 8) 32 true raw
  let value := bigEndianToInt data
  validatePadding (256 / 8) 32 false padding
  return (value, st)

/-- The signed value of `value_bit_size` bits: /repo/eth_abi/decoding.py:481-485,553-557. -/
def toSigned (valueBitSize : Nat) (data : Bytes) : Int :=
  let value := bigEndianToInt data
  if 2 ^ (valueBitSize - 1) ≤ value then (value : Int) - 2 ^ valueBitSize else value

/-- `SignedIntegerDecoder`: /repo/eth_abi/decoding.py:477-503. -/
def mkSIntD (valueBitSize : Nat) : PyM Decoder := do
  checkSizesD valueBitSize 32
  return fixedDecoder
    (decodeFixed32 valueBitSize true (fun data => .ok (.int (toSigned valueBitSize data))) valNeg)

/-- `BytesDecoder`: /repo/eth_abi/decoding.py:509-518. -/
def mkBytesMD (valueBitSize : Nat) : PyM Decoder := do
  checkSizesD valueBitSize 32
  return fixedDecoder (decodeFixed32 valueBitSize false (fun data => .ok (.bytes data)) neverNeg)

/-- The checks of `BaseFixedDecoder.validate`: /repo/eth_abi/decoding.py:525-532. -/
def checkFracD (fracPlaces : Nat) : PyM Unit :=
  if fracPlaces = 0 ∨ 80 < fracPlaces then .error .valueError else .ok ()

/-- A finite decimal as a Python value.  /repo/eth_abi/decoding.py:540,560. -/
def decVal (x : Dec10) : PyVal := .dec (.fin x.1 x.2)

/-- `UnsignedFixedDecoder`: /repo/eth_abi/decoding.py:535-548. -/
def mkUFixedD (valueBitSize fracPlaces : Nat) : PyM Decoder := do
  checkSizesD valueBitSize 32
  checkFracD fracPlaces
  return fixedDecoder (decodeFixed32 valueBitSize true
    (fun data => .ok (decVal (decDivTenPow (bigEndianToInt data) fracPlaces))) neverNeg)

/-- `SignedFixedDecoder`: /repo/eth_abi/decoding.py:551-582. -/
def mkSFixedD (valueBitSize fracPlaces : Nat) : PyM Decoder := do
  checkSizesD valueBitSize 32
  checkFracD fracPlaces
  return fixedDecoder (decodeFixed32 valueBitSize true
    (fun data => .ok (decVal (decDivTenPow (toSigned valueBitSize data) fracPlaces))) valNeg)

/-! ## `bytes` and `string` -/

/-- `ByteStringDecoder.read_data_from_stream`: /repo/eth_abi/decoding.py:595-613. -/
def readByteString (strict : Bool) (st : Stream) : PyM (Bytes × Stream) := do
  let (dataLength, st) ← decodeUint256 st
  let paddedLength := ceil32 dataLength
  let (data, st) ← st.read paddedLength
  if strict then
    if data.length < paddedLength then throw .insufficientDataBytes
    if data.drop dataLength ≠ List.replicate (paddedLength - dataLength) 0x00 then
      throw .nonEmptyPaddingBytes
  return (data.take dataLength, st)

/-- `ByteStringDecoder`: /repo/eth_abi/decoding.py:588-620.  `ref` is the place of `strict`. -/
def byteStringDecoder (ref : StrictRef) : Decoder where
  isDynamic := some true
  isHeadTail := false
  arraySize := none
  strict := ref
  run _ strict st := do
    let (b, st) ← readByteString strict st
    return (.bytes b, st)

/-- `StringDecoder` with a decoding function in place of `data.decode("utf-8", errors=...)`:
/repo/eth_abi/decoding.py:623-641. -/
def stringDecoderWith (decode : Bytes → PyM PyStr) (ref : StrictRef) : Decoder where
  isDynamic := some true
  isHeadTail := false
  arraySize := none
  strict := ref
  run _ strict st := do
    let (b, st) ← readByteString strict st
    let s ← decode b
    return (.str s, st)

/-- `StringDecoder()`: `handle_string_errors="strict"`.  /repo/eth_abi/decoding.py:623-641. -/
def stringDecoder (ref : StrictRef) : Decoder := stringDecoderWith utf8Decode ref

/-! ## Heads and tails -/

/-- `HeadTailDecoder`: /repo/eth_abi/decoding.py:137-169. -/
def headTail (tail : Decoder) : Decoder where
  isDynamic := some true
  isHeadTail := true
  arraySize := none
  strict := .own true
  run fl _ st := do
    let (startPos, st) ← decodeUint256 st
    let st ← st.pushFrame startPos
    let (value, st) ← tail.call fl st
    let st ← st.popFrame
    return (value, st)

/-! ## Tuples -/

/-- The wrapping in the constructor of `TupleDecoder`: /repo/eth_abi/decoding.py:178-181. -/
def wrapDyn (d : Decoder) : Decoder := if d.dyn then headTail d else d

/-- The loop of `TupleDecoder.validate_pointers`: /repo/eth_abi/decoding.py:201-220. -/
def tupleCheckLoop (fl : Flags) (currentLocation endOfOffsets : Nat) :
    List Decoder → Stream → PyM Stream
  | [], st => .ok st
  | d :: ds, st => do
    let st ←
      if d.isHeadTail then do
        let (offset, st) ← decodeUint256 st
        let indicatedIdx := currentLocation + offset
        if indicatedIdx < endOfOffsets ∨ st.data.length ≤ indicatedIdx then throw .invalidPointer
        pure st
      else do
        let (_, st) ← d.call fl st
        pure st
    tupleCheckLoop fl currentLocation endOfOffsets ds st

/-- `sum(getattr(decoder, "array_size", 1) for decoder in self.decoders)`:
/repo/eth_abi/decoding.py:196-198. -/
def lenOfHead (decoders : List Decoder) : Nat :=
  (decoders.map fun d => d.arraySize.getD 1).sum

/-- `TupleDecoder.validate_pointers`: /repo/eth_abi/decoding.py:191-222. -/
def tupleValidatePointers (fl : Flags) (decoders : List Decoder) (st : Stream) : PyM Stream := do
  let currentLocation := st.pos
  let endOfOffsets := currentLocation + 32 * lenOfHead decoders
  let st ← tupleCheckLoop fl currentLocation endOfOffsets decoders st
  st.seek currentLocation

/-- `for decoder in self.decoders: yield decoder(stream)`: /repo/eth_abi/decoding.py:227-228. -/
def decodeEach (fl : Flags) : List Decoder → Stream → PyM (List PyVal × Stream)
  | [], st => .ok ([], st)
  | d :: ds, st => do
    let (v, st) ← d.call fl st
    let (vs, st) ← decodeEach fl ds st
    return (v :: vs, st)

/-- `TupleDecoder.decode` on the wrapped decoders: /repo/eth_abi/decoding.py:224-228. -/
def tupleDecode (fl : Flags) (decoders : List Decoder) (st : Stream) : PyM (PyVal × Stream) := do
  let st ← tupleValidatePointers fl decoders st
  let (vs, st) ← decodeEach fl decoders st
  return (.tuple vs, st)

/-- `TupleDecoder`: /repo/eth_abi/decoding.py:172-236. -/
def mkTupleD (decoders : List Decoder) : Decoder where
  isDynamic := some ((decoders.map wrapDyn).any (·.dyn))
  isHeadTail := false
  arraySize := none
  strict := .own true
  run fl _ st := tupleDecode fl (decoders.map wrapDyn) st

/-! ## Arrays -/

/-- The loop of `BaseArrayDecoder.validate_pointers`: /repo/eth_abi/decoding.py:309-322. -/
def arrayCheckLoop (currentLocation endOfOffsets : Nat) : Nat → Stream → PyM Stream
  | 0, st => .ok st
  | n + 1, st => do
    let (offset, st) ← decodeUint256 st
    let indicatedIdx := currentLocation + offset
    if indicatedIdx < endOfOffsets ∨ st.data.length ≤ indicatedIdx then throw .invalidPointer
    arrayCheckLoop currentLocation endOfOffsets n st

/-- `BaseArrayDecoder.validate_pointers`: /repo/eth_abi/decoding.py:301-323. -/
def arrayValidatePointers (item : Decoder) (arraySize : Nat) (st : Stream) : PyM Stream := do
  if item.isHeadTail then
    let currentLocation := st.pos
    let endOfOffsets := currentLocation + 32 * arraySize
    let st ← arrayCheckLoop currentLocation endOfOffsets arraySize st
    st.seek currentLocation
  else return st

/-- `for _ in range(array_size): yield self.item_decoder(stream)`:
/repo/eth_abi/decoding.py:340-341,356-357. -/
def decodeN (fl : Flags) (item : Decoder) : Nat → Stream → PyM (List PyVal × Stream)
  | 0, st => .ok ([], st)
  | n + 1, st => do
    let (v, st) ← item.call fl st
    let (vs, st) ← decodeN fl item n st
    return (v :: vs, st)

/-- The constructor of `BaseArrayDecoder`: /repo/eth_abi/decoding.py:271-278.  It reads
`self.item_decoder.is_dynamic`: `AttributeError` if there is no such attribute. -/
def wrapItem (item : Decoder) : PyM Decoder :=
  match item.isDynamic with
  | none => .error .attributeError
  | some d => .ok (if d then headTail item else item)

/-- `SizedArrayDecoder.decode`: /repo/eth_abi/decoding.py:334-341. -/
def sizedArrayDecode (fl : Flags) (item : Decoder) (arraySize : Nat) (st : Stream) :
    PyM (PyVal × Stream) := do
  let st ← arrayValidatePointers item arraySize st
  let (vs, st) ← decodeN fl item arraySize st
  return (.tuple vs, st)

/-- `SizedArrayDecoder`: /repo/eth_abi/decoding.py:326-341. -/
def mkSizedArrayD (arraySize : Nat) (item : Decoder) : PyM Decoder := do
  let item ← wrapItem item
  return { isDynamic := item.isDynamic
           isHeadTail := false
           arraySize := some arraySize
           strict := .own true
           run := fun fl _ st => sizedArrayDecode fl item arraySize st }

/-- `DynamicArrayDecoder.decode`: /repo/eth_abi/decoding.py:348-358. -/
def dynamicArrayDecode (fl : Flags) (item : Decoder) (st : Stream) : PyM (PyVal × Stream) := do
  let (arraySize, st) ← decodeUint256 st
  let st ← st.pushFrame 32
  let st ← arrayValidatePointers item arraySize st
  let (vs, st) ← decodeN fl item arraySize st
  let st ← st.popFrame
  return (.tuple vs, st)

/-- `DynamicArrayDecoder`: /repo/eth_abi/decoding.py:344-358. -/
def mkDynamicArrayD (item : Decoder) : PyM Decoder := do
  let item ← wrapItem item
  return { isDynamic := some true
           isHeadTail := false
           arraySize := none
           strict := .own true
           run := fun fl _ st => dynamicArrayDecode fl item st }

end EthAbi
