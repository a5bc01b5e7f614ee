import Verif.Model.Direct

/-!
# Coder objects put together by hand

Expressions such as `TupleEncoder(encoders=(UnsignedIntegerEncoder(value_bit_size=8, data_byte_size=1),
ByteStringEncoder()))`, and the same with the decoder classes.  The arguments of a call are evaluated before
it, from left to right.

Modelled are the keywords `encoders`/`decoders`, `item_encoder`/`item_decoder` and `array_size`, and those of
the fixed-size classes (`Model/Direct`).  Not modelled: `is_dynamic` or `strict` given as a keyword, and
components that are not objects of these classes.
-/
namespace EthAbi

/-- An expression that constructs a coder object.  The keyword arguments of /repo/eth_abi/base.py:118-135 for
the classes of /repo/eth_abi/encoding.py:97-165,574-705 and /repo/eth_abi/decoding.py:137-353. -/
inductive Part where
  /-- `None`, or the keyword is not given. -/
  | none
  /-- A fixed-size class: `UnsignedIntegerEncoder(value_bit_size=24, data_byte_size=5)`. -/
  | fixed (c : Cls) (kwargs : List (Key × Option Nat))
  /-- `ByteStringEncoder()`, `ByteStringDecoder()`. -/
  | byteString
  /-- `TextStringEncoder()`, `StringDecoder()`. -/
  | textString
  /-- `SizedArrayEncoder(array_size=..., item_encoder=...)`, `SizedArrayDecoder(...)`. -/
  | sizedArray (arraySize : Option Nat) (item : Part)
  /-- `DynamicArrayEncoder(item_encoder=...)`, `DynamicArrayDecoder(item_decoder=...)`. -/
  | dynamicArray (item : Part)
  /-- `TupleEncoder()`, `TupleDecoder()`. -/
  | tupleNone
  /-- `TupleEncoder(encoders=(...))`, `TupleDecoder(decoders=(...))`. -/
  | tuple (parts : List Part)

/-- `is None`.  /repo/eth_abi/encoding.py:108-109,579-580, /repo/eth_abi/decoding.py:188-189,283-284. -/
def Part.isNone : Part → Bool
  | .none => true
  | _ => false

/-- `None` where an encoder is expected: it has neither `is_dynamic` nor `validate_value`, and cannot be
called.  /repo/eth_abi/encoding.py:103. -/
def noneEncoder : Encoder where
  isDynamic := none
  validate := none
  call _ := .error .typeError

/-- `None` where a decoder is expected.  /repo/eth_abi/decoding.py:179-183. -/
def noneDecoder : Decoder where
  isDynamic := none
  isHeadTail := false
  arraySize := none
  strict := .own true
  run _ _ _ := .error .typeError

/-- `SizedArrayDecoder` without `array_size`: `BaseArrayDecoder.validate` does not ask for it
(/repo/eth_abi/decoding.py:280-284), and `32 * None` or `range(None)` raises `TypeError` when it is called
(307, 340).  (Inside a `TupleDecoder` the `sum` of line 196 raises the same `TypeError` before the other
components are looked at; here it is raised when this component is reached.) -/
def unsizedDecoder (item : Decoder) : PyM Decoder := do
  let item ← wrapItem item
  return { isDynamic := item.isDynamic
           isHeadTail := false
           arraySize := none
           strict := .own true
           run := fun _ _ _ => .error .typeError }

mutual
/-- The value of the expression with encoder classes: `validate` and `__init__` of `BaseArrayEncoder`
(/repo/eth_abi/encoding.py:576-580), `SizedArrayEncoder` (663-672), `TupleEncoder` (100-109). -/
def Part.encoder [Ext] : Part → PyM Encoder
  | .none => .ok noneEncoder
  | .fixed c kwargs => c.encoder kwargs
  | .byteString => .ok byteStringEncoder
  | .textString => .ok textStringEncoder
  | .sizedArray arraySize item => do
    let e ← item.encoder
    if item.isNone then throw .valueError
    match arraySize with
    | .none => throw .valueError
    | .some n => mkSizedArray n e
  | .dynamicArray item => do
    let e ← item.encoder
    if item.isNone then throw .valueError
    return mkDynamicArray e
  | .tupleNone => .error .valueError
  | .tuple parts => do
    let es ← Part.encoders parts
    return mkTuple es
/-- The components of a tuple.  /repo/eth_abi/encoding.py:100-103. -/
def Part.encoders [Ext] : List Part → PyM (List Encoder)
  | [] => .ok []
  | p :: ps => do
    let e ← p.encoder
    let es ← Part.encoders ps
    return e :: es
end

mutual
/-- The value of the expression with decoder classes: `validate` and `__init__` of `BaseArrayDecoder`
(/repo/eth_abi/decoding.py:271-284), `SizedArrayDecoder` (329-332), `TupleDecoder` (175-189). -/
def Part.decoder : Part → PyM Decoder
  | .none => .ok noneDecoder
  | .fixed c kwargs => c.decoder kwargs
  | .byteString => .ok (byteStringDecoder (.own true))
  | .textString => .ok (stringDecoder (.own true))
  | .sizedArray arraySize item => do
    let d ← item.decoder
    if item.isNone then throw .valueError
    match arraySize with
    | .none => unsizedDecoder d
    | .some n => mkSizedArrayD n d
  | .dynamicArray item => do
    let d ← item.decoder
    if item.isNone then throw .valueError
    mkDynamicArrayD d
  | .tupleNone => .error .valueError
  | .tuple parts => do
    let ds ← Part.decoders parts
    return mkTupleD ds
/-- The components of a tuple.  /repo/eth_abi/decoding.py:175-183. -/
def Part.decoders : List Part → PyM (List Decoder)
  | [] => .ok []
  | p :: ps => do
    let d ← p.decoder
    let ds ← Part.decoders ps
    return d :: ds
end

end EthAbi
