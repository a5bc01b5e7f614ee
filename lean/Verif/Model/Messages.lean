import Verif.Model.Codec

/-!
# The texts of the exceptions of `decode`

The decoders of `Model/Decoding.lean` again, each with the text of the exception that a call of it raises.  Nothing is
decoded here a second time: the next state of the stream and the question whether a step raises are always taken from the
functions of `Model/Decoding.lean`.  `none` says that the call returns, or that the text is not the library's (`OverflowError`
and `UnicodeDecodeError` are raised by Python).
-/
namespace EthAbi

/-- The text of an exception.  /repo/eth_abi/decoding.py:215-218,318-321,391-394,415-418. -/
abbrev Msg := List Char

/-- The hexadecimal digit of `n`, which is below 16.  Used in /repo/eth_abi/decoding.py:417. -/
def hexChar (n : Nat) : Char := if n < 10 then Char.ofNat (48 + n) else Char.ofNat (87 + n)

/-- One byte in `repr(b)`, where `q` is the quote: the quote and the backslash with a backslash before them, tab, newline
and carriage return by letter, the other bytes that are not printable ASCII by number.  Used in
/repo/eth_abi/decoding.py:417,441,498,575,611. -/
def byteRepr (q : Char) (x : UInt8) : List Char :=
  if x.toNat = q.toNat ∨ x.toNat = 92 then ['\\', Char.ofNat x.toNat]
  else if x.toNat = 9 then ['\\', 't']
  else if x.toNat = 10 then ['\\', 'n']
  else if x.toNat = 13 then ['\\', 'r']
  else if x.toNat < 32 ∨ 127 ≤ x.toNat then ['\\', 'x', hexChar (x.toNat / 16), hexChar (x.toNat % 16)]
  else [Char.ofNat x.toNat]

/-- The quote that `repr(b)` uses: a single quote, unless there is one in `b` and no double quote.  Used in
/repo/eth_abi/decoding.py:417,441,498,575,611. -/
def reprQuote (b : Bytes) : Char := if 39 ∈ b ∧ 34 ∉ b then '"' else '\''

/-- `repr(b)` of a `bytes` object.  Used in /repo/eth_abi/decoding.py:417,441,498,575,611. -/
def bytesRepr (b : Bytes) : List Char :=
  'b' :: reprQuote b :: (b.flatMap (byteRepr (reprQuote b)) ++ [reprQuote b])

/-- The text of `InsufficientDataBytes` in `FixedByteSizeDecoder`: /repo/eth_abi/decoding.py:391-394. -/
def msgShort (asked got : Nat) : Msg :=
  t!"Tried to read " ++ natDigits asked ++ t!" bytes, only got " ++ natDigits got ++ t!" bytes."

/-- The text of `InsufficientDataBytes` in `ByteStringDecoder`, without a full stop: /repo/eth_abi/decoding.py:603-605. -/
def msgCut (asked got : Nat) : Msg :=
  t!"Tried to read " ++ natDigits asked ++ t!" bytes, only got " ++ natDigits got ++ t!" bytes"

/-- The text of `NonEmptyPaddingBytes`: /repo/eth_abi/decoding.py:416-418,497-499,574-576,610-612. -/
def msgPadding (b : Bytes) : Msg := t!"Padding bytes were not empty: " ++ bytesRepr b

/-- The text of `NonEmptyPaddingBytes` in `BooleanDecoder`: /repo/eth_abi/decoding.py:440-442. -/
def msgBool (b : Bytes) : Msg := t!"Boolean must be either 0x0 or 0x1.  Got: " ++ bytesRepr b

/-- The text of `InvalidPointer` in `TupleDecoder`: /repo/eth_abi/decoding.py:215-218. -/
def msgTuplePtr (loc : Nat) : Msg := t!"Invalid pointer in tuple at location " ++ natDigits loc ++ t!" in payload"

/-- The text of `InvalidPointer` in `BaseArrayDecoder`: /repo/eth_abi/decoding.py:319-322. -/
def msgArrayPtr (loc : Nat) : Msg := t!"Invalid pointer in array at location " ++ natDigits loc ++ t!" in payload"

/-- A decoder object, and the text of the exception that a call of it raises (with `strict` as in `Decoder.run`).
/repo/eth_abi/decoding.py:116-134. -/
structure Saying where
  dec : Decoder
  tells : Flags → Bool → Stream → Option Msg

namespace Saying

/-- A step that may raise, saying `here`, and what is said after it.  /repo/eth_abi/decoding.py:133-134. -/
def after {α : Type} (r : PyM α) (here : Option Msg) (f : α → Option Msg) : Option Msg :=
  match r with
  | .ok a => f a
  | .error _ => here

/-- `decoder(stream)`: /repo/eth_abi/decoding.py:133-134. -/
def call (c : Saying) (fl : Flags) (st : Stream) : Option Msg := c.tells fl (c.dec.isStrict fl) st

/-- `FixedByteSizeDecoder.read_data_from_stream`: /repo/eth_abi/decoding.py:387-396. -/
def readFixed (dataByteSize : Nat) (st : Stream) : Option Msg :=
  after (st.read dataByteSize) none fun (data, _) =>
    if data.length ≠ dataByteSize then some (msgShort dataByteSize data.length) else none

/-- `SingleDecoder.decode` for the 32-byte decoders: /repo/eth_abi/decoding.py:251-259, with the texts of
`validate_padding_bytes` (411-418, 487-499, 564-576).  `fnSays` is the text of the exception of `decoder_fn`. -/
def fixed32 (valueBitSize : Nat) (isBigEndian : Bool) (decoderFn : Bytes → PyM PyVal) (fnSays : Bytes → Option Msg)
    (isNeg : PyVal → Bool) (st : Stream) : Option Msg :=
  after (EthAbi.readFixed 32 st) (readFixed 32 st) fun (raw, _) =>
    let (data, padding) := splitDataAndPadding (valueBitSize / 8) 32 isBigEndian raw
    after (decoderFn data) (fnSays data) fun value =>
      after (validatePadding (valueBitSize / 8) 32 (isNeg value) padding) (some (msgPadding padding)) fun _ => none

/-- A `decoder_fn` without texts of its own: /repo/eth_abi/decoding.py:452,463,481-485,513-514,537-542,553-562. -/
def quiet (_ : Bytes) : Option Msg := none

/-- `BooleanDecoder.decoder_fn`: /repo/eth_abi/decoding.py:433-442. -/
def boolFn (data : Bytes) : Option Msg :=
  if data = [0] then none
  else if data = [1] then none
  else some (msgBool data)

/-- `decode_uint_256(stream)`: /repo/eth_abi/decoding.py:471. -/
def uint256 (st : Stream) : Option Msg := fixed32 256 true uintDecoderFn quiet neverNeg st

/-- A decoder object of a fixed-size class: /repo/eth_abi/decoding.py:361-422. -/
def ofFixed (tells : Stream → Option Msg) (d : Decoder) : Saying := ⟨d, fun _ _ st => tells st⟩

/-- `ByteStringDecoder.read_data_from_stream`: /repo/eth_abi/decoding.py:595-613. -/
def byteString (strict : Bool) (st : Stream) : Option Msg :=
  after (decodeUint256 st) (uint256 st) fun (dataLength, st) =>
    let paddedLength := ceil32 dataLength
    after (st.read paddedLength) none fun (data, _) =>
      if strict then
        if data.length < paddedLength then some (msgCut paddedLength data.length)
        else if data.drop dataLength ≠ List.replicate (paddedLength - dataLength) 0x00 then
          some (msgPadding (data.drop dataLength))
        else none
      else none

/-- `ByteStringDecoder` and `StringDecoder` (what `data.decode("utf-8")` raises is not the library's):
/repo/eth_abi/decoding.py:588-641. -/
def ofBytes (d : Decoder) : Saying := ⟨d, fun _ strict st => byteString strict st⟩

/-- `HeadTailDecoder`: /repo/eth_abi/decoding.py:155-169. -/
def headTail (c : Saying) : Saying where
  dec := EthAbi.headTail c.dec
  tells fl _ st := after (decodeUint256 st) (uint256 st) fun (p, st) => after (st.pushFrame p) none fun st => c.call fl st

/-- The wrapping in the constructor of `TupleDecoder`: /repo/eth_abi/decoding.py:178-181. -/
def wrapDyn (c : Saying) : Saying := if c.dec.dyn then headTail c else c

/-- The loop of `TupleDecoder.validate_pointers`: /repo/eth_abi/decoding.py:201-220.  The location is `stream.tell() - 32`
after the offset was read. -/
def checkLoop (fl : Flags) (currentLocation endOfOffsets : Nat) : List Saying → Stream → Option Msg
  | [], _ => none
  | c :: cs, st =>
    if c.dec.isHeadTail then
      after (decodeUint256 st) (uint256 st) fun (offset, st) =>
        let indicatedIdx := currentLocation + offset
        if indicatedIdx < endOfOffsets ∨ st.data.length ≤ indicatedIdx then some (msgTuplePtr (st.pos - 32))
        else checkLoop fl currentLocation endOfOffsets cs st
    else after (c.dec.call fl st) (c.call fl st) fun (_, st) => checkLoop fl currentLocation endOfOffsets cs st

/-- `for decoder in self.decoders: yield decoder(stream)`: /repo/eth_abi/decoding.py:227-228. -/
def each (fl : Flags) : List Saying → Stream → Option Msg
  | [], _ => none
  | c :: cs, st => after (c.dec.call fl st) (c.call fl st) fun (_, st) => each fl cs st

/-- `TupleDecoder.decode` on the wrapped decoders: /repo/eth_abi/decoding.py:191-228. -/
def tupleSays (fl : Flags) (cs : List Saying) (st : Stream) : Option Msg :=
  after (tupleValidatePointers fl (cs.map (·.dec)) st)
    (checkLoop fl st.pos (st.pos + 32 * lenOfHead (cs.map (·.dec))) cs st) fun st => each fl cs st

/-- `TupleDecoder`: /repo/eth_abi/decoding.py:172-236. -/
def tuple (cs : List Saying) : Saying where
  dec := mkTupleD (cs.map (·.dec))
  tells fl _ st := tupleSays fl (cs.map wrapDyn) st

/-- The loop of `BaseArrayDecoder.validate_pointers`: /repo/eth_abi/decoding.py:309-322. -/
def ptrLoop (currentLocation endOfOffsets : Nat) : Nat → Stream → Option Msg
  | 0, _ => none
  | n + 1, st =>
    after (decodeUint256 st) (uint256 st) fun (offset, st) =>
      let indicatedIdx := currentLocation + offset
      if indicatedIdx < endOfOffsets ∨ st.data.length ≤ indicatedIdx then some (msgArrayPtr (st.pos - 32))
      else ptrLoop currentLocation endOfOffsets n st

/-- `for _ in range(array_size): yield self.item_decoder(stream)`: /repo/eth_abi/decoding.py:340-341,356-357. -/
def many (fl : Flags) (item : Saying) : Nat → Stream → Option Msg
  | 0, _ => none
  | n + 1, st => after (item.dec.call fl st) (item.call fl st) fun (_, st) => many fl item n st

/-- `validate_pointers` and the items of an array: /repo/eth_abi/decoding.py:301-323,338-341,354-357. -/
def arraySays (fl : Flags) (item : Saying) (arraySize : Nat) (st : Stream) : Option Msg :=
  after (arrayValidatePointers item.dec arraySize st)
    (if item.dec.isHeadTail then ptrLoop st.pos (st.pos + 32 * arraySize) arraySize st else none)
    fun st => many fl item arraySize st

/-- `SizedArrayDecoder` and `DynamicArrayDecoder`: /repo/eth_abi/decoding.py:326-358. -/
def array (dim : Option Nat) (c : Saying) : PyM Saying := do
  let d ← mkArrayD dim c.dec
  let item := wrapDyn c
  return { dec := d
           tells := fun fl _ st =>
             match dim with
             | some k => arraySays fl item k st
             | none =>
               after (decodeUint256 st) (uint256 st) fun (k, st) => after (st.pushFrame 32) none fun st =>
                 arraySays fl item k st }

/-- `decoder.strict = strict`: /repo/eth_abi/registry.py:477-481. -/
def setStrict (c : Saying) (strict : Bool) : Saying := { c with dec := c.dec.setStrict strict }

end Saying

/-- A class of fixed-size decoders.  /repo/eth_abi/decoding.py:361-422. -/
def sayingOf (tells : Stream → Option Msg) (d : PyM Decoder) : PyM Saying := do
  let d ← d
  return .ofFixed tells d

/-- The classes registered as decoders in `registry`, with texts: /repo/eth_abi/registry.py:504-575. -/
def sayingDecoders [Ext] : List (Reg Saying) :=
  let bytesM := fun n => sayingOf (Saying.fixed32 (n * 8) false (fun data => .ok (.bytes data)) Saying.quiet neverNeg)
    (mkBytesMD (n * 8))
  [ .cls (basicPlan t!"uint" (intPlan fun n =>
      sayingOf (Saying.fixed32 n true uintDecoderFn Saying.quiet neverNeg) (mkUIntD n))),
    .cls (basicPlan t!"int" (intPlan fun n =>
      sayingOf (Saying.fixed32 n true (fun data => .ok (.int (toSigned n data))) Saying.quiet valNeg) (mkSIntD n))),
    .cls (basicPlan t!"address" fun _ =>
      .ok (.ofFixed (Saying.fixed32 160 true addressDecoderFn Saying.quiet neverNeg) addressDecoder)),
    .cls (basicPlan t!"bool" fun _ =>
      .ok (.ofFixed (Saying.fixed32 8 true boolDecoderFn Saying.boolFn neverNeg) boolDecoder)),
    .cls (basicPlan t!"ufixed" (fixedPlan fun m n =>
      sayingOf (Saying.fixed32 m true (fun data => .ok (decVal (decDivTenPow (bigEndianToInt data) n))) Saying.quiet
        neverNeg) (mkUFixedD m n))),
    .cls (basicPlan t!"fixed" (fixedPlan fun m n =>
      sayingOf (Saying.fixed32 m true (fun data => .ok (decVal (decDivTenPow (toSigned m data) n))) Saying.quiet
        valNeg) (mkSFixedD m n))),
    .cls (basicPlan t!"bytes" (intPlan bytesM)),
    .cls (basicPlan t!"bytes" fun _ => .ok (.ofBytes (byteStringDecoder (.own true)))),
    .cls (basicPlan t!"bytes" (intPlan bytesM)),
    .cls (basicPlan t!"string" fun _ => .ok (.ofBytes (stringDecoder (.own true)))),
    .cls (arrayPlan Saying.array),
    .cls (tuplePlan Saying.tuple) ]

/-- `get_decoder` as `getDecoderFuel` models it, on the decoders with texts: /repo/eth_abi/registry.py:474-483. -/
def getSayingFuel [Ext] (m : Mapping (Reg Saying)) : Nat → TypeStr → Bool → PyM Saying
  | 0, _, _ => .error .recursionError
  | fuel + 1, s, strict =>
    match m.getRegistration s with
    | .ok (.cls plan) => do
      let d ← (plan s).exec (fun s' => getSayingFuel m fuel s' true)
      return d.setStrict strict
    | .ok (.obj d) => .ok (d.setStrict strict)
    | .error e => .error e

/-- The text of the exception that `decode(types, data, strict)` raises while it reads the data; `none` if it raises
none then, or one of Python's: /repo/eth_abi/codec.py:130-163. -/
def decodeSays [Ext] (types : List TypeStr) (data : Bytes) (strict : Bool := true) : Option Msg :=
  Saying.after (mapPyM (fun s => getSayingFuel (mappingOf 0 defaultPreds sayingDecoders) (s.length + 1) s strict)
    types) none fun cs => (Saying.tuple cs).call (fun _ => true) (Stream.init data)

end EthAbi
