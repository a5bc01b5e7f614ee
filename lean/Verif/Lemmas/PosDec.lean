import Verif.Lemmas.Encode
import Verif.Model.Decoding
import Verif.Spec.Read

/-!
# Decoding by positions

`posDec` decodes a type at a position of the data, without a stream and without frames.  The decoder
objects are shown to do the same (`dec_good`).
-/
namespace EthAbi
open Spec

/-- The `n` bytes at position `p`. -/
def bytesAt (d : Bytes) (p n : Nat) : PyM Bytes :=
  if p + n ≤ d.length then .ok ((d.drop p).take n) else .error .insufficientDataBytes

/-- The word at position `p`. -/
def wordAt (d : Bytes) (p : Nat) : PyM Nat := do
  let b ← bytesAt d p 32
  return bigEndianToInt b

/-- The value of the low `n / 8` bytes of a word whose other bytes must be zero. -/
def leafU (n : Nat) (raw : Bytes) : PyM Val :=
  if raw.take (32 - n / 8) = List.replicate (32 - n / 8) 0 then
    .ok (.num (bigEndianToInt (raw.drop (32 - n / 8))))
  else .error .nonEmptyPaddingBytes

/-- The same for a signed value; the other bytes must repeat the sign. -/
def leafS (n : Nat) (raw : Bytes) : PyM Val :=
  let i := toSigned n (raw.drop (32 - n / 8))
  if raw.take (32 - n / 8) = List.replicate (32 - n / 8) (if i < 0 then 0xff else 0) then .ok (.num i)
  else .error .nonEmptyPaddingBytes

/-- The value of an elementary static type in a word. -/
def leafDec : Ty → Bytes → PyM Val
  | .uint n, raw => leafU n raw
  | .ufixed m _, raw => leafU m raw
  | .int n, raw => leafS n raw
  | .fixed m _, raw => leafS m raw
  | .bool, raw =>
    if raw.drop 31 = [0] ∨ raw.drop 31 = [1] then leafU 8 raw else .error .nonEmptyPaddingBytes
  | .address, raw =>
    if raw.take 12 = List.replicate 12 0 then .ok (.raw (raw.drop 12))
    else .error .nonEmptyPaddingBytes
  | .bytesM m, raw =>
    if raw.drop m = List.replicate (32 - m) 0 then .ok (.raw (raw.take m))
    else .error .nonEmptyPaddingBytes
  | _, _ => .error .typeError

/-- A string of bytes with its length word at position `p`. -/
def posBytes (strict : Bool) (d : Bytes) (p : Nat) : PyM Bytes := do
  let n ← wordAt d p
  if ssizeMax < ceil32 n then throw .overflowError
  let b := (d.drop (p + 32)).take (ceil32 n)
  if strict then
    if b.length < ceil32 n then throw .insufficientDataBytes
    if b.drop n ≠ List.replicate (ceil32 n - n) 0 then throw .nonEmptyPaddingBytes
  return b.take n

/-- Decode with `f` at `p`, `p + step`, .... -/
def posMany (f : Nat → PyM Val) (step : Nat) : Nat → Nat → PyM (List Val)
  | 0, _ => .ok []
  | n + 1, p => do
    let x ← f p
    let xs ← posMany f step n (p + step)
    return x :: xs

/-- The pointer test at position `p`. -/
def checkPtr (d : Bytes) (base endOff p : Nat) : PyM Unit := do
  let off ← wordAt d p
  if base + off < endOff ∨ d.length ≤ base + off then throw .invalidPointer

/-- The pointer tests at `p`, `p + 32`, .... -/
def checkPtrs (d : Bytes) (base endOff : Nat) : Nat → Nat → PyM Unit
  | 0, _ => .ok ()
  | n + 1, p => do
    checkPtr d base endOff p
    checkPtrs d base endOff n (p + 32)

/-- What is in the head at `p`: the value itself, or a pointer from `base` to it. -/
def posItem (dynamic : Bool) (f : Nat → PyM Val) (d : Bytes) (base p : Nat) : PyM Val :=
  if dynamic then do
    let off ← wordAt d p
    if ssizeMax < base + off then throw .overflowError
    f (base + off)
  else f p

/-- `getattr(decoder, "array_size", 1)` for the decoder of the type. -/
def arrayDim : Ty → Nat
  | .sized k _ => k
  | _ => 1

/-- The number of words that `TupleDecoder.validate_pointers` counts for a component. -/
def headWords (t : Ty) : Nat := if t.dynamic then 1 else arrayDim t

/-- The items of an array at `p`. -/
def posSeq (dynamic : Bool) (f : Nat → PyM Val) (step k : Nat) (d : Bytes) (p : Nat) :
    PyM (List Val) := do
  (if dynamic then checkPtrs d p (p + 32 * k) k p else .ok ())
  posMany (posItem dynamic f d p) step k p

/-- The validation of one component. -/
def checkHead (dynamic : Bool) (f : Nat → PyM Val) (d : Bytes) (base endOff p : Nat) : PyM Unit :=
  if dynamic then checkPtr d base endOff p
  else f p >>= fun _ => .ok ()

/-- The words counted for all components. -/
def headWordsAll (ts : List Ty) : Nat := (ts.map headWords).sum

mutual
/-- The value of type `t` at position `p`. -/
def posDec (strict : Bool) : Ty → Bytes → Nat → PyM Val
  | .bytes, d, p => do
    let b ← posBytes strict d p
    return .raw b
  | .string, d, p => do
    let b ← posBytes strict d p
    let s ← utf8Decode b
    return .text s
  | .sized k t, d, p => do
    let xs ← posSeq t.dynamic (posDec true t d) (headStep t) k d p
    return .seq xs
  | .dyn t, d, p => do
    let k ← wordAt d p
    let xs ← posSeq t.dynamic (posDec true t d) (headStep t) k d (p + 32)
    return .seq xs
  | .tuple ts, d, p => do
    checkAll ts d p (p + 32 * headWordsAll ts) p
    let xs ← posAll true ts d p p
    return .seq xs
  | t, d, p => do
    let b ← bytesAt d p 32
    leafDec t b
/-- The validation pass over the components: `checkAll ts d base endOff p`. -/
def checkAll : List Ty → Bytes → Nat → Nat → Nat → PyM Unit
  | [], _, _, _, _ => .ok ()
  | t :: ts, d, base, endOff, p => do
    checkHead t.dynamic (posDec true t d) d base endOff p
    checkAll ts d base endOff (p + headStep t)
/-- The components: `posAll strict ts d base p`. -/
def posAll (strict : Bool) : List Ty → Bytes → Nat → Nat → PyM (List Val)
  | [], _, _, _ => .ok []
  | t :: ts, d, base, p => do
    let x ← posItem t.dynamic (posDec strict t d) d base p
    let xs ← posAll strict ts d base (p + headStep t)
    return x :: xs
end

/-- The whole message: the types are the components of a tuple at position 0. -/
def posTop (strict : Bool) (ts : List Ty) (d : Bytes) : PyM (List Val) := do
  checkAll ts d 0 (32 * headWordsAll ts) 0
  posAll strict ts d 0 0

/-! ## The decoder objects -/

/-- The object `SizedArrayDecoder(array_size=k, item_decoder=item)`, of an item that is dynamic or
not. -/
def sizedDec (k : Nat) (dynamic : Bool) (item : Decoder) : Decoder where
  isDynamic := some dynamic
  isHeadTail := false
  arraySize := some k
  strict := .own true
  run fl _ st := sizedArrayDecode fl (if dynamic then headTail item else item) k st

/-- The object `DynamicArrayDecoder(item_decoder=item)`. -/
def dynDec (dynamic : Bool) (item : Decoder) : Decoder where
  isDynamic := some true
  isHeadTail := false
  arraySize := none
  strict := .own true
  run fl _ st := dynamicArrayDecode fl (if dynamic then headTail item else item) st

mutual
/-- The decoder object of a type, as `get_decoder` makes it with `strict=True`. -/
def decOf : Ty → Decoder
  | .uint n => fixedDecoder (decodeFixed32 n true uintDecoderFn neverNeg)
  | .int n => fixedDecoder (decodeFixed32 n true (fun data => .ok (.int (toSigned n data))) valNeg)
  | .address => addressDecoder
  | .bool => boolDecoder
  | .ufixed m n => fixedDecoder (decodeFixed32 m true
      (fun data => .ok (decVal (decDivTenPow (bigEndianToInt data) n))) neverNeg)
  | .fixed m n => fixedDecoder (decodeFixed32 m true
      (fun data => .ok (decVal (decDivTenPow (toSigned m data) n))) valNeg)
  | .bytesM m => fixedDecoder (decodeFixed32 (m * 8) false (fun data => .ok (.bytes data)) neverNeg)
  | .bytes => byteStringDecoder (.own true)
  | .string => stringDecoder (.own true)
  | .sized k t => sizedDec k t.dynamic (decOf t)
  | .dyn t => dynDec t.dynamic (decOf t)
  | .tuple ts => mkTupleD (decsOf ts)
/-- The decoder objects of a list of types. -/
def decsOf : List Ty → List Decoder
  | [] => []
  | t :: ts => decOf t :: decsOf ts
end

/-- `decoder(stream)` does what `posDec` says: the same exception, or the Python value of the same
value; the frames are restored and a static value is skipped exactly. -/
def RunsAs (t : Ty) (res : PyM Val) (st : Stream) (run : PyM (PyVal × Stream)) : Prop :=
  match res with
  | .error e => run = .error e
  | .ok x => ∃ st', run = .ok (toPy t x, st') ∧ st'.data = st.data ∧ st'.frames = st.frames ∧
      st'.total = st.total ∧ st'.pos ≤ ssizeMax ∧ (t.dynamic = false → st'.pos = st.pos + t.size)

/-- What is proved of a decoder object. -/
structure DecGood (t : Ty) (d : Decoder) (strict : Bool) : Prop where
  isDyn : d.isDynamic = some t.dynamic
  notHT : d.isHeadTail = false
  size : d.arraySize.getD 1 = arrayDim t
  run : ∀ fl (st : Stream), st.data.length ≤ ssizeMax → st.pos ≤ ssizeMax →
    (t.dynamic = true → st.total = st.pos) →
    RunsAs t (posDec strict t st.data st.pos) st (d.call fl st)

end EthAbi
