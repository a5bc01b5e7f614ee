import Verif.Model.Codec

/-!
# The texts of the exceptions of `encode`

The encoders of `Model/Encoding.lean` again, each with what `invalidate_value` is told when `validate_value` raises.  Nothing is
validated here a second time where another encoder is asked: whether that raises is always taken from `Model/Encoding.lean`.
`none` says that `validate_value` returns, or that the text is not the library's.  Simplification: how Python prints values, their
classes and decimals is left open (`Printing`).
-/
namespace EthAbi

/-- The reason given: the argument `msg` of `invalidate_value`.  /repo/eth_abi/encoding.py:115,122-123,273-274,356-357,486,
586,637-638,681-682. -/
inductive Reason where
  /-- No `msg`: /repo/eth_abi/encoding.py:220,258,264,457,479,513,545. -/
  | plain
  /-- /repo/eth_abi/encoding.py:115. -/
  | tupleList
  /-- /repo/eth_abi/encoding.py:586. -/
  | arrayList
  /-- /repo/eth_abi/encoding.py:122-123,637-638,681-682. -/
  | count (has want : Nat)
  /-- /repo/eth_abi/encoding.py:273-274, integers. -/
  | bounds (bits : Nat) (lower upper : Int)
  /-- /repo/eth_abi/encoding.py:273-274, decimals. -/
  | decBounds (bits : Nat) (lower upper : Dec10)
  /-- /repo/eth_abi/encoding.py:356-357. -/
  | residue (r : Dec10) (places : Nat)
  /-- /repo/eth_abi/encoding.py:486. -/
  | size (bytes : Nat)

/-- What the text is made of: the value, the name of the class and the reason.  /repo/eth_abi/encoding.py:88-91. -/
structure Complaint where
  value : PyVal
  cls : List Char
  reason : Reason

/-- How Python prints: `repr(value)`, `str(type(value))`, `str(i)` for an integer and `str(d)` for a `Decimal`.
/repo/eth_abi/encoding.py:89,273-274,356, /repo/eth_abi/utils/string.py:11. -/
structure Printing where
  rep : PyVal → List Char
  type : PyVal → List Char
  int : Int → List Char
  dec : Dec10 → List Char

/-- The text of a reason: /repo/eth_abi/encoding.py:90,115,122-123,273-274,356-357,486,586,637-638,681-682. -/
def Reason.text (p : Printing) : Reason → List Char
  | .plain => []
  | .tupleList => t!": must be list-like object such as array or tuple"
  | .arrayList => t!": must be list-like such as array or tuple"
  | .count has want => t!": value has " ++ natDigits has ++ t!" items when " ++ natDigits want ++ t!" were expected"
  | .bounds bits lower upper => t!": Cannot be encoded in " ++ natDigits bits ++ t!" bits. Must be bounded between [" ++
      p.int lower ++ t!", " ++ p.int upper ++ t!"]."
  | .decBounds bits lower upper => t!": Cannot be encoded in " ++ natDigits bits ++ t!" bits. Must be bounded between [" ++
      p.dec lower ++ t!", " ++ p.dec upper ++ t!"]."
  | .residue r places => t!": residue Decimal('" ++ p.dec r ++ t!"') outside allowed fractional precision of " ++
      natDigits places
  | .size n => t!": exceeds total byte size for bytes" ++ natDigits n ++ t!" encoding"

/-- The text of the exception: /repo/eth_abi/encoding.py:88-91. -/
def Complaint.text (p : Printing) (c : Complaint) : PyM (List Char) := do
  let rep ← abbr (p.rep c.value)
  return t!"Value `" ++ rep ++ t!"` of type " ++ p.type c.value ++ t!" cannot be encoded by " ++ c.cls ++ c.reason.text p

/-- `invalidate_value`: /repo/eth_abi/encoding.py:77-91.  Where `repr(value)` raises there is no text of the library. -/
def complain [Ext] (cls : List Char) (v : PyVal) (r : Reason) : Option Complaint :=
  if reprOk v then some ⟨v, cls, r⟩ else none

/-- An encoder object, and what `validate_value` says when it raises.  /repo/eth_abi/encoding.py:55-94. -/
structure Blaming where
  enc : Encoder
  blames : PyVal → Option Complaint

namespace Blaming

/-- `BooleanEncoder.validate_value`: /repo/eth_abi/encoding.py:217-220. -/
def bool [Ext] (cls : List Char) (v : PyVal) : Option Complaint :=
  if isBoolean v then none else complain cls v .plain

/-- `NumberEncoder.validate_value` for the integer encoders: /repo/eth_abi/encoding.py:254-275. -/
def int [Ext] (cls : List Char) (bits : Nat) (bounds : Int × Int) (v : PyVal) : Option Complaint :=
  match v with
  | .int i =>
    if i < bounds.1 ∨ bounds.2 < i then
      if strOk bounds.1 && strOk bounds.2 then complain cls v (.bounds bits bounds.1 bounds.2) else none
    else none
  | _ => complain cls v .plain

/-- `BaseFixedEncoder.validate_value` on numbers that are no finite decimal: /repo/eth_abi/encoding.py:261-275,339-350. -/
def odd [Ext] (cls : List Char) (bits : Nat) (bounds : PyM (Dec10 × Dec10)) (v : PyVal) : Option Complaint :=
  match v with
  | .complex => none
  | .fraction n d =>
    match bounds with
    | .error _ => none
    | .ok (lower, upper) =>
      if fracLt n d lower || fracGt n d upper then complain cls v (.decBounds bits lower upper) else none
  | _ => complain cls v .plain

/-- `BaseFixedEncoder.validate_value`: /repo/eth_abi/encoding.py:254-275,335-358. -/
def fixed [Ext] (cls : List Char) (bits : Nat) (bounds : PyM (Dec10 × Dec10)) (fracPlaces : Nat) (v : PyVal) :
    Option Complaint :=
  if !(isNumber v && v != .float) then complain cls v .plain
  else
    match asDec10? v with
    | none => odd cls bits bounds v
    | some x =>
      match bounds with
      | .error _ => none
      | .ok (lower, upper) =>
        if decLt x lower || decLt upper x then complain cls v (.decBounds bits lower upper)
        else
          match decRem x (tenPowNeg fracPlaces) with
          | .error _ => none
          | .ok residue => if 0 < residue.1 then complain cls v (.residue residue fracPlaces) else none

/-- `AddressEncoder.validate_value`: /repo/eth_abi/encoding.py:454-457. -/
def address [Ext] (cls : List Char) (v : PyVal) : Option Complaint :=
  if isAddress v then none else complain cls v .plain

/-- `BytesEncoder.validate_value`: /repo/eth_abi/encoding.py:477-487. -/
def bytesM [Ext] (cls : List Char) (valueBitSize : Nat) (v : PyVal) : Option Complaint :=
  match asBytes? v with
  | none => complain cls v .plain
  | some b => if valueBitSize / 8 < b.length then complain cls v (.size (valueBitSize / 8)) else none

/-- `ByteStringEncoder.validate_value`: /repo/eth_abi/encoding.py:510-513. -/
def byteString [Ext] (cls : List Char) (v : PyVal) : Option Complaint :=
  match asBytes? v with
  | some _ => none
  | none => complain cls v .plain

/-- `TextStringEncoder.validate_value`: /repo/eth_abi/encoding.py:542-545. -/
def text [Ext] (cls : List Char) (v : PyVal) : Option Complaint :=
  match asText? v with
  | some _ => none
  | none => complain cls v .plain

/-- The loop of `TupleEncoder.validate_value`: /repo/eth_abi/encoding.py:126-130.  Simplification: what a plain callable says
(line 130) is its own affair. -/
def tupleItems : List PyVal → List Blaming → Option Complaint
  | v :: vs, c :: cs =>
    match c.enc.validateValue v with
    | .error .attributeError => none
    | .error _ => c.blames v
    | .ok _ => tupleItems vs cs
  | _, _ => none

/-- `TupleEncoder.validate_value`: /repo/eth_abi/encoding.py:111-130. -/
def tupleBlames [Ext] (cs : List Blaming) (v : PyVal) : Option Complaint :=
  match asListLike? v with
  | none => complain t!"TupleEncoder" v .tupleList
  | some vs =>
    if vs.length ≠ cs.length then complain t!"TupleEncoder" v (.count vs.length cs.length)
    else tupleItems vs cs

/-- `TupleEncoder`: /repo/eth_abi/encoding.py:97-161. -/
def tuple [Ext] (cs : List Blaming) : Blaming where
  enc := mkTuple (cs.map (·.enc))
  blames := tupleBlames cs

/-- `for item in value: self.item_encoder.validate_value(item)`: /repo/eth_abi/encoding.py:589-590. -/
def arrayItems (item : Blaming) : List PyVal → Option Complaint
  | [] => none
  | v :: vs =>
    match item.enc.validateValue v with
    | .error _ => item.blames v
    | .ok _ => arrayItems item vs

/-- `BaseArrayEncoder.validate_value`: /repo/eth_abi/encoding.py:582-590. -/
def arrayBlames [Ext] (cls : List Char) (item : Blaming) (v : PyVal) : Option Complaint :=
  match asListLike? v with
  | none => complain cls v .arrayList
  | some vs => arrayItems item vs

/-- `validate_value` of `SizedArrayEncoder` (/repo/eth_abi/encoding.py:674-683) and of `PackedArrayEncoder` (630-639). -/
def sizedBlames [Ext] (cls : List Char) (item : Blaming) (arraySize : Option Nat) (v : PyVal) : Option Complaint :=
  match arrayValidate item.enc v with
  | .error _ => arrayBlames cls item v
  | .ok _ =>
    match arraySize with
    | none => none
    | some n =>
      match pyLen v with
      | .error _ => none
      | .ok len => if len ≠ n then complain cls v (.count len n) else none

/-- The arrays of the default registry: /repo/eth_abi/encoding.py:611-624,660-699. -/
def array [Ext] (dim : Option Nat) (item : Blaming) : PyM Blaming := do
  let e ← mkArray dim item.enc
  return { enc := e
           blames := match dim with
             | some k => sizedBlames t!"SizedArrayEncoder" item (some k)
             | none => arrayBlames t!"DynamicArrayEncoder" item }

/-- `PackedArrayEncoder`: /repo/eth_abi/encoding.py:627-657. -/
def packedArray [Ext] (dim : Option Nat) (item : Blaming) : PyM Blaming :=
  .ok { enc := mkPackedArray dim item.enc
        blames := sizedBlames t!"PackedArrayEncoder" item dim }

/-- A class of elementary encoders.  /repo/eth_abi/encoding.py:164-570. -/
def of (blames : PyVal → Option Complaint) (e : PyM Encoder) : PyM Blaming := do
  let e ← e
  return ⟨e, blames⟩

end Blaming

open Blaming in
/-- The classes registered as encoders in `registry`, with texts: /repo/eth_abi/registry.py:504-575. -/
def blamingEncoders [Ext] : List (Reg Blaming) :=
  let bytesM := fun n => of (Blaming.bytesM t!"BytesEncoder" (n * 8)) (mkBytesM (n * 8) 32)
  [ .cls (basicPlan t!"uint" (intPlan fun n =>
      of (Blaming.int t!"UnsignedIntegerEncoder" n (computeUnsignedIntegerBounds n)) (mkUInt n 32))),
    .cls (basicPlan t!"int" (intPlan fun n =>
      of (Blaming.int t!"SignedIntegerEncoder" n (computeSignedIntegerBounds n)) (mkSInt n 32))),
    .cls (basicPlan t!"address" fun _ => of (Blaming.address t!"AddressEncoder") (mkAddress 32)),
    .cls (basicPlan t!"bool" fun _ => of (Blaming.bool t!"BooleanEncoder") (mkBool 32)),
    .cls (basicPlan t!"ufixed" (fixedPlan fun m n =>
      of (Blaming.fixed t!"UnsignedFixedEncoder" m (computeUnsignedFixedBounds m n) n) (mkUFixed m n 32))),
    .cls (basicPlan t!"fixed" (fixedPlan fun m n =>
      of (Blaming.fixed t!"SignedFixedEncoder" m (computeSignedFixedBounds m n) n) (mkSFixed m n 32))),
    .cls (basicPlan t!"bytes" (intPlan bytesM)),
    .cls (basicPlan t!"bytes" fun _ => .ok ⟨byteStringEncoder, byteString t!"ByteStringEncoder"⟩),
    .cls (basicPlan t!"bytes" (intPlan bytesM)),
    .cls (basicPlan t!"string" fun _ => .ok ⟨textStringEncoder, text t!"TextStringEncoder"⟩),
    .cls (arrayPlan Blaming.array),
    .cls (tuplePlan Blaming.tuple) ]

open Blaming in
/-- The classes registered in `registry_packed`, with texts: /repo/eth_abi/registry.py:579-638. -/
def blamingPacked [Ext] : List (Reg Blaming) :=
  let bytesM := fun n => of (Blaming.bytesM t!"PackedBytesEncoder" (n * 8)) (mkBytesM (n * 8) n)
  [ .cls (basicPlan t!"uint" (intPlan fun n =>
      of (Blaming.int t!"PackedUnsignedIntegerEncoder" n (computeUnsignedIntegerBounds n)) (mkUInt n (n / 8)))),
    .cls (basicPlan t!"int" (intPlan fun n =>
      of (Blaming.int t!"PackedSignedIntegerEncoder" n (computeSignedIntegerBounds n)) (mkSInt n (n / 8)))),
    .cls (basicPlan t!"address" fun _ => of (Blaming.address t!"PackedAddressEncoder") (mkAddress 20)),
    .cls (basicPlan t!"bool" fun _ => of (Blaming.bool t!"PackedBooleanEncoder") (mkBool 1)),
    .cls (basicPlan t!"ufixed" (fixedPlan fun m n =>
      of (Blaming.fixed t!"PackedUnsignedFixedEncoder" m (computeUnsignedFixedBounds m n) n) (mkUFixed m n (m / 8)))),
    .cls (basicPlan t!"fixed" (fixedPlan fun m n =>
      of (Blaming.fixed t!"PackedSignedFixedEncoder" m (computeSignedFixedBounds m n) n) (mkSFixed m n (m / 8)))),
    .cls (basicPlan t!"bytes" (intPlan bytesM)),
    .cls (basicPlan t!"bytes" fun _ => .ok ⟨packedByteStringEncoder, byteString t!"PackedByteStringEncoder"⟩),
    .cls (basicPlan t!"bytes" (intPlan bytesM)),
    .cls (basicPlan t!"string" fun _ => .ok ⟨packedTextStringEncoder, text t!"PackedTextStringEncoder"⟩),
    .cls (arrayPlan Blaming.packedArray),
    .cls (tuplePlan Blaming.tuple) ]

/-- `get_encoder` as `getEncoderFuel` models it, on the encoders with texts: /repo/eth_abi/registry.py:449-456. -/
def getBlamingFuel [Ext] (m : Mapping (Reg Blaming)) : Nat → TypeStr → PyM Blaming
  | 0, _ => .error .recursionError
  | fuel + 1, s =>
    match m.getRegistration s with
    | .ok (.cls plan) => (plan s).exec (getBlamingFuel m fuel)
    | .ok (.obj e) => .ok e
    | .error e => .error e

/-- What the exception of `encode(types, args)`, or of `encode_packed(types, args)` if `packed`, is made of, if it comes from
`invalidate_value` during validation; `none` otherwise.  Simplification: what is raised after validation (texts that are no
UTF-8, lengths from 2^256 on) says nothing here.  /repo/eth_abi/codec.py:55-76. -/
def encodeBlames [Ext] (packed : Bool) (types : List TypeStr) (args : PyVal) : Option Complaint :=
  match validateListLikeParam args with
  | .error _ => none
  | .ok _ =>
    let m := if packed then mappingOf 100 defaultPreds blamingPacked else mappingOf 0 defaultPreds blamingEncoders
    match mapPyM (fun s => getBlamingFuel m (s.length + 1) s) types with
    | .error _ => none
    | .ok cs => (Blaming.tuple cs).blames args

/-- The text of the exception of `encode` or `encode_packed`: /repo/eth_abi/encoding.py:88-91, /repo/eth_abi/codec.py:55-76. -/
def encodeSays [Ext] (p : Printing) (packed : Bool) (types : List TypeStr) (args : PyVal) : Option (List Char) :=
  match encodeBlames packed types args with
  | none => none
  | some c => (c.text p).toOption

end EthAbi
