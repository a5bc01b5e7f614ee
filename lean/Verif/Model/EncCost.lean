import Verif.Model.Cost

/-!
# Counting the checks of `encode`

The encoders of `Model/Encoding.lean` again, each with the number of calls `encoder.validate_value(value)` that a
call of its `validate_value` and a call `encoder(value)` make.  (`encoder(value)` itself begins with a call of
`validate_value`, so there are at least as many of these as of those.  `super().validate_value(value)` is not counted
apart.)  And each with the largest number of calls of both kinds that are on the stack at one time.  Nothing is encoded here a second time: whether and how the run goes on is always taken from the functions of
`Model/Encoding.lean`, so the count follows the same path; an exception ends it.
-/
namespace EthAbi

/-- An encoder object with the number of calls of `validate_value` that `validate_value(value)` makes, itself included
(`checks`), and that `encoder(value)` makes (`calls`); and how deep calls of `validate_value` and of encoders are nested
in the two (`checkDepth`, `callDepth`).  The calls counted are those of /repo/eth_abi/encoding.py:111-130,582-590 and
the like. -/
structure Tallied where
  enc : Encoder
  checks : PyVal → Nat
  calls : PyVal → Nat
  checkDepth : PyVal → Nat
  callDepth : PyVal → Nat

namespace Tallied
open Counted (after)

/-- An encoder whose call checks the value once: /repo/eth_abi/encoding.py:195-206,534-536,568-570. -/
def once (e : Encoder) : Tallied := ⟨e, fun _ => 1, fun _ => 1, fun _ => 1, fun _ => 2⟩

/-- The check in `encode_uint_256(n)`: /repo/eth_abi/encoding.py:288,195-196. -/
def uintChecks : Nat := 1

/-- `encode_uint_256(n)` and the check within: /repo/eth_abi/encoding.py:288,195-196. -/
def uintDepth : Nat := 2

/-- `ByteStringEncoder`: /repo/eth_abi/encoding.py:507-527. -/
def byteString [Ext] : Tallied where
  enc := byteStringEncoder
  checks _ := 1
  calls v := 1 + after (byteStringValidate v) fun _ => after (bytesEncodeFn v) fun _ => uintChecks
  checkDepth _ := 1
  callDepth v := 1 + max 1 (after (byteStringValidate v) fun _ => after (bytesEncodeFn v) fun _ => uintDepth)

/-- `TextStringEncoder`: /repo/eth_abi/encoding.py:539-561. -/
def textString [Ext] : Tallied where
  enc := textStringEncoder
  checks _ := 1
  calls v := 1 + after (textValidate v) fun _ => after (textEncodeFn v) fun _ => uintChecks
  checkDepth _ := 1
  callDepth v := 1 + max 1 (after (textValidate v) fun _ => after (textEncodeFn v) fun _ => uintDepth)

/-- The loop of `TupleEncoder.validate_value`: /repo/eth_abi/encoding.py:126-130. -/
def itemChecks : List PyVal → List Tallied → Nat
  | v :: vs, c :: cs =>
    c.checks v +
      (match c.enc.validateValue v with
        | .error .attributeError => c.calls v
        | _ => 0) +
      after (validateOrCall c.enc v) fun _ => itemChecks vs cs
  | _, _ => 0

/-- The nesting of the calls of that loop: /repo/eth_abi/encoding.py:126-130. -/
def itemDepth : List PyVal → List Tallied → Nat
  | v :: vs, c :: cs =>
    max (c.checkDepth v) (max
      (match c.enc.validateValue v with
        | .error .attributeError => c.callDepth v
        | _ => 0)
      (after (validateOrCall c.enc v) fun _ => itemDepth vs cs))
  | _, _ => 0

/-- The nesting of the calls of `TupleEncoder.validate_value`: /repo/eth_abi/encoding.py:111-130. -/
def tupleCheckDepth (cs : List Tallied) (v : PyVal) : Nat :=
  1 + match asListLike? v with
    | none => 0
    | some vs => if vs.length ≠ cs.length then 0 else itemDepth vs cs

/-- `TupleEncoder.validate_value`: /repo/eth_abi/encoding.py:111-130. -/
def tupleChecks (cs : List Tallied) (v : PyVal) : Nat :=
  1 + match asListLike? v with
    | none => 0
    | some vs => if vs.length ≠ cs.length then 0 else itemChecks vs cs

/-- `encoder(value)` for each component: /repo/eth_abi/encoding.py:137-143. -/
def chunkCalls : List PyVal → List Tallied → Nat
  | v :: vs, c :: cs => c.calls v + after (c.enc.call v) fun _ => chunkCalls vs cs
  | _, _ => 0

/-- `encode_uint_256` for each component of dynamic type: /repo/eth_abi/encoding.py:147-150. -/
def headCalls [Ext] (headLen : Nat) : List (Option Bytes) → List Nat → Nat
  | none :: cs, o :: os => uintChecks + after (encodeUint256 (headLen + o)) fun _ => headCalls headLen cs os
  | some _ :: cs, _ :: os => headCalls headLen cs os
  | _, _ => 0

/-- `TupleEncoder.encode`: /repo/eth_abi/encoding.py:132-153. -/
def tupleCalls [Ext] (cs : List Tallied) (v : PyVal) : Nat :=
  tupleChecks cs v + after (tupleValidate (cs.map (·.enc)) v) fun _ =>
    match asListLike? v with
    | none => 0
    | some vs => chunkCalls vs cs + after (tupleChunks vs (cs.map (·.enc))) fun p =>
        headCalls (headLength p.1) p.1 (tailOffsets p.2)

/-- The nesting of the calls of `encoder(value)` for each component: /repo/eth_abi/encoding.py:137-143. -/
def chunkDepth : List PyVal → List Tallied → Nat
  | v :: vs, c :: cs => max (c.callDepth v) (after (c.enc.call v) fun _ => chunkDepth vs cs)
  | _, _ => 0

/-- The nesting of the calls of `TupleEncoder.encode`: /repo/eth_abi/encoding.py:132-153.  (The offsets are encoded one
after the other.) -/
def tupleCallDepth [Ext] (cs : List Tallied) (v : PyVal) : Nat :=
  1 + max (tupleCheckDepth cs v) (after (tupleValidate (cs.map (·.enc)) v) fun _ =>
    match asListLike? v with
    | none => 0
    | some vs => max (chunkDepth vs cs) (after (tupleChunks vs (cs.map (·.enc))) fun p =>
        if p.1.contains none then uintDepth else 0))

/-- `TupleEncoder`: /repo/eth_abi/encoding.py:97-161. -/
def tuple [Ext] (cs : List Tallied) : Tallied where
  enc := mkTuple (cs.map (·.enc))
  checks := tupleChecks cs
  calls := tupleCalls cs
  checkDepth := tupleCheckDepth cs
  callDepth := tupleCallDepth cs

/-- `for item in value: self.item_encoder.validate_value(item)`: /repo/eth_abi/encoding.py:589-590. -/
def eachCheck (c : Tallied) : List PyVal → Nat
  | [] => 0
  | v :: vs => c.checks v + after (c.enc.validateValue v) fun _ => eachCheck c vs

/-- `validate_value` of an array: /repo/eth_abi/encoding.py:582-590,630-639,674-683. -/
def arrayChecks (c : Tallied) (v : PyVal) : Nat :=
  1 + match asListLike? v with
    | none => 0
    | some vs => eachCheck c vs

/-- `tuple(item_encoder(i) for i in value)`: /repo/eth_abi/encoding.py:598. -/
def eachCall (c : Tallied) : List PyVal → Nat
  | [] => 0
  | v :: vs => c.calls v + after (c.enc.call v) fun _ => eachCall c vs

/-- `encode_uint_256(head_length + offset)` for each item: /repo/eth_abi/encoding.py:606-608. -/
def offsetCalls [Ext] (headLen : Nat) : List Nat → Nat
  | [] => 0
  | o :: os => uintChecks + after (encodeUint256 (headLen + o)) fun _ => offsetCalls headLen os

/-- `BaseArrayEncoder.encode_elements`: /repo/eth_abi/encoding.py:592-609. -/
def elementCalls [Ext] (validate : PyVal → PyM Unit) (c : Tallied) (v : PyVal) : Nat :=
  arrayChecks c v + after (validate v) fun _ =>
    match asListLike? v with
    | none => 0
    | some vs => eachCall c vs + after (encodeAll c.enc vs) fun tails =>
        if !c.enc.dyn || vs.length == 0 then 0 else offsetCalls (32 * vs.length) (tailOffsets tails)

/-- The nesting of the calls of `for item in value: self.item_encoder.validate_value(item)`:
/repo/eth_abi/encoding.py:589-590. -/
def eachCheckDepth (c : Tallied) : List PyVal → Nat
  | [] => 0
  | v :: vs => max (c.checkDepth v) (after (c.enc.validateValue v) fun _ => eachCheckDepth c vs)

/-- The nesting of the calls of `validate_value` of an array: /repo/eth_abi/encoding.py:582-590,630-639,674-683. -/
def arrayCheckDepth (c : Tallied) (v : PyVal) : Nat :=
  1 + match asListLike? v with
    | none => 0
    | some vs => eachCheckDepth c vs

/-- The nesting of the calls of `tuple(item_encoder(i) for i in value)`: /repo/eth_abi/encoding.py:598. -/
def eachCallDepth (c : Tallied) : List PyVal → Nat
  | [] => 0
  | v :: vs => max (c.callDepth v) (after (c.enc.call v) fun _ => eachCallDepth c vs)

/-- The nesting of the calls of `BaseArrayEncoder.encode_elements`: /repo/eth_abi/encoding.py:592-609. -/
def elementDepth [Ext] (validate : PyVal → PyM Unit) (c : Tallied) (v : PyVal) : Nat :=
  max (arrayCheckDepth c v) (after (validate v) fun _ =>
    match asListLike? v with
    | none => 0
    | some vs => max (eachCallDepth c vs) (after (encodeAll c.enc vs) fun _ =>
        if !c.enc.dyn || vs.length == 0 then 0 else uintDepth))

/-- `SizedArrayEncoder` and `DynamicArrayEncoder`: /repo/eth_abi/encoding.py:611-624,660-699. -/
def array [Ext] (dim : Option Nat) (c : Tallied) : PyM Tallied := do
  let e ← mkArray dim c.enc
  return { enc := e
           checks := arrayChecks c
           calls := fun v =>
             match dim with
             | some k => elementCalls (sizedArrayValidate c.enc (some k)) c v
             | none => after (pyLen v) fun len => uintChecks + after (encodeUint256 len) fun _ =>
                 elementCalls (arrayValidate c.enc) c v
           checkDepth := arrayCheckDepth c
           callDepth := fun v =>
             match dim with
             | some k => 1 + elementDepth (sizedArrayValidate c.enc (some k)) c v
             | none => 1 + after (pyLen v) fun len => max uintDepth (after (encodeUint256 len) fun _ =>
                 elementDepth (arrayValidate c.enc) c v) }

/-- `PackedArrayEncoder`: /repo/eth_abi/encoding.py:627-657. -/
def packedArray [Ext] (dim : Option Nat) (c : Tallied) : Tallied where
  enc := mkPackedArray dim c.enc
  checks := arrayChecks c
  calls := elementCalls (sizedArrayValidate c.enc dim) c
  checkDepth := arrayCheckDepth c
  callDepth v := 1 + elementDepth (sizedArrayValidate c.enc dim) c v

end Tallied

/-- An encoder class whose objects check once.  /repo/eth_abi/encoding.py:195-206. -/
def talliedOf (e : PyM Encoder) : PyM Tallied := do
  let e ← e
  return .once e

/-- The classes registered as encoders in `registry`, with counts: /repo/eth_abi/registry.py:504-575. -/
def talliedEncoders [Ext] : List (Reg Tallied) :=
  [ .cls (basicPlan t!"uint" (intPlan fun n => talliedOf (mkUInt n 32))),
    .cls (basicPlan t!"int" (intPlan fun n => talliedOf (mkSInt n 32))),
    .cls (basicPlan t!"address" fun _ => talliedOf (mkAddress 32)),
    .cls (basicPlan t!"bool" fun _ => talliedOf (mkBool 32)),
    .cls (basicPlan t!"ufixed" (fixedPlan fun m n => talliedOf (mkUFixed m n 32))),
    .cls (basicPlan t!"fixed" (fixedPlan fun m n => talliedOf (mkSFixed m n 32))),
    .cls (basicPlan t!"bytes" (intPlan fun n => talliedOf (mkBytesM (n * 8) 32))),
    .cls (basicPlan t!"bytes" fun _ => .ok .byteString),
    .cls (basicPlan t!"bytes" (intPlan fun n => talliedOf (mkBytesM (n * 8) 32))),
    .cls (basicPlan t!"string" fun _ => .ok .textString),
    .cls (arrayPlan Tallied.array),
    .cls (tuplePlan Tallied.tuple) ]

/-- The classes registered as encoders in `registry_packed`, with counts: /repo/eth_abi/registry.py:577-638. -/
def talliedPacked [Ext] : List (Reg Tallied) :=
  [ .cls (basicPlan t!"uint" (intPlan fun n => talliedOf (mkUInt n (n / 8)))),
    .cls (basicPlan t!"int" (intPlan fun n => talliedOf (mkSInt n (n / 8)))),
    .cls (basicPlan t!"address" fun _ => talliedOf (mkAddress 20)),
    .cls (basicPlan t!"bool" fun _ => talliedOf (mkBool 1)),
    .cls (basicPlan t!"ufixed" (fixedPlan fun m n => talliedOf (mkUFixed m n (m / 8)))),
    .cls (basicPlan t!"fixed" (fixedPlan fun m n => talliedOf (mkSFixed m n (m / 8)))),
    .cls (basicPlan t!"bytes" (intPlan fun n => talliedOf (mkBytesM (n * 8) n))),
    .cls (basicPlan t!"bytes" fun _ => .ok (.once packedByteStringEncoder)),
    .cls (basicPlan t!"bytes" (intPlan fun n => talliedOf (mkBytesM (n * 8) n))),
    .cls (basicPlan t!"string" fun _ => .ok (.once packedTextStringEncoder)),
    .cls (arrayPlan fun dim c => .ok (Tallied.packedArray dim c)),
    .cls (tuplePlan Tallied.tuple) ]

/-- `get_encoder` as `getEncoderFuel` models it, on the encoders with counts:
/repo/eth_abi/registry.py:349-355,455-456. -/
def getTalliedFuel [Ext] (m : Mapping (Reg Tallied)) : Nat → TypeStr → PyM Tallied
  | 0, _ => .error .recursionError
  | fuel + 1, s =>
    match m.getRegistration s with
    | .ok (.cls plan) => (plan s).exec (getTalliedFuel m fuel)
    | .ok (.obj e) => .ok e
    | .error e => .error e

/-- `registry.get_encoder(type_str)` (`packed = false`) and `registry_packed.get_encoder(type_str)` (`packed = true`),
with counts: /repo/eth_abi/registry.py:455-456. -/
def getTallied [Ext] (packed : Bool) (s : TypeStr) : PyM Tallied :=
  getTalliedFuel (if packed then mappingOf 100 defaultPreds talliedPacked else mappingOf 0 defaultPreds talliedEncoders)
    (s.length + 1) s

/-- The number of calls of `validate_value` that `encode(types, args)` (or `encode_packed(types, args)`) makes:
/repo/eth_abi/codec.py:55-76. -/
def encodeChecks [Ext] (packed : Bool) (types : List TypeStr) (args : PyVal) : Nat :=
  Counted.after (validateListLikeParam args) fun _ =>
    Counted.after (mapPyM (getTallied packed) types) fun cs => (Tallied.tuple cs).calls args

/-- The largest number of calls of encoders and of `validate_value` on the stack at one time in `encode(types, args)`
(or `encode_packed(types, args)`): /repo/eth_abi/codec.py:55-76. -/
def encodeDepth [Ext] (packed : Bool) (types : List TypeStr) (args : PyVal) : Nat :=
  Counted.after (validateListLikeParam args) fun _ =>
    Counted.after (mapPyM (getTallied packed) types) fun cs => (Tallied.tuple cs).callDepth args

/-- The number of calls of `validate_value` that `is_encodable(typ, arg)` (or `is_encodable_packed(typ, arg)`) makes:
/repo/eth_abi/codec.py:78-106. -/
def isEncodableChecks [Ext] (packed : Bool) (typ : TypeStr) (arg : PyVal) : Nat :=
  Counted.after (getTallied packed typ) fun c =>
    c.checks arg + match c.enc.validateValue arg with
      | .error .attributeError => c.calls arg
      | _ => 0

/-- The largest number of such calls on the stack at one time in `is_encodable(typ, arg)` (or
`is_encodable_packed(typ, arg)`): /repo/eth_abi/codec.py:78-106. -/
def isEncodableDepth [Ext] (packed : Bool) (typ : TypeStr) (arg : PyVal) : Nat :=
  Counted.after (getTallied packed typ) fun c =>
    max (c.checkDepth arg) (match c.enc.validateValue arg with
      | .error .attributeError => c.callDepth arg
      | _ => 0)

end EthAbi
