import Verif.Model.Codec

/-!
# Calls with type arguments of any kind

`Model/Codec.lean` takes lists of type strings.  Here `types` and `typ` are arbitrary Python values: things that are
not lists, lists of things that are not strings, and strings with lone surrogates.  The registries are those of the
package.

Simplification: `functools.cache` raises `TypeError` for values that cannot be hashed (registry.py:346-347,
grammar.py:48) before the lookup begins; the lookup raises `TypeError` for them too, and only that is modelled.
-/
namespace EthAbi

/-- A code point as a character, unless it is a surrogate.  No code of its own (Python). -/
def charOf? (c : CodePoint) : Option Char :=
  if h : c.val.isValidChar then some (Char.ofNatAux c.val h) else none

/-- A `str` without lone surrogates as a type string.  No code of its own (Python). -/
def asTypeStr? : PyVal → Option TypeStr
  | .str s => s.mapM charOf?
  | _ => none

/-- `"()" in s`.  Used in /repo/eth_abi/grammar.py:128. -/
def hasEmptyParensPy : PyStr → Bool
  | c :: d :: cs => (c.val == 40 && d.val == 41) || hasEmptyParensPy (d :: cs)
  | _ => false

/-- `parse`: /repo/eth_abi/grammar.py:110-132.  No rule of the grammar matches a surrogate. -/
def parseAny [Ext] (v : PyVal) : PyM ABIType :=
  match asTypeStr? v with
  | some s => parse s
  | none =>
    match v with
    | .str s => if hasEmptyParensPy s then .error .valueError else .error .parseError
    | _ => .error .typeError

/-- `try: grammar.parse(type_str) except (ParseError, ValueError): return False`, then a test of the parsed type:
/repo/eth_abi/registry.py:223-226,260-263,272-275. -/
def onParsedAny [Ext] (v : PyVal) (test : ABIType → Bool) : PyM Bool :=
  match parseAny v with
  | .ok t => .ok (test t)
  | .error e => if e = .parseError || e.isValueError then .ok false else .error e

/-- `predicate(type_str)`: /repo/eth_abi/registry.py:200-201,222-242,256-277.  Functions of the user are not in the
registries of the package; they are taken to refuse what is not a type string. -/
def Pred.matchesAny [Ext] (p : Pred) (v : PyVal) : PyM Bool :=
  match p.kind with
  | .equals s => .ok (asTypeStr? v == some s)
  | .baseEquals base withSub => onParsedAny v (baseEqualsTest base withSub)
  | .hasArrlist => onParsedAny v ABIType.isArray
  | .isBaseTuple => onParsedAny v baseTupleTest
  | .user _ f =>
    match asTypeStr? v with
    | some s => f s
    | none => .error .typeError

/-- The generator in `find`: /repo/eth_abi/registry.py:81-85. -/
def Mapping.resultsAny [Ext] {V : Type} (v : PyVal) : List (Pred × V) → PyM (List (Pred × V))
  | [] => .ok []
  | q :: qs => do
    let b ← q.1.matchesAny v
    let rs ← resultsAny v qs
    return if b then q :: rs else rs

/-- `find` and `_get_registration`: /repo/eth_abi/registry.py:80-105,326-339.  (With several matches the test of the
message is left out, as the registries of the package never have several.) -/
def Mapping.getRegistrationAny [Ext] {V : Type} (m : Mapping V) (v : PyVal) : PyM V := do
  match ← Mapping.resultsAny v m.values with
  | [] =>
    let _ ← parseAny v
    throw .noEntriesFound
  | [q] => return q.2
  | _ => throw .multipleEntriesFound

/-- `get_encoder`: /repo/eth_abi/registry.py:349-355,455-456.  `from_type_str` of a class begins with `normalize`,
which raises `TypeError` for what is not a `str`, and `parse`: /repo/eth_abi/base.py:22-23,86-87.  What cannot be hashed
(a list, a bytearray) is a `TypeError` of the cache already: /repo/eth_abi/registry.py:346. -/
def getEncoderAny [Ext] (r : Registry) (v : PyVal) : PyM Encoder :=
  match asTypeStr? v with
  | some s => getEncoder r s
  | none => do
    match ← r.encoders.getRegistrationAny v with
    | .obj e => return e
    | .cls _ =>
      let _ ← parseAny v
      throw .typeError

/-- `get_decoder`: /repo/eth_abi/registry.py:349-355,474-483. -/
def getDecoderAny [Ext] (r : Registry) (v : PyVal) (strict : Bool) : PyM Decoder :=
  match asTypeStr? v with
  | some s => getDecoder r s strict
  | none => do
    match ← r.decoders.getRegistrationAny v with
    | .obj d => return d.setStrict strict
    | .cls _ =>
      let _ ← parseAny v
      throw .typeError

/-- `has_encoder`: /repo/eth_abi/registry.py:458-472. -/
def hasEncoderAny [Ext] (r : Registry) (v : PyVal) : PyM Bool :=
  match getEncoderAny r v with
  | .ok _ => .ok true
  | .error .multipleEntriesFound => .error .multipleEntriesFound
  | .error _ => .ok false

/-- `validate_list_like_param(types, "types")`, giving the items: /repo/eth_abi/utils/validation.py:17-22. -/
def listLikeItems : PyVal → PyM (List PyVal)
  | .list xs => .ok xs
  | .tuple xs => .ok xs
  | _ => .error .typeError

/-- `ABIEncoder.encode`: /repo/eth_abi/codec.py:55-76. -/
def Registry.encodeAny [Ext] (r : Registry) (types args : PyVal) : PyM Bytes := do
  let ts ← listLikeItems types
  validateListLikeParam args
  let encoders ← mapPyM (getEncoderAny r) ts
  (mkTuple encoders).call args

/-- `ABIDecoder.decode`: /repo/eth_abi/codec.py:130-163. -/
def Registry.decodeAny [Ext] (r : Registry) (types data : PyVal) (strict : Bool) : PyM PyVal := do
  let ts ← listLikeItems types
  let b ← validateBytesParam data
  let decoders ← mapPyM (fun v => getDecoderAny r v strict) ts
  let (v, _) ← (mkTupleD decoders).call (fun _ => true) (Stream.init b)
  return v

/-- `ABIEncoder.is_encodable_type`: /repo/eth_abi/codec.py:108-120. -/
def Registry.isEncodableTypeAny [Ext] (r : Registry) (typ : PyVal) : PyM Bool := hasEncoderAny r typ

/-- `ABIEncoder.is_encodable`: /repo/eth_abi/codec.py:78-106. -/
def Registry.isEncodableAny [Ext] (r : Registry) (typ arg : PyVal) : PyM Bool := do
  if !(← r.isEncodableTypeAny typ) then return false
  let encoder ← getEncoderAny r typ
  match encoder.validateValue arg with
  | .ok _ => return true
  | .error .attributeError =>
    match encoder.call arg with
    | .ok _ => return true
    | .error e => if e.isEncodingError then return false else throw e
  | .error e => if e.isEncodingError then return false else throw e

end EthAbi
