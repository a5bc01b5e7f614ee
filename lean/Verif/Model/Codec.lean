import Verif.Model.Registry

/-!
# `eth_abi/codec.py`, `eth_abi/abi.py`, `eth_abi/packed.py`

Simplification: `types` is a list or tuple of strings (`TypeError` otherwise, codec.py:69,153); `Model/AnyTypes` has the
general case.
-/
namespace EthAbi

/-- `[f(x) for x in xs]` when `f` may raise.  /repo/eth_abi/codec.py:72,157. -/
def mapPyM {α β : Type} (f : α → PyM β) : List α → PyM (List β)
  | [] => .ok []
  | x :: xs => do
    let y ← f x
    let ys ← mapPyM f xs
    return y :: ys

/-- `validate_list_like_param`: /repo/eth_abi/utils/validation.py:17-22. -/
def validateListLikeParam : PyVal → PyM Unit
  | .list _ => .ok ()
  | .tuple _ => .ok ()
  | _ => .error .typeError

/-- `validate_bytes_param`: /repo/eth_abi/utils/validation.py:10-14.  Gives the bytes. -/
def validateBytesParam (v : PyVal) : PyM Bytes :=
  match asBytes? v with
  | some b => .ok b
  | none => .error .typeError

/-- `ABIEncoder.encode`: /repo/eth_abi/codec.py:55-76. -/
def Registry.encode [Ext] (r : Registry) (types : List TypeStr) (args : PyVal) : PyM Bytes := do
  validateListLikeParam args
  let encoders ← mapPyM (getEncoder r) types
  (mkTuple encoders).call args

/-- `ABIEncoder.is_encodable_type`: /repo/eth_abi/codec.py:108-120. -/
def Registry.isEncodableType [Ext] (r : Registry) (typ : TypeStr) : PyM Bool := hasEncoder r typ

/-- `ABIEncoder.is_encodable`: /repo/eth_abi/codec.py:78-106. -/
def Registry.isEncodable [Ext] (r : Registry) (typ : TypeStr) (arg : PyVal) : PyM Bool := do
  if !(← r.isEncodableType typ) then return false
  let encoder ← getEncoder r typ
  match encoder.validateValue arg with
  | .ok _ => return true
  | .error .attributeError =>
    match encoder.call arg with
    | .ok _ => return true
    | .error e => if e.isEncodingError then return false else throw e
  | .error e => if e.isEncodingError then return false else throw e

/-- `ABIDecoder.decode`: /repo/eth_abi/codec.py:130-163, with the `strict` attributes of registered
decoder objects given by `fl`. -/
def Registry.decodeWith [Ext] (r : Registry) (fl : Flags) (types : List TypeStr) (data : PyVal)
    (strict : Bool) : PyM PyVal := do
  let b ← validateBytesParam data
  let decoders ← mapPyM (fun s => getDecoder r s strict) types
  let (v, _) ← (mkTupleD decoders).call fl (Stream.init b)
  return v

/-- `ABIDecoder.decode`: /repo/eth_abi/codec.py:130-163. -/
def Registry.decode [Ext] (r : Registry) (types : List TypeStr) (data : PyVal) (strict : Bool) :
    PyM PyVal :=
  r.decodeWith (fun _ => true) types data strict

/-- `eth_abi.encode`: /repo/eth_abi/abi.py:8-10. -/
def encode [Ext] (types : List TypeStr) (args : PyVal) : PyM Bytes :=
  defaultRegistry.encode types args

/-- `eth_abi.decode`: /repo/eth_abi/abi.py:11. -/
def decode [Ext] (types : List TypeStr) (data : PyVal) (strict : Bool := true) : PyM PyVal :=
  defaultRegistry.decode types data strict

/-- `eth_abi.is_encodable`: /repo/eth_abi/abi.py:12. -/
def isEncodable [Ext] (typ : TypeStr) (arg : PyVal) : PyM Bool :=
  defaultRegistry.isEncodable typ arg

/-- `eth_abi.is_encodable_type`: /repo/eth_abi/abi.py:13. -/
def isEncodableType [Ext] (typ : TypeStr) : PyM Bool := defaultRegistry.isEncodableType typ

/-- `eth_abi.packed.encode_packed`: /repo/eth_abi/packed.py:8-10. -/
def encodePacked [Ext] (types : List TypeStr) (args : PyVal) : PyM Bytes :=
  packedRegistry.encode types args

/-- `eth_abi.packed.is_encodable_packed`: /repo/eth_abi/packed.py:11. -/
def isEncodablePacked [Ext] (typ : TypeStr) (arg : PyVal) : PyM Bool :=
  packedRegistry.isEncodable typ arg

end EthAbi
