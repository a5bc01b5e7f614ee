import Verif.Model.Grammar

/-! # `eth_abi/base.py` -/
namespace EthAbi

/-- `parse_type_str(expected_base, with_arrlist)`: /repo/eth_abi/base.py:11-74.
Returns the `abi_type` that is passed to the wrapped `from_type_str`. -/
def parseTypeStr [Ext] (expectedBase : Option (List Char)) (withArrlist : Bool) (s : TypeStr) :
    PyM ABIType := do
  let abiType ← parse (normalize s)
  match expectedBase with
  | some base =>
    match abiType with
    | .basic b _ _ => if b ≠ base then throw .valueError
    | .tuple _ _ => throw .valueError
  | none => pure ()
  if !withArrlist && abiType.isArray then throw .valueError
  if withArrlist && !abiType.isArray then throw .valueError
  abiType.validate
  return abiType

/-- `parse_tuple_type_str`: /repo/eth_abi/base.py:77-108.  Returns the components of the type and
its array dimensions (which the wrapped functions ignore). -/
def parseTupleTypeStr [Ext] (s : TypeStr) : PyM (List ABIType) := do
  let abiType ← parse (normalize s)
  match abiType with
  | .tuple comps _ =>
    abiType.validate
    return comps
  | .basic _ _ _ => throw .valueError

end EthAbi
