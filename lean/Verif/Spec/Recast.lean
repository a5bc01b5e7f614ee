import Verif.Spec.Api

/-! # Specification: data of a type, seen as words and byte strings -/
namespace EthAbi.Spec

mutual
/-- The type with `bytes32` for every type of one word, and `bytes` for `string`. -/
def Ty.bare : Ty → Ty
  | .bytes => .bytes
  | .string => .bytes
  | .sized k t => .sized k t.bare
  | .dyn t => .dyn t.bare
  | .tuple ts => .tuple (Ty.bareAll ts)
  | _ => .bytesM 32
/-- The same for a list of types. -/
def Ty.bareAll : List Ty → List Ty
  | [] => []
  | t :: ts => t.bare :: Ty.bareAll ts
end

mutual
/-- A value of type `t` as a value of `t.bare`: the 32 bytes of the word, or the UTF-8 bytes of the text. -/
def Val.bare : Ty → Val → Val
  | .bytes, x => x
  | .string, .text s => .raw ((utf8Encode? s).getD [])
  | .sized _ t, .seq xs => .seq (xs.map (Val.bare t))
  | .dyn t, .seq xs => .seq (xs.map (Val.bare t))
  | .tuple ts, .seq xs => .seq (Val.bareAll ts xs)
  | t, x => .raw (enc t x)
/-- The same for a list of values. -/
def Val.bareAll : List Ty → List Val → List Val
  | t :: ts, x :: xs => Val.bare t x :: Val.bareAll ts xs
  | _, _ => []
end

end EthAbi.Spec
