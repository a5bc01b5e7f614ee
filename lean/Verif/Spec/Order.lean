import Verif.Spec.Abi

/-! # Specification: the order of values -/
namespace EthAbi.Spec

mutual
/-- The type is made of `uintN`, `ufixedMxN`, `bool`, `address` and `bytesM`, by tuples and arrays of a fixed size. -/
def Ty.Unsigned : Ty → Prop
  | .uint _ => True
  | .ufixed _ _ => True
  | .bool => True
  | .address => True
  | .bytesM _ => True
  | .sized _ t => t.Unsigned
  | .tuple ts => Ty.AllUnsigned ts
  | _ => False
/-- All types of the list are. -/
def Ty.AllUnsigned : List Ty → Prop
  | [] => True
  | t :: ts => t.Unsigned ∧ Ty.AllUnsigned ts
end

mutual
/-- Numbers by size, bytes and sequences in lexicographic order. -/
def Before : Val → Val → Prop
  | .num i, .num j => i < j
  | .raw a, .raw b => a < b
  | .seq xs, .seq ys => BeforeSeq xs ys
  | _, _ => False
/-- The first difference decides. -/
def BeforeSeq : List Val → List Val → Prop
  | x :: xs, y :: ys => Before x y ∨ (x = y ∧ BeforeSeq xs ys)
  | _, _ => False
end

end EthAbi.Spec
