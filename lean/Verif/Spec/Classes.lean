import Verif.Spec.Grammar
import Verif.Model.Classes

/-!
# Specification: which class is for which types
-/
namespace EthAbi.Spec

/-- The types that a coder class is for. -/
inductive IsFor : CoderClass → Ty → Prop where
  | uint {n : Nat} : IsFor .uint (.uint n)
  | int {n : Nat} : IsFor .int (.int n)
  | address : IsFor .address .address
  | bool : IsFor .bool .bool
  | ufixed {m n : Nat} : IsFor .ufixed (.ufixed m n)
  | fixed {m n : Nat} : IsFor .fixed (.fixed m n)
  | bytes {m : Nat} : IsFor .bytes (.bytesM m)
  | byteString : IsFor .byteString .bytes
  | textString : IsFor .textString .string
  | sized {k : Nat} {t : Ty} : IsFor .array (.sized k t)
  | dyn {t : Ty} : IsFor .array (.dyn t)
  | tuple {ts : List Ty} : IsFor .tuple (.tuple ts)

/-- `ArrayOf u t`: `t` is an array of `u`, or of arrays of `u`, to any depth but at least one. -/
inductive ArrayOf (u : Ty) : Ty → Prop where
  | sized {k : Nat} : ArrayOf u (.sized k u)
  | dyn : ArrayOf u (.dyn u)
  | sizedMore {k : Nat} {t : Ty} : ArrayOf u t → ArrayOf u (.sized k t)
  | dynMore {t : Ty} : ArrayOf u t → ArrayOf u (.dyn t)

/-- The names that a class does not refuse with a `ValueError`, although it is not for them:
`bytes5` for the class of `bytes`, `bytes` for the class of `bytes5`, and arrays of tuples for the class of
tuples. -/
inductive Overlooked : CoderClass → Ty → Prop where
  | byteString {m : Nat} : Overlooked .byteString (.bytesM m)
  | bytes : Overlooked .bytes .bytes
  | tuple {ts : List Ty} {t : Ty} : ArrayOf (.tuple ts) t → Overlooked .tuple t

/-- The exceptions for a string that is not the name of a type. -/
inductive NoName : Exc → Prop where
  | parseError : NoName .parseError
  | valueError : NoName .valueError
  | visitationError : NoName .visitationError
  | abiTypeError : NoName .abiTypeError

/-- A word of letters that the library gives no meaning: no alias, and none of the bases that
`validate()` has rules for. -/
def OwnWord (b : List Char) : Prop :=
  b ≠ [] ∧ (∀ c ∈ b, IsLetter c) ∧
    b ∉ [t!"int", t!"uint", t!"fixed", t!"ufixed", t!"bytes", t!"byte", t!"function", t!"string", t!"address", t!"hash"]

end EthAbi.Spec
