import Verif.Spec.Values
import Verif.Spec.Leaves
import Verif.Spec.Api
import Mathlib.Data.Rat.Floor

/-!
# Specification: what is wrong with an argument

The documentation of the exceptions (/repo/eth_abi/exceptions.py:10-40) tells three kinds of refusal apart: a value
of the wrong Python type, a value out of range, and a value of the right type and in range that cannot be encoded.  This file says
which of them a value is refused with, and which part of the value is at fault.
-/
namespace EthAbi.Spec

/-- What is wrong with `v` as a number from `lo` to `hi`, in units of `10^-n`.
* What is not a number, and every `float`, is of the wrong type.
* NaN and the infinities are illegal values.
* Numbers outside the range are out of bounds.
* Positive numbers between two neighbouring units are illegal values — but for those that exceed a unit by no more than half of
  `10^-1000997`, the smallest number that the arithmetic of the library knows, which pass.  So do negative numbers between units.
* A `complex` number, and a `Fraction` in range, make the library fail with a `TypeError`. -/
def fixedFault (lo hi : Int) (n : Nat) (v : PyVal) : Option Exc :=
  match v with
  | .complex => some .typeError
  | .fraction a d =>
    if (a : ℚ) < lo * 10 ^ (-(n : Int)) * d ∨ hi * 10 ^ (-(n : Int)) * d < (a : ℚ) then some .valueOutOfBounds
    else some .typeError
  | .dec .nan => some .illegalValue
  | .dec (.inf _) => some .illegalValue
  | v =>
    match number? v with
    | none => some .encodingTypeError
    | some x =>
      if decValue x < lo * 10 ^ (-(n : Int)) ∨ hi * 10 ^ (-(n : Int)) < decValue x then some .valueOutOfBounds
      else if 0 < decValue x ∧
          10 ^ (-1000997 : Int) / 2 < decValue x - ⌊decValue x * 10 ^ n⌋ * 10 ^ (-(n : Int)) then some .illegalValue
      else none

/-- What is wrong with `v` as an elementary value. -/
def leafFault [Ext] (t : Ty) (v : PyVal) : Option Exc :=
  match t, v with
  | .uint n, .int i => if 0 ≤ i ∧ i < 2 ^ n then none else some .valueOutOfBounds
  | .int n, .int i => if -2 ^ (n - 1) ≤ i ∧ i < 2 ^ (n - 1) then none else some .valueOutOfBounds
  | .ufixed m n, v => fixedFault 0 (2 ^ m - 1) n v
  | .fixed m n, v => fixedFault (-2 ^ (m - 1)) (2 ^ (m - 1) - 1) n v
  | .bool, .bool _ => none
  | .address, v => if (address? v).isSome then none else some .encodingTypeError
  | .bytesM m, .bytes b => if b.length ≤ m then none else some .valueOutOfBounds
  | .bytesM m, .bytearray b => if b.length ≤ m then none else some .valueOutOfBounds
  | .bytes, .bytes _ => none
  | .bytes, .bytearray _ => none
  | .string, .str _ => none
  | _, _ => some .encodingTypeError

mutual
/-- What is wrong with `v` as a value of type `t`: the part of `v` that is at fault, and the kind of fault.
* For an array or a tuple the value must be list-like.
* The components of a tuple are looked at only if there are as many as there should be; the first that is wrong decides.
* The first element of an array that is wrong decides; the number of elements is looked at only if none is. -/
def fault [Ext] : Ty → PyVal → Option (PyVal × Exc)
  | .sized k t, v =>
    match asListLike? v with
    | none => some (v, .encodingTypeError)
    | some vs => (vs.findSome? (fault t)).or (if vs.length = k then none else some (v, .valueOutOfBounds))
  | .dyn t, v =>
    match asListLike? v with
    | none => some (v, .encodingTypeError)
    | some vs => vs.findSome? (fault t)
  | .tuple ts, v =>
    match asListLike? v with
    | none => some (v, .encodingTypeError)
    | some vs => if vs.length = ts.length then faultAny ts vs else some (v, .valueOutOfBounds)
  | t, v => (leafFault t v).map fun e => (v, e)
/-- What is wrong with the first of some arguments that is wrong. -/
def faultAny [Ext] : List Ty → List PyVal → Option (PyVal × Exc)
  | t :: ts, v :: vs => (fault t v).or (faultAny ts vs)
  | _, _ => none
end

/-- The exception that is raised for a fault.  The messages of `EncodingError`s quote the part at fault, so that there is a
`ValueError` instead where Python does not print it. -/
noncomputable def raised [Ext] (f : PyVal × Exc) : Exc := if f.2 = .typeError then .typeError else quoting f.1 f.2

/-- `u` is `v`, or an item of `v`, or an item of an item of `v`, and so on. -/
inductive Inside (u : PyVal) : PyVal → Prop where
  | self : Inside u u
  | item {v w : PyVal} {vs : List PyVal} : IsSeqOf v vs → w ∈ vs → Inside u w → Inside u v

end EthAbi.Spec
