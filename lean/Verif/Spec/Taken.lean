import Verif.Spec.Values

/-!
# Specification: what `encode` takes an argument for

`Spec.denote` says which value of a type an argument *is*.  For `fixedMxN` the library also accepts
every negative number in range that is not a multiple of `10^-N`.  This file says which value it
takes such a number for.
-/
namespace EthAbi.Spec

/-- What `fixedMxN` takes the number `x` for, in units of `10^-N`.  A multiple of `10^-N` is taken for
itself.  Any other number lies between two neighbouring multiples `k` and `k + 1`; it is taken only
if it is negative and not below `-2^(M-1)`, and then for `k + 1`, the multiple nearer to zero — but
for `-256` if `k + 1` is zero. -/
def takenFixed (m n : Nat) (x : Dec10) : Option Int :=
  match onGrid? n x with
  | some k => if fitsS m k then some k else none
  | none =>
    let k := x.1 / 10 ^ (-(x.2 + n)).toNat
    if x.1 < 0 ∧ -2 ^ (m - 1) ≤ k then some (if k + 1 = 0 then -256 else k + 1) else none

mutual
/-- What `encode` takes an argument of type `t` for, if it accepts it. -/
def taken [Ext] : Ty → PyVal → Option Val
  | .fixed m n, v => do
    let x ← number? v
    let k ← takenFixed m n x
    some (.num k)
  | .sized k t, v => do
    let vs ← asListLike? v
    let xs ← vs.mapM (taken t)
    if vs.length = k then some (.seq xs) else none
  | .dyn t, v => do
    let vs ← asListLike? v
    let xs ← vs.mapM (taken t)
    some (.seq xs)
  | .tuple ts, v => do
    let vs ← asListLike? v
    let xs ← takenAll ts vs
    some (.seq xs)
  | t, v => denote t v
/-- The same for a list of arguments. -/
def takenAll [Ext] : List Ty → List PyVal → Option (List Val)
  | [], [] => some []
  | t :: ts, v :: vs => do
    let x ← taken t v
    let xs ← takenAll ts vs
    some (x :: xs)
  | _, _ => none
end

mutual
/-- Every `Decimal` in the value is written with at most 900 digits after the point. -/
def Places900 : PyVal → Prop
  | .dec (.fin _ e) => -900 ≤ e
  | .list xs => Places900All xs
  | .tuple xs => Places900All xs
  | .seq xs => Places900All xs
  | _ => True
/-- The same for a list of values. -/
def Places900All : List PyVal → Prop
  | [] => True
  | x :: xs => Places900 x ∧ Places900All xs
end

end EthAbi.Spec
