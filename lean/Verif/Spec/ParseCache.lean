import Verif.Model.ParseCache

/-! # Specification: what the objects show -/
namespace EthAbi.Spec

mutual
/-- Whoever reads the attributes of the object at `r`, and those of its components, sees the type. -/
inductive Shows (h : List TypeObj) : Nat → ABIType → Prop where
  | basic {r : Nat} {base : List Char} {sub : Sub} {arr : List (Option Nat)} :
      h[r]? = some (.basic base sub arr) → Shows h r (.basic base sub arr)
  | tuple {r : Nat} {rs : List Nat} {cs : List ABIType} {arr : List (Option Nat)} :
      h[r]? = some (.tuple rs arr) → ShowsAll h rs cs → Shows h r (.tuple cs arr)
/-- The same for a list of components. -/
inductive ShowsAll (h : List TypeObj) : List Nat → List ABIType → Prop where
  | nil : ShowsAll h [] []
  | cons {r : Nat} {rs : List Nat} {c : ABIType} {cs : List ABIType} : Shows h r c → ShowsAll h rs cs →
      ShowsAll h (r :: rs) (c :: cs)
end

/-- The object `r'` is the object `r` or one of its components, at any depth. -/
inductive Within (h : List TypeObj) : Nat → Nat → Prop where
  | self {r : Nat} : Within h r r
  | comp {r r₁ r' : Nat} {rs : List Nat} {arr : List (Option Nat)} : h[r]? = some (.tuple rs arr) → r₁ ∈ rs →
      Within h r₁ r' → Within h r r'

end EthAbi.Spec
