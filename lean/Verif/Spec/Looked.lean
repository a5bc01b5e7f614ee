import Verif.Spec.Read

/-!
# Specification: the bytes a result depends on
-/
namespace EthAbi.Spec

/-- The data `d'` agree with `d` at the positions `S`. -/
def AgreeAt (S : List Nat) (d d' : Bytes) : Prop := ∀ p ∈ S, d'[p]? = d[p]?

/-- `d'` is as long as `d`; in strict mode it may be longer. -/
def LongAs (strict : Bool) (d d' : Bytes) : Prop := if strict then d.length ≤ d'.length else d'.length = d.length

end EthAbi.Spec
