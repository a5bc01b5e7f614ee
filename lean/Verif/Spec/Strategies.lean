import Verif.Spec.Abi

/-! # Specification: the values the strategies are meant to cover -/
namespace EthAbi.Spec

mutual
/-- No value of type `bytes` in the value is longer than 4096 bytes. -/
def ShortBytes : Ty → Val → Prop
  | .bytes, .raw b => b.length ≤ 4096
  | .sized _ t, .seq vs => ∀ v ∈ vs, ShortBytes t v
  | .dyn t, .seq vs => ∀ v ∈ vs, ShortBytes t v
  | .tuple ts, .seq vs => ShortBytesAll ts vs
  | _, _ => True
/-- The same for the components of a tuple. -/
def ShortBytesAll : List Ty → List Val → Prop
  | t :: ts, v :: vs => ShortBytes t v ∧ ShortBytesAll ts vs
  | _, _ => True
end

end EthAbi.Spec
