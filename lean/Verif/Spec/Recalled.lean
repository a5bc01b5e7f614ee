/-!
# What a memory of results leaves out
-/
namespace EthAbi.Spec

/-- `Recalled seen l l'`: `l'` is `l` without some of the entries that came before, in `l` or in `seen`. -/
inductive Recalled {α : Type} : List α → List α → List α → Prop
  | nil {seen : List α} : Recalled seen [] []
  | keep {seen l l' : List α} {x : α} : Recalled (x :: seen) l l' → Recalled seen (x :: l) (x :: l')
  | drop {seen l l' : List α} {x : α} : x ∈ seen → Recalled seen l l' → Recalled seen (x :: l) l'

end EthAbi.Spec
