import Verif.Spec.Api

/-! # Specification: wider types -/
namespace EthAbi.Spec

mutual
/-- `Wider t t'`: `t'` is `t` with wider numbers in some places.  A signed type must have more bits than an unsigned one
to be wider. -/
inductive Wider : Ty → Ty → Prop where
  | same (t : Ty) : Wider t t
  | uint {n n' : Nat} : n ≤ n' → Wider (.uint n) (.uint n')
  | int {n n' : Nat} : n ≤ n' → Wider (.int n) (.int n')
  | signed {n n' : Nat} : n < n' → Wider (.uint n) (.int n')
  | ufixed {m m' n : Nat} : m ≤ m' → Wider (.ufixed m n) (.ufixed m' n)
  | fixed {m m' n : Nat} : m ≤ m' → Wider (.fixed m n) (.fixed m' n)
  | signedFixed {m m' n : Nat} : m < m' → Wider (.ufixed m n) (.fixed m' n)
  | sized {k : Nat} {t t' : Ty} : Wider t t' → Wider (.sized k t) (.sized k t')
  | dyn {t t' : Ty} : Wider t t' → Wider (.dyn t) (.dyn t')
  | tuple {ts ts' : List Ty} : WiderAll ts ts' → Wider (.tuple ts) (.tuple ts')
/-- The same for lists of types. -/
inductive WiderAll : List Ty → List Ty → Prop where
  | nil : WiderAll [] []
  | cons {t t' : Ty} {ts ts' : List Ty} : Wider t t' → WiderAll ts ts' → WiderAll (t :: ts) (t' :: ts')
end

end EthAbi.Spec
