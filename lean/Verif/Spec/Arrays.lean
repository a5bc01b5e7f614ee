import Verif.Spec.Abi

/-! # Specification: arrays written as tuples -/
namespace EthAbi.Spec

mutual
/-- `t'` is `t` with some of its `T[k]`, at any depth, replaced by the tuple `(T,…,T)` of `k` times
`T`. -/
inductive Unrolled : Ty → Ty → Prop where
  | refl (t : Ty) : Unrolled t t
  | unroll {t t' : Ty} (k : Nat) : Unrolled t t' → Unrolled (.sized k t) (.tuple (List.replicate k t'))
  | sized {t t' : Ty} (k : Nat) : Unrolled t t' → Unrolled (.sized k t) (.sized k t')
  | dyn {t t' : Ty} : Unrolled t t' → Unrolled (.dyn t) (.dyn t')
  | tuple {ts ts' : List Ty} : UnrolledAll ts ts' → Unrolled (.tuple ts) (.tuple ts')
/-- The same for each type of a list. -/
inductive UnrolledAll : List Ty → List Ty → Prop where
  | nil : UnrolledAll [] []
  | cons {t t' : Ty} {ts ts' : List Ty} : Unrolled t t' → UnrolledAll ts ts' →
      UnrolledAll (t :: ts) (t' :: ts')
end

end EthAbi.Spec
