import Verif.Spec.Api

/-! # Specification: Python values that are the same to the encoder -/
namespace EthAbi.Spec

mutual
/-- `Alike t v v'`: as a value of type `t`, the Python values `v` and `v'` differ only in form. -/
inductive Alike [Ext] : Ty → PyVal → PyVal → Prop where
  | same (t : Ty) (v : PyVal) : Alike t v v
  /-- `bytes` and `bytearray` with the same content. -/
  | bytes {t : Ty} {v v' : PyVal} {b : Bytes} : IsBytes v b → IsBytes v' b → Alike t v v'
  /-- Two sequences, such as a list and a tuple, with the same items. -/
  | items {t : Ty} {v v' : PyVal} {vs : List PyVal} : IsSeqOf v vs → IsSeqOf v' vs → Alike t v v'
  /-- Two numbers, `int`, `bool` or `Decimal`, of the same value. -/
  | ufixed {a b : Nat} {v v' : PyVal} {m e m' e' : Int} : number? v = some (m, e) → number? v' = some (m', e') →
      (m : ℚ) * 10 ^ e = m' * 10 ^ e' → Alike (.ufixed a b) v v'
  | fixed {a b : Nat} {v v' : PyVal} {m e m' e' : Int} : number? v = some (m, e) → number? v' = some (m', e') →
      (m : ℚ) * 10 ^ e = m' * 10 ^ e' → Alike (.fixed a b) v v'
  /-- Two ways to write the same address: hex digits of any permitted case with or without `0x`, or
  20 bytes. -/
  | address {v v' : PyVal} {b : Bytes} : address? v = some b → address? v' = some b → Alike .address v v'
  | sized {k : Nat} {t : Ty} {v v' : PyVal} {vs vs' : List PyVal} : IsSeqOf v vs → IsSeqOf v' vs' →
      AlikeEach t vs vs' → Alike (.sized k t) v v'
  | dyn {t : Ty} {v v' : PyVal} {vs vs' : List PyVal} : IsSeqOf v vs → IsSeqOf v' vs' →
      AlikeEach t vs vs' → Alike (.dyn t) v v'
  | tuple {ts : List Ty} {v v' : PyVal} {vs vs' : List PyVal} : IsSeqOf v vs → IsSeqOf v' vs' →
      AlikeAll ts vs vs' → Alike (.tuple ts) v v'
/-- The items of two lists, all of type `t`. -/
inductive AlikeEach [Ext] : Ty → List PyVal → List PyVal → Prop where
  | nil {t : Ty} : AlikeEach t [] []
  | cons {t : Ty} {v v' : PyVal} {vs vs' : List PyVal} : Alike t v v' → AlikeEach t vs vs' →
      AlikeEach t (v :: vs) (v' :: vs')
/-- The items of two lists, of the types `ts`; items for which there is no type are the same. -/
inductive AlikeAll [Ext] : List Ty → List PyVal → List PyVal → Prop where
  | rest {vs : List PyVal} : AlikeAll [] vs vs
  | short {ts : List Ty} : AlikeAll ts [] []
  | cons {t : Ty} {ts : List Ty} {v v' : PyVal} {vs vs' : List PyVal} : Alike t v v' → AlikeAll ts vs vs' →
      AlikeAll (t :: ts) (v :: vs) (v' :: vs')
end

end EthAbi.Spec
