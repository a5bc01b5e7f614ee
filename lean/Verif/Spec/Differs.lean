import Verif.Spec.Lengths

/-! # Two arguments that differ in one place -/
namespace EthAbi.Spec

/-- A type whose values are written in one piece of fixed size. -/
inductive IsWord : Ty → Nat → Prop where
  | uint (k : Nat) : IsWord (.uint k) (k / 8)
  | int (k : Nat) : IsWord (.int k) (k / 8)
  | ufixed (m n : Nat) : IsWord (.ufixed m n) (m / 8)
  | fixed (m n : Nat) : IsWord (.fixed m n) (m / 8)
  | address : IsWord .address 20
  | bool : IsWord .bool 1
  | bytesM (m : Nat) : IsWord (.bytesM m) m

/-- `v` and `v'`, as values of `t`, are the same except that in one place, of the elementary type `l`, the one has `u` and
the other `u'`.  Byte strings in this place have the same length.  `n` is the number of bytes that the place takes. -/
inductive Differs (pk : Bool) (l : Ty) (u u' : PyVal) : Ty → PyVal → PyVal → Nat → Prop where
  | word {w : Nat} : IsWord l w → Differs pk l u u' l u u' (wordWidth pk w)
  | bytes {b b' : Bytes} : l = .bytes → IsBytes u b → IsBytes u' b' → b.length = b'.length →
      Differs pk l u u' .bytes u u' (textWidth pk b.length - countWidth pk)
  | string {s s' : PyStr} {b b' : Bytes} : l = .string → u = .str s → u' = .str s' → utf8Encode? s = some b →
      utf8Encode? s' = some b' → b.length = b'.length →
      Differs pk l u u' .string u u' (textWidth pk b.length - countWidth pk)
  | sized {k : Nat} {t : Ty} {v v' w w' : PyVal} {before after : List PyVal} {n : Nat} :
      IsSeqOf v (before ++ w :: after) → IsSeqOf v' (before ++ w' :: after) → Differs pk l u u' t w w' n →
      Differs pk l u u' (.sized k t) v v' n
  | dyn {t : Ty} {v v' w w' : PyVal} {before after : List PyVal} {n : Nat} :
      IsSeqOf v (before ++ w :: after) → IsSeqOf v' (before ++ w' :: after) → Differs pk l u u' t w w' n →
      Differs pk l u u' (.dyn t) v v' n
  | tuple {t : Ty} {ts ts' : List Ty} {v v' w w' : PyVal} {before after : List PyVal} {n : Nat} :
      ts.length = before.length → IsSeqOf v (before ++ w :: after) → IsSeqOf v' (before ++ w' :: after) →
      Differs pk l u u' t w w' n → Differs pk l u u' (.tuple (ts ++ t :: ts')) v v' n

end EthAbi.Spec
