import Verif.Spec.Api
import Verif.Spec.Values

/-! # How many bytes a value takes

The sizes are counted from the values alone: which bytes are written plays no role here.  `pk` says whether the count is
for `encode_packed`. -/
namespace EthAbi.Spec

/-- The bytes of an elementary value. -/
def wordWidth (pk : Bool) (packedWidth : Nat) : Nat := if pk then packedWidth else 32

/-- The bytes of a byte string of the given length: in the standard encoding its length is written first, and it is filled
up to whole words. -/
def textWidth (pk : Bool) (n : Nat) : Nat := if pk then n else 32 + (n + 31) / 32 * 32

/-- The bytes spent on pointing at a value. -/
def pointerWidth (pk : Bool) (t : Ty) : Nat := if pk then 0 else if t.dynamic then 32 else 0

/-- The bytes spent on the number of items of `T[]`. -/
def countWidth (pk : Bool) : Nat := if pk then 0 else 32

mutual
/-- The value `v`, taken as a `t`, is `n` bytes long. -/
inductive Takes (pk : Bool) : Ty → PyVal → Nat → Prop where
  | uint (k : Nat) (v : PyVal) : Takes pk (.uint k) v (wordWidth pk (k / 8))
  | int (k : Nat) (v : PyVal) : Takes pk (.int k) v (wordWidth pk (k / 8))
  | ufixed (m n : Nat) (v : PyVal) : Takes pk (.ufixed m n) v (wordWidth pk (m / 8))
  | fixed (m n : Nat) (v : PyVal) : Takes pk (.fixed m n) v (wordWidth pk (m / 8))
  | address (v : PyVal) : Takes pk .address v (wordWidth pk 20)
  | bool (v : PyVal) : Takes pk .bool v (wordWidth pk 1)
  | bytesM (m : Nat) (v : PyVal) : Takes pk (.bytesM m) v (wordWidth pk m)
  | bytes {v : PyVal} {b : Bytes} : IsBytes v b → Takes pk .bytes v (textWidth pk b.length)
  | string {s : PyStr} {b : Bytes} : utf8Encode? s = some b → Takes pk .string (.str s) (textWidth pk b.length)
  | sized {k : Nat} {t : Ty} {v : PyVal} {vs : List PyVal} {n : Nat} :
      IsSeqOf v vs → vs.length = k → TakesItems pk t vs n → Takes pk (.sized k t) v n
  | dyn {t : Ty} {v : PyVal} {vs : List PyVal} {n : Nat} :
      IsSeqOf v vs → TakesItems pk t vs n → Takes pk (.dyn t) v (countWidth pk + n)
  | tuple {ts : List Ty} {v : PyVal} {vs : List PyVal} {n : Nat} :
      IsSeqOf v vs → TakesAll pk ts vs n → Takes pk (.tuple ts) v n
/-- The items of an array of `t`, with the pointers to them. -/
inductive TakesItems (pk : Bool) : Ty → List PyVal → Nat → Prop where
  | nil (t : Ty) : TakesItems pk t [] 0
  | cons {t : Ty} {v : PyVal} {vs : List PyVal} {n m : Nat} :
      Takes pk t v n → TakesItems pk t vs m → TakesItems pk t (v :: vs) (pointerWidth pk t + n + m)
/-- The components of a tuple or of an argument list, with the pointers to them. -/
inductive TakesAll (pk : Bool) : List Ty → List PyVal → Nat → Prop where
  | nil : TakesAll pk [] [] 0
  | cons {t : Ty} {ts : List Ty} {v : PyVal} {vs : List PyVal} {n m : Nat} :
      Takes pk t v n → TakesAll pk ts vs m → TakesAll pk (t :: ts) (v :: vs) (pointerWidth pk t + n + m)
end

end EthAbi.Spec
