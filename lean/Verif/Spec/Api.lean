import Verif.Spec.Grammar
import Verif.Spec.Read
import Verif.Spec.Values
import Mathlib.Data.List.Forall2
import Mathlib.Algebra.Order.Field.Rat
import Mathlib.Data.Rat.Cast.Defs

/-! # Specification: vocabulary for statements about the API -/
namespace EthAbi.Spec

/-- The type strings are supported and name, in order, the types `ts`. -/
def Names [Ext] (types : List TypeStr) (ts : List Ty) : Prop := List.Forall₂ Supported types ts

/-- The value is a list or a tuple with these items. -/
inductive IsListOf : PyVal → List PyVal → Prop where
  | list (vs : List PyVal) : IsListOf (.list vs) vs
  | tuple (vs : List PyVal) : IsListOf (.tuple vs) vs

/-- The value is a list, a tuple or another sequence with these items. -/
inductive IsSeqOf : PyVal → List PyVal → Prop where
  | list (vs : List PyVal) : IsSeqOf (.list vs) vs
  | tuple (vs : List PyVal) : IsSeqOf (.tuple vs) vs
  | seq (vs : List PyVal) : IsSeqOf (.seq vs) vs

/-- The value is a `bytes` or a `bytearray` with this content. -/
inductive IsBytes : PyVal → Bytes → Prop where
  | bytes (b : Bytes) : IsBytes (.bytes b) b
  | bytearray (b : Bytes) : IsBytes (.bytearray b) b

/-- A size that a Python `bytes` object can have. -/
def Fits (b : Bytes) : Prop := b.length ≤ ssizeMax

instance (b : Bytes) : Decidable (Fits b) := inferInstanceAs (Decidable (_ ≤ _))

/-- The head-tail encoding of a list of values of the types `ts`. -/
def encodeArgs (ts : List Ty) (xs : List Val) : Bytes := layout (encAll ts xs)

mutual
/-- Every list, tuple or other sequence anywhere in the value has a length with `P`. -/
def EverySeq (P : Nat → Prop) : PyVal → Prop
  | .list vs => P vs.length ∧ EverySeqs P vs
  | .tuple vs => P vs.length ∧ EverySeqs P vs
  | .seq vs => P vs.length ∧ EverySeqs P vs
  | _ => True
/-- The same for each value of a list. -/
def EverySeqs (P : Nat → Prop) : List PyVal → Prop
  | [] => True
  | v :: vs => EverySeq P v ∧ EverySeqs P vs
end

/-- The type string `(t1,...,tn)`. -/
def tupleStr (types : List TypeStr) : TypeStr := t!"(" ++ List.intercalate t!"," types ++ t!")"

/-- A digit `0`–`9` or a letter `a`–`f`. -/
def IsLowerHex (c : CodePoint) : Prop := (48 ≤ c.val ∧ c.val ≤ 57) ∨ (97 ≤ c.val ∧ c.val ≤ 102)

mutual
/-- The Python value is one that stands for a value of the type, in the form `decode` uses. -/
def Canonical : Ty → PyVal → Prop
  | .uint n, .int i => 0 ≤ i ∧ i < 2 ^ n
  | .int n, .int i => -(2 ^ (n - 1)) ≤ i ∧ i < 2 ^ (n - 1)
  | .bool, .bool _ => True
  | .address, .str s => s.length = 42 ∧ s.take 2 = ofChars t!"0x" ∧ ∀ c ∈ s.drop 2, IsLowerHex c
  | .ufixed m n, .dec (.fin c e) => ∃ k : Int, (c : ℚ) * 10 ^ e = k * 10 ^ (-(n : Int)) ∧
      0 ≤ k ∧ k < 2 ^ m
  | .fixed m n, .dec (.fin c e) => ∃ k : Int, (c : ℚ) * 10 ^ e = k * 10 ^ (-(n : Int)) ∧
      -(2 ^ (m - 1)) ≤ k ∧ k < 2 ^ (m - 1)
  | .bytesM m, .bytes b => b.length = m
  | .bytes, .bytes _ => True
  | .string, .str s => (utf8Encode? s).isSome
  | .sized k t, .tuple vs => vs.length = k ∧ ∀ v ∈ vs, Canonical t v
  | .dyn t, .tuple vs => ∀ v ∈ vs, Canonical t v
  | .tuple ts, .tuple vs => CanonicalAll ts vs
  | _, _ => False
/-- The same for the items of a tuple. -/
def CanonicalAll : List Ty → List PyVal → Prop
  | [], [] => True
  | t :: ts, v :: vs => Canonical t v ∧ CanonicalAll ts vs
  | _, _ => False
end

end EthAbi.Spec
