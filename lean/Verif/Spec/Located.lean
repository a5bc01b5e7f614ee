import Verif.Spec.Grammar
import Verif.Model.Located

/-!
# Specification: where the elementary types stand in a type string, and what is wrong with them
-/
namespace EthAbi.Spec

/-- The characters around the components of a tuple. -/
def IsDelimiter (c : Char) : Prop := c = '(' ∨ c = ',' ∨ c = ')'

/-- `w` stands in `s` after `p` characters, begins with a letter, has no delimiter in it, and cannot be made longer:
before and after it is a delimiter, or nothing. -/
def WordAt (s : TypeStr) (p : Nat) (w : TypeStr) : Prop :=
  ∃ pre post, s = pre ++ w ++ post ∧ pre.length = p ∧ (∃ c, w.head? = some c ∧ IsLetter c) ∧
    (∀ c ∈ w, ¬ IsDelimiter c) ∧ (∀ c, pre.getLast? = some c → IsDelimiter c) ∧
    (∀ c, post.head? = some c → IsDelimiter c)

/-- What is wrong with a base and a sub part. -/
inductive Breaks : List Char → Sub → List Char → Prop where
  | string {sub : Sub} : sub ≠ .none → Breaks t!"string" sub t!"string type cannot have suffix"
  | bytesPair {m n : Nat} :
      Breaks t!"bytes" (.two m n) t!"bytes type must have either no suffix or a numerical suffix"
  | bytesSize {n : Nat} : 32 < n → Breaks t!"bytes" (.one n) t!"maximum 32 bytes for fixed-length bytes"
  | intSuffix {b : List Char} {sub : Sub} : b = t!"int" ∨ b = t!"uint" → (∀ n, sub ≠ .one n) →
      Breaks b sub t!"integer type must have numerical suffix"
  | intSize {b : List Char} {n : Nat} : b = t!"int" ∨ b = t!"uint" → n < 8 ∨ 256 < n →
      Breaks b (.one n) t!"integer size out of bounds (max 256 bits)"
  | intMultiple {b : List Char} {n : Nat} : b = t!"int" ∨ b = t!"uint" → 8 ≤ n → n ≤ 256 → ¬ 8 ∣ n →
      Breaks b (.one n) t!"integer size must be multiple of 8"
  | fixedSuffix {b : List Char} {sub : Sub} : b = t!"fixed" ∨ b = t!"ufixed" → (∀ m n, sub ≠ .two m n) →
      Breaks b sub t!"fixed type must have suffix of form <bits>x<exponent>, e.g. 128x19"
  | fixedSize {b : List Char} {m n : Nat} : b = t!"fixed" ∨ b = t!"ufixed" → m < 8 ∨ 256 < m →
      Breaks b (.two m n) t!"fixed size out of bounds (max 256 bits)"
  | fixedMultiple {b : List Char} {m n : Nat} : b = t!"fixed" ∨ b = t!"ufixed" → 8 ≤ m → m ≤ 256 → ¬ 8 ∣ m →
      Breaks b (.two m n) t!"fixed size must be multiple of 8"
  | fixedExponent {b : List Char} {m n : Nat} : b = t!"fixed" ∨ b = t!"ufixed" → 8 ≤ m → m ≤ 256 → 8 ∣ m →
      n < 1 ∨ 80 < n →
      Breaks b (.two m n) (t!"fixed exponent size out of bounds, " ++ natDigits n ++ t!" must be in 1-80")
  | hash {sub : Sub} : (∀ n, sub ≠ .one n) → Breaks t!"hash" sub t!"hash type must have numerical suffix"
  | address {sub : Sub} : sub ≠ .none → Breaks t!"address" sub t!"address cannot have suffix"

/-- The word is the name of an elementary type, possibly with array dimensions, and this is wrong with it. -/
def WrongWord (w : TypeStr) (msg : List Char) : Prop :=
  ∃ base sub arr, Derives (.basic base sub arr) w ∧ Breaks base sub msg

/-- `w` at `p` is the first word of `s` with which something is wrong, and this is wrong with it. -/
def FirstWrong (s : TypeStr) (p : Nat) (w : TypeStr) (msg : List Char) : Prop :=
  WordAt s p w ∧ WrongWord w msg ∧ ∀ q v, q < p → WordAt s q v → ∀ m, ¬ WrongWord v m

/-- `u` is `t` or a component of it, at any depth. -/
inductive PartOf (u : NType) : NType → Prop where
  | self : PartOf u u
  | tuple {t : NType} {ts : List NType} {arr : List (Option Nat)} {node : Option Node} : t ∈ ts → PartOf u t →
      PartOf u (.tuple ts arr node)

/-- The attribute `node`. -/
def nodeAttr : NType → Option Node
  | .basic _ _ _ node => node
  | .tuple _ _ node => node

end EthAbi.Spec
