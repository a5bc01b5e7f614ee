import Verif.Spec.Abi
import Verif.Model.Grammar

/-!
# Specification: the language of type strings

The grammar as a set of derivations, without any parsing order, and the type strings of the Solidity
types.  Taken from `Model/`: the representation of parsed types and `str(n)`.
-/
namespace EthAbi.Spec

/-- A numeral: decimal digits without a leading zero. -/
inductive Numeral : Nat → List Char → Prop where
  | one {c : Char} : '1' ≤ c → c ≤ '9' → Numeral (c.toNat - '0'.toNat) [c]
  | snoc {n : Nat} {s : List Char} {c : Char} : Numeral n s → '0' ≤ c → c ≤ '9' →
      Numeral (10 * n + (c.toNat - '0'.toNat)) (s ++ [c])

/-- A letter `A`–`Z` or `a`–`z`. -/
def IsLetter (c : Char) : Prop := ('A' ≤ c ∧ c ≤ 'Z') ∨ ('a' ≤ c ∧ c ≤ 'z')

/-- `sub?`: nothing, `N` or `MxN`. -/
inductive DerivesSub : Sub → List Char → Prop where
  | none : DerivesSub .none []
  | one {n : Nat} {s : List Char} : Numeral n s → DerivesSub (.one n) s
  | two {m n : Nat} {s t : List Char} : Numeral m s → Numeral n t →
      DerivesSub (.two m n) (s ++ t!"x" ++ t)

/-- `arrlist?`: any number of `[]` and `[N]`. -/
inductive DerivesDims : List (Option Nat) → List Char → Prop where
  | nil : DerivesDims [] []
  | dynamic {ds : List (Option Nat)} {s : List Char} : DerivesDims ds s →
      DerivesDims (none :: ds) (t!"[]" ++ s)
  | sized {ds : List (Option Nat)} {n : Nat} {s t : List Char} : Numeral n t → DerivesDims ds s →
      DerivesDims (some n :: ds) (t!"[" ++ t ++ t!"]" ++ s)

mutual
/-- The string `s` is derived from the grammar's `type` with the parse result `t`. -/
inductive Derives : ABIType → List Char → Prop where
  | basic {base s1 s2 : List Char} {sub : Sub} {arr : List (Option Nat)} : base ≠ [] →
      (∀ c ∈ base, IsLetter c) → DerivesSub sub s1 → DerivesDims arr s2 →
      Derives (.basic base sub arr) (base ++ s1 ++ s2)
  | tuple {comps : List ABIType} {s1 s2 : List Char} {arr : List (Option Nat)} :
      DerivesComps comps s1 → DerivesDims arr s2 →
      Derives (.tuple comps arr) (t!"(" ++ s1 ++ t!")" ++ s2)
/-- One or more types separated by commas. -/
inductive DerivesComps : List ABIType → List Char → Prop where
  | one {t : ABIType} {s : List Char} : Derives t s → DerivesComps [t] s
  | cons {t : ABIType} {ts : List ABIType} {s s' : List Char} : Derives t s → DerivesComps ts s' →
      DerivesComps (t :: ts) (s ++ t!"," ++ s')
end

/-! ## The names of the types -/

mutual
/-- `Spells lax s t`: the string `s` names the type `t`.  With `lax`, what the library accepts
beyond the ABI specification is included: a size after `bool` (`bool8`), which is ignored. -/
inductive Spells [Ext] (lax : Bool) : TypeStr → Ty → Prop where
  | uint {n : Nat} : validBits n → Spells lax (t!"uint" ++ natDigits n) (.uint n)
  | int {n : Nat} : validBits n → Spells lax (t!"int" ++ natDigits n) (.int n)
  | uint256 : Spells lax t!"uint" (.uint 256)
  | int256 : Spells lax t!"int" (.int 256)
  | address : Spells lax t!"address" .address
  | bool : Spells lax t!"bool" .bool
  | boolSub {sub : Sub} {s : List Char} : lax = true → DerivesSub sub s → sub.numsOk = true →
      Spells lax (t!"bool" ++ s) .bool
  | ufixed {m n : Nat} : validBits m → 0 < n → n ≤ 80 →
      Spells lax (t!"ufixed" ++ natDigits m ++ t!"x" ++ natDigits n) (.ufixed m n)
  | fixed {m n : Nat} : validBits m → 0 < n → n ≤ 80 →
      Spells lax (t!"fixed" ++ natDigits m ++ t!"x" ++ natDigits n) (.fixed m n)
  | ufixed128x18 : Spells lax t!"ufixed" (.ufixed 128 18)
  | fixed128x18 : Spells lax t!"fixed" (.fixed 128 18)
  | bytesM {m : Nat} : 0 < m → m ≤ 32 → Spells lax (t!"bytes" ++ natDigits m) (.bytesM m)
  | byte : Spells lax t!"byte" (.bytesM 1)
  | function : Spells lax t!"function" (.bytesM 24)
  | bytes : Spells lax t!"bytes" .bytes
  | string : Spells lax t!"string" .string
  /-- The number of elements must be one that Python's `int` reads. -/
  | sized {s : TypeStr} {t : Ty} {k : Nat} : Spells lax s t → 0 < k → numOk k = true →
      Spells lax (s ++ t!"[" ++ natDigits k ++ t!"]") (.sized k t)
  | dyn {s : TypeStr} {t : Ty} : Spells lax s t → Spells lax (s ++ t!"[]") (.dyn t)
  | tuple {s : TypeStr} {ts : List Ty} : SpellsComps lax s ts →
      Spells lax (t!"(" ++ s ++ t!")") (.tuple ts)
/-- One or more names separated by commas. -/
inductive SpellsComps [Ext] (lax : Bool) : TypeStr → List Ty → Prop where
  | one {s : TypeStr} {t : Ty} : Spells lax s t → SpellsComps lax s [t]
  | cons {s s' : TypeStr} {t : Ty} {ts : List Ty} : Spells lax s t → SpellsComps lax s' ts →
      SpellsComps lax (s ++ t!"," ++ s') (t :: ts)
end

/-- The type strings the default registries support: all names except a bare `byte`. -/
def Supported [Ext] (s : TypeStr) (t : Ty) : Prop := Spells true s t ∧ s ≠ t!"byte"

end EthAbi.Spec
