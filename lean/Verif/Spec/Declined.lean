import Verif.Spec.Located
import Verif.Spec.Strings

/-!
# Specification: the exception for a type string without a coder
-/
namespace EthAbi.Spec

mutual
/-- The elementary names in a type, from left to right: the base and what follows it. -/
def names : ABIType → List (List Char × Sub)
  | .basic base sub _ => [(base, sub)]
  | .tuple comps _ => namesAll comps
/-- The same for components. -/
def namesAll : List ABIType → List (List Char × Sub)
  | [] => []
  | c :: cs => names c ++ namesAll cs
end

/-- The type is one elementary name and nothing else. -/
def Alone (t : ABIType) : Prop := ∃ base sub, t = .basic base sub []

/-- The name stands for a longer one. -/
def Abbreviated (base : List Char) (sub : Sub) : Prop := sub = .none ∧ ∃ full, Alias base full

/-- Something is wrong with what follows the base. -/
def Ill (base : List Char) (sub : Sub) : Prop := ¬ Abbreviated base sub ∧ ∃ msg, Breaks base sub msg

/-- The bases for which there are coders. -/
def Coded (base : List Char) : Prop :=
  base = t!"uint" ∨ base = t!"int" ∨ base = t!"address" ∨ base = t!"bool" ∨ base = t!"ufixed" ∨ base = t!"fixed" ∨
  base = t!"bytes" ∨ base = t!"string"

/-- There is no coder for the name, and this exception says so. -/
inductive Uncoded : List Char → Sub → Exc → Prop where
  | function {sub : Sub} : sub ≠ .none → Uncoded t!"function" sub .valueError
  | other {base : List Char} {sub : Sub} : ¬ Coded base → base ≠ t!"function" → ¬ Abbreviated base sub →
      Uncoded base sub .noEntriesFound

/-- The first name without a coder, and its exception. -/
def FirstUncoded (t : ABIType) (e : Exc) : Prop :=
  ∃ pre base sub post, names t = pre ++ (base, sub) :: post ∧ Uncoded base sub e ∧
    ∀ p ∈ pre, ∀ e', ¬ Uncoded p.1 p.2 e'

/-- There is no coder for the string, and this exception says so. -/
inductive Declined [Ext] : TypeStr → Exc → Prop where
  /-- Not a type, and with empty parentheses in it. -/
  | parens {s : TypeStr} : (∀ t, ¬ Derives t s) → t!"()" <:+: s → Declined s .valueError
  /-- Not a type. -/
  | grammar {s : TypeStr} : (∀ t, ¬ Derives t s) → ¬ t!"()" <:+: s → Declined s .parseError
  /-- A number that is too long. -/
  | digits {s : TypeStr} {t : ABIType} : Derives t s → ¬ DigitRunsFit s → Declined s .visitationError
  /-- `byte` alone, though it is `bytes1` inside arrays and tuples. -/
  | byte : Declined t!"byte" .noEntriesFound
  /-- A name alone, with a wrong suffix. -/
  | ill {s : TypeStr} {base : List Char} {sub : Sub} : Derives (.basic base sub []) s → DigitRunsFit s →
      Coded base → Ill base sub → Declined s .abiTypeError
  /-- A name alone, without a coder. -/
  | uncoded {s : TypeStr} {base : List Char} {sub : Sub} {e : Exc} : Derives (.basic base sub []) s → DigitRunsFit s →
      Uncoded base sub e → Declined s e
  /-- An array or a tuple: all names are looked at for wrong suffixes first … -/
  | illInside {s : TypeStr} {t : ABIType} {p : List Char × Sub} : Derives t s → DigitRunsFit s → ¬ Alone t →
      p ∈ names t → Ill p.1 p.2 → Declined s .abiTypeError
  /-- … and then the coders are looked up. -/
  | uncodedInside {s : TypeStr} {t : ABIType} {e : Exc} : Derives t s → DigitRunsFit s → ¬ Alone t →
      (∀ p ∈ names t, ¬ Ill p.1 p.2) → FirstUncoded t e → Declined s e

end EthAbi.Spec
