import Verif.Spec.Declined
import Verif.Spec.Pointing
import Verif.Model.Lookups

/-!
# Specification: what is said of a type string without a coder
-/
namespace EthAbi.Spec

/-- Which of the three default collections of coders. -/
inductive Coders where
  | encoders
  | packedEncoders
  | decoders

/-- What a collection is called in a text. -/
def Coders.title : Coders → List Char
  | .encoders => t!"encoder registry"
  | .packedEncoders => t!"encoder registry"
  | .decoders => t!"decoder registry"

/-- The class that is in charge of `function`. -/
def Coders.functionClass : Coders → List Char
  | .encoders => t!"BytesEncoder"
  | .packedEncoders => t!"PackedBytesEncoder"
  | .decoders => t!"BytesDecoder"

/-- A name, as it is written. -/
def written (base : List Char) : Sub → List Char
  | .none => base
  | .one n => base ++ natDigits n
  | .two m n => base ++ natDigits m ++ 'x' :: natDigits n

/-- What is said of a name without a coder. -/
inductive SaidOf (k : Coders) : List Char → Sub → List Char → Prop where
  | function {sub : Sub} : sub ≠ .none → SaidOf k t!"function" sub
      (t!"Cannot create " ++ k.functionClass ++ t!" for type '" ++ written t!"function" sub ++
        t!"': expected type with base 'bytes'")
  | other {base : List Char} {sub : Sub} : ¬ Coded base → base ≠ t!"function" → ¬ Abbreviated base sub →
      SaidOf k base sub (t!"No matching entries for '" ++ written base sub ++ t!"' in " ++ k.title)

/-- There is no coder for the string, and this text says so. -/
inductive Explained [Ext] (k : Coders) : TypeStr → List Char → Prop where
  /-- Not a type, and with empty parentheses in it. -/
  | parens {s : TypeStr} : (∀ t, ¬ Derives t s) → t!"()" <:+: s →
      Explained k s t!"Zero-sized tuple types \"()\" are not supported."
  /-- Not a type. -/
  | grammar {s : TypeStr} {p : Nat} : (∀ t, ¬ Derives t s) → ¬ t!"()" <:+: s → PointsAt s p →
      Explained k s (t!"Parse error at '" ++ (s.drop p).take 5 ++ t!"' (column " ++ natDigits (p + 1) ++
        t!") in type string '" ++ s ++ t!"'")
  /-- `byte` alone, though it is `bytes1` inside arrays and tuples. -/
  | byte : Explained k t!"byte" (t!"No matching entries for 'byte' in " ++ k.title)
  /-- A name alone, with a wrong suffix. -/
  | ill {s : TypeStr} {base : List Char} {sub : Sub} {msg : List Char} : Derives (.basic base sub []) s → DigitRunsFit s →
      Coded base → ¬ Abbreviated base sub → Breaks base sub msg →
      Explained k s (t!"For '" ++ s ++ t!"' type at column 1 in '" ++ s ++ t!"': " ++ msg)
  /-- A name alone, without a coder. -/
  | uncoded {s : TypeStr} {base : List Char} {sub : Sub} {text : List Char} : Derives (.basic base sub []) s →
      DigitRunsFit s → SaidOf k base sub text → Explained k s text
  /-- An array or a tuple with a wrong suffix: the first one in the string without abbreviations. -/
  | illInside {s s' : TypeStr} {t : ABIType} {p : Nat} {word msg : List Char} : Derives t s → DigitRunsFit s → ¬ Alone t →
      Replaced s s' → FirstWrong s' p word msg →
      Explained k s (t!"For '" ++ word ++ t!"' type at column " ++ natDigits (p + 1) ++ t!" in '" ++ s' ++ t!"': " ++ msg)
  /-- An array or a tuple with right suffixes: the first name without a coder. -/
  | uncodedInside {s : TypeStr} {t : ABIType} {text : List Char} {pre post : List (List Char × Sub)} {base : List Char}
      {sub : Sub} : Derives t s → DigitRunsFit s → ¬ Alone t → (∀ p ∈ names t, ¬ Ill p.1 p.2) →
      names t = pre ++ (base, sub) :: post → (∀ p ∈ pre, ∀ e, ¬ Uncoded p.1 p.2 e) → SaidOf k base sub text →
      Explained k s text

/-- Python prints a `str` of letters and digits between apostrophes. -/
def PrintsPlain (w : Wording) : Prop :=
  ∀ s : List Char, (∀ c ∈ s, IsLetter c ∨ IsDigit c) → w.str s = '\'' :: s ++ ['\'']

/-- A type string as it is shown: as it was given and, if this is something else, without abbreviations. -/
def displayed (w : Wording) (s s' : TypeStr) : List Char :=
  if s = s' then w.str s else w.str s ++ t!" (normalized to " ++ w.str s' ++ t!")"

/-- What is said when a class is asked for a coder of a type it is not for.  `base` is the base the class is for, `arrays` whether
it is for arrays; `s'` is the string without abbreviations and `t` its type. -/
inductive NotFor (w : Wording) (cls : List Char) (base : Option (List Char)) (arrays : Bool) (s s' : TypeStr) :
    ABIType → List Char → Prop where
  | tuple {ts : List ABIType} {dims : List (Option Nat)} : base ≠ none → NotFor w cls base arrays s s' (.tuple ts dims)
      (t!"Cannot create " ++ cls ++ t!" for non-basic type " ++ displayed w s s')
  | base {b b' : List Char} {sub : Sub} {dims : List (Option Nat)} : base = some b → b' ≠ b →
      NotFor w cls base arrays s s' (.basic b' sub dims)
      (t!"Cannot create " ++ cls ++ t!" for type " ++ displayed w s s' ++ t!": expected type with base '" ++ b ++ t!"'")
  | array {b : List Char} {sub : Sub} {dims : List (Option Nat)} : base = none ∨ base = some b → arrays = false → dims ≠ [] →
      NotFor w cls base arrays s s' (.basic b sub dims)
      (t!"Cannot create " ++ cls ++ t!" for type " ++ displayed w s s' ++ t!": expected type with no array dimension list")
  | noArray {b : List Char} {sub : Sub} : base = none ∨ base = some b → arrays = true →
      NotFor w cls base arrays s s' (.basic b sub [])
      (t!"Cannot create " ++ cls ++ t!" for type " ++ displayed w s s' ++ t!": expected type with array dimension list")
  | tupleArray {ts : List ABIType} {dims : List (Option Nat)} : base = none → arrays = false → dims ≠ [] →
      NotFor w cls base arrays s s' (.tuple ts dims)
      (t!"Cannot create " ++ cls ++ t!" for type " ++ displayed w s s' ++ t!": expected type with no array dimension list")
  | tupleNoArray {ts : List ABIType} : base = none → arrays = true →
      NotFor w cls base arrays s s' (.tuple ts [])
      (t!"Cannot create " ++ cls ++ t!" for type " ++ displayed w s s' ++ t!": expected type with array dimension list")

/-- The text of a matcher. -/
inductive MatcherText (w : Wording) : PredKind → List Char → Prop where
  | equals (v : TypeStr) : MatcherText w (.equals v) (t!"<Equals (== " ++ w.str v ++ t!")>")
  | base (b : List Char) : MatcherText w (.baseEquals b none) (t!"<BaseEquals (base == " ++ w.str b ++ t!")>")
  | withSub (b : List Char) :
      MatcherText w (.baseEquals b (some true)) (t!"<BaseEquals (base == " ++ w.str b ++ t!" and sub is not None)>")
  | withoutSub (b : List Char) :
      MatcherText w (.baseEquals b (some false)) (t!"<BaseEquals (base == " ++ w.str b ++ t!" and sub is None)>")

/-- `Equals(v)` or `BaseEquals(v, ...)` where `v` is of letters and digits. -/
inductive PlainMatcher : PredKind → Prop where
  | equals {v : TypeStr} : (∀ c ∈ v, IsLetter c ∨ IsDigit c) → PlainMatcher (.equals v)
  | base {b : List Char} {sub : Option Bool} : (∀ c ∈ b, IsLetter c ∨ IsDigit c) → PlainMatcher (.baseEquals b sub)

end EthAbi.Spec
