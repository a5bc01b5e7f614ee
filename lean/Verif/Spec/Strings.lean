import Verif.Spec.Grammar

/-!
# Specification: runs of digits and the replacement of abbreviations
-/
namespace EthAbi.Spec

/-- A digit `0`–`9`. -/
def IsDigit (c : Char) : Prop := '0' ≤ c ∧ c ≤ '9'

instance (c : Char) : Decidable (IsDigit c) := inferInstanceAs (Decidable (_ ∧ _))

/-- The string has a `bool` with a digit after it. -/
def HasSizedBool (s : TypeStr) : Prop := ∃ d, IsDigit d ∧ t!"bool" ++ [d] <:+: s

/-- No run of digits in `s` is longer than what Python's `int` converts
(`sys.get_int_max_str_digits()`; `none` is no limit). -/
def DigitRunsFit [Ext] (s : TypeStr) : Prop :=
  ∀ k, Ext.maxStrDigits = some k → ∀ w, w <:+: s → (∀ c ∈ w, IsDigit c) → w.length ≤ k

/-- The abbreviations and what they stand for. -/
inductive Alias : TypeStr → TypeStr → Prop where
  | int : Alias t!"int" t!"int256"
  | uint : Alias t!"uint" t!"uint256"
  | fixed : Alias t!"fixed" t!"fixed128x18"
  | ufixed : Alias t!"ufixed" t!"ufixed128x18"
  | function : Alias t!"function" t!"bytes24"
  | byte : Alias t!"byte" t!"bytes1"

/-- A character that belongs to a word: a letter, a digit, `_`, or a character outside ASCII that
Python's `re` counts as `\w`. -/
def IsWordChar [Ext] (c : Char) : Prop :=
  IsLetter c ∨ IsDigit c ∨ c = '_' ∨ (128 ≤ c.toNat ∧ Ext.uniWord c = true)

/-- `s` does not go on with a character of a word. -/
def WordEnds [Ext] (s : List Char) : Prop := ∀ c, s.head? = some c → ¬ IsWordChar c

/-- `Replaced s s'`: `s'` is `s` with every whole word that is an abbreviation replaced, and nothing
else changed. -/
inductive Replaced [Ext] : TypeStr → TypeStr → Prop where
  | nil : Replaced [] []
  | other {c : Char} {s s' : TypeStr} : ¬ IsWordChar c → Replaced s s' → Replaced (c :: s) (c :: s')
  | alias {w r s s' : TypeStr} : Alias w r → WordEnds s → Replaced s s' → Replaced (w ++ s) (r ++ s')
  | word {w s s' : TypeStr} : w ≠ [] → (∀ c ∈ w, IsWordChar c) → (∀ r, ¬ Alias w r) → WordEnds s →
      Replaced s s' → Replaced (w ++ s) (w ++ s')

end EthAbi.Spec
