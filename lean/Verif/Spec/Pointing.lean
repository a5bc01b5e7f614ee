import Verif.Spec.Grammar

/-!
# Specification: where a type string goes wrong
-/
namespace EthAbi.Spec

/-- `s` is a type string. -/
def IsTypeStr (s : TypeStr) : Prop := ∃ t, Derives t s

/-- Some type string begins with `w`. -/
def Viable (w : TypeStr) : Prop := ∃ rest, IsTypeStr (w ++ rest)

/-- `v` is the longest beginning of `s` that some type string begins with: with the next character of `s`, if there is one,
it is no longer the beginning of a type string. -/
def Longest (s v : TypeStr) : Prop :=
  Viable v ∧ ∃ rest, s = v ++ rest ∧ ∀ c, rest.head? = some c → ¬ Viable (v ++ [c])

/-- What the library does not count of such a beginning: `[` and a number at its end, and its last character if there is a
type string without it and none with it. -/
inductive Unfinished : TypeStr → TypeStr → Prop where
  | size {p d : TypeStr} {n : Nat} : Numeral n d → Unfinished (p ++ '[' :: d) p
  | last {p : TypeStr} {c : Char} : IsTypeStr p → ¬ IsTypeStr (p ++ [c]) → Unfinished (p ++ [c]) p

/-- `[n]…[m]`: any number of array sizes. -/
inductive Sizes : TypeStr → Prop where
  | nil : Sizes []
  | cons {d s : TypeStr} {n : Nat} : Numeral n d → Sizes s → Sizes ('[' :: (d ++ ']' :: s))

/-- A component of a tuple begins behind `p`: after `(` or `,`. -/
def Begins (p : TypeStr) : Prop := ∃ q, p = q ++ ['('] ∨ p = q ++ [',']

/-- `base` is a name: letters, and at least one. -/
def IsName (base : TypeStr) : Prop := base ≠ [] ∧ ∀ c ∈ base, IsLetter c

/-- The last place in a string with a whole type at its end, but with a `)` missing, where something else could have followed:
behind `k` characters.  It is the last `)`, or the `]` of a `[]`; in a component that is a name with sizes it is the number
behind the name, or the first array size if there is no number, or the name itself (if there is nothing behind the name, or
`MxN`).  Array sizes `[n]` at the end do not count. -/
inductive LastTry : TypeStr → Nat → Prop where
  | paren {p z : TypeStr} : Sizes z → LastTry (p ++ ')' :: z) p.length
  | dynamic {p z : TypeStr} : Sizes z → LastTry (p ++ '[' :: ']' :: z) (p.length + 1)
  | name {p base : TypeStr} : Begins p → IsName base → LastTry (p ++ base) p.length
  | two {p base d e z : TypeStr} {m n : Nat} : Begins p → IsName base → Numeral m d → Numeral n e → Sizes z →
      LastTry (p ++ (base ++ (d ++ 'x' :: (e ++ z)))) p.length
  | number {p base d z : TypeStr} {n : Nat} : Begins p → IsName base → Numeral n d → Sizes z →
      LastTry (p ++ (base ++ (d ++ z))) (p.length + base.length)
  | size {p base d z : TypeStr} {n : Nat} : Begins p → IsName base → Numeral n d → Sizes z →
      LastTry (p ++ (base ++ ('[' :: (d ++ ']' :: z)))) (p.length + base.length)

/-- The place at the end of what was right, where a longest beginning `v` of a string ends. -/
def EndsAt (v : TypeStr) (k : Nat) : Prop :=
  (∃ p, Unfinished v p ∧ k = p.length) ∨ ((∀ p, ¬ Unfinished v p) ∧ k = v.length)

/-- A `ParseError` for `s` points behind the first `k` characters of `s`: to the end of the longest beginning that is right;
but if all of `s` is, and only a `)` is missing behind a type, and `parsimonious` tries nothing at the end of the string, then
to the last place where it did try something. -/
def PointsAt [Ext] (s : TypeStr) (k : Nat) : Prop :=
  ∃ v, Longest s v ∧
    ((Ext.triesAtEnd = false ∧ v = s ∧ LastTry s k) ∨
      (¬ (Ext.triesAtEnd = false ∧ v = s ∧ ∃ j, LastTry s j) ∧ EndsAt v k))

end EthAbi.Spec
