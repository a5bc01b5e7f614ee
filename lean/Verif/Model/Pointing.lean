import Verif.Model.Grammar

/-!
# The text of `ParseError`

`ParseError` names a position in the type string.  It is the one `parsimonious` (0.10, /repo/setup.py:62) found: while it
matches the grammar, an expression that does not match where it is tried is recorded, and in the end the last one recorded
is where the error is said to be.  Here are the expressions that do not match, in the order in which they are tried, along
the same path as in `Model/Grammar.lean`, and the text made of this.  Simplification: `parsimonious` remembers the result of
an expression at a place and does not try it again; trying it again records nothing that is further to the right.

In parsimonious 0.10 the loop of `Quantifier` (the expressions `e?`, `e*`, `e+`) runs `while new_pos < size`: at the end of the
string `e` is not tried, and no failure is recorded there.  Before 0.10 it was tried (the columns in /repo/tests/core/grammar.py,
which pytest does not collect, are from that time).  `Ext.triesAtEnd` says which of the two it is; what is said here holds for
both.
-/
namespace EthAbi

/-- An expression of the grammar was tried where `rest` is left of the string, and it did not match.  `named`: it is the
right side of a rule, not only a part of one.  /repo/eth_abi/grammar.py:14-38. -/
structure Failure where
  named : Bool
  rest : List Char
  deriving DecidableEq, Repr

/-- A rule that does not match.  /repo/eth_abi/grammar.py:14-38. -/
def Failure.rule (s : List Char) : Failure := ⟨true, s⟩

/-- A part of a rule that does not match.  /repo/eth_abi/grammar.py:14-38. -/
def Failure.part (s : List Char) : Failure := ⟨false, s⟩

/-- A repetition with `s` left: nothing is tried at the end of the string, unless the version of `parsimonious` does so.
/repo/eth_abi/grammar.py:18,20,24,31. -/
def repeated [Ext] (s : List Char) (failures : List Failure) : List Failure :=
  if s = [] ∧ Ext.triesAtEnd = false then [] else failures

/-- The failures of `digits`.  /repo/eth_abi/grammar.py:36. -/
def tDigits (s : List Char) : List Failure :=
  match pDigits s with
  | some _ => []
  | none => [.rule s]

/-- The failures of `two_size = (digits "x" digits)`.  /repo/eth_abi/grammar.py:29. -/
def tTwoSize (s : List Char) : List Failure :=
  match pDigits s with
  | some (_, 'x' :: r) =>
    match pDigits r with
    | some _ => []
    | none => tDigits r ++ [.rule s]
  | some (_, r) => [.part r, .rule s]
  | none => tDigits s ++ [.rule s]

/-- The failures of `sub?` where `sub = two_size / digits`.  /repo/eth_abi/grammar.py:24,28. -/
def tSub [Ext] (s : List Char) : List Failure :=
  repeated s <|
    match pTwoSize s with
    | some _ => []
    | none =>
      match pDigits s with
      | some _ => tTwoSize s
      | none => tTwoSize s ++ tDigits s ++ [.rule s]

/-- The failures of `const_arr = "[" digits "]"`.  /repo/eth_abi/grammar.py:32. -/
def tConstArr : List Char → List Failure
  | '[' :: r =>
    match pDigits r with
    | some (_, ']' :: _) => []
    | some (_, r') => [.part r', .rule ('[' :: r)]
    | none => tDigits r ++ [.rule ('[' :: r)]
  | s => [.part s, .rule s]

/-- The failures of `const_arr / dynam_arr` where `dynam_arr = "[]"`.  /repo/eth_abi/grammar.py:31-33. -/
def tDim (s : List Char) : List Failure :=
  match pDim s with
  | some _ => tConstArr s
  | none => tConstArr s ++ [.rule s, .part s]

/-- The failures of the repetition in `arrlist = (const_arr / dynam_arr)+`.  /repo/eth_abi/grammar.py:31. -/
def tDims [Ext] : Nat → List Char → List Failure
  | 0, _ => []
  | fuel + 1, s =>
    repeated s <|
      match pDim s with
      | some (_, r) => tDim s ++ tDims fuel r
      | none => tDim s

/-- The failures of `arrlist?`.  /repo/eth_abi/grammar.py:18,24,31. -/
def tArr [Ext] (fuel : Nat) (s : List Char) : List Failure :=
  repeated s <|
    match pDim s with
    | some _ => tDims fuel s
    | none => tDims fuel s ++ [.rule s]

/-- The failures of `basic_type = base sub? arrlist?` where `base = alphas`.  /repo/eth_abi/grammar.py:24-26,35. -/
def tBasic [Ext] (fuel : Nat) (s : List Char) : List Failure :=
  match pAlphas s with
  | some (_, r) => tSub r ++ tArr fuel (pSub r).2
  | none => [.rule s, .rule s]

mutual
/-- The failures of `type = tuple_type / basic_type`, `tuple_type = components arrlist?` and
`components = non_zero_tuple = "(" type next_type* ")"`.  /repo/eth_abi/grammar.py:16-21. -/
def tType [Ext] : Nat → List Char → List Failure
  | 0, _ => []
  | fuel + 1, s =>
    match s with
    | '(' :: r =>
      match pType fuel r with
      | some (_, r1) =>
        match pNexts fuel r1 with
        | (_, ')' :: r2) => tType fuel r ++ tNexts fuel r1 ++ tArr fuel r2
        | (_, r2) =>
          tType fuel r ++ tNexts fuel r1 ++ [.part r2, .rule s, .rule s] ++ tBasic fuel s ++ [.rule s]
      | none => tType fuel r ++ [.rule s, .rule s] ++ tBasic fuel s ++ [.rule s]
    | s =>
      match pBasic fuel s with
      | some _ => [.part s, .rule s, .rule s] ++ tBasic fuel s
      | none => [.part s, .rule s, .rule s] ++ tBasic fuel s ++ [.rule s]
/-- The failures of `next_type*` where `next_type = "," type`.  /repo/eth_abi/grammar.py:20-21. -/
def tNexts [Ext] : Nat → List Char → List Failure
  | 0, _ => []
  | fuel + 1, s =>
    match s with
    | ',' :: r =>
      match pType fuel r with
      | some (_, r1) => tType fuel r ++ tNexts fuel r1
      | none => tType fuel r ++ [.rule s]
    | s => repeated s [.part s, .rule s]
end

/-- What is recorded of a failure at position `pos` when `err` is recorded already (`parsimonious`): nothing that is further
to the left, and no part of a rule unless it is the very first failure.  /repo/eth_abi/grammar.py:124-132. -/
def recordFailure (err : Option Nat) (named : Bool) (pos : Nat) : Option Nat :=
  match err with
  | none => some pos
  | some p => if named && decide (p ≤ pos) then some pos else some p

/-- `e.pos` of the `parsimonious.ParseError`: where the type ends if the string goes on after a type, and otherwise what was
recorded last.  /repo/eth_abi/grammar.py:124-132. -/
def errorPos [Ext] (s : TypeStr) : Option Nat :=
  match pType (s.length + 1) s with
  | some (_, []) => none
  | some (_, rest) => some (s.length - rest.length)
  | none => (tType (s.length + 1) s).foldl (fun err f => recordFailure err f.named (s.length - f.rest.length)) none

/-- `self.column()` of `parsimonious`: the number of characters after the last line break before `pos`, counted from 1.
/repo/eth_abi/exceptions.py:74. -/
def columnAt (s : TypeStr) (pos : Nat) : Nat :=
  match (s.take pos).reverse.findIdx? (· == '\n') with
  | some i => i + 1
  | none => pos + 1

/-- `str(error)`: /repo/eth_abi/exceptions.py:71-75. -/
def parseErrorStr (s : TypeStr) (pos : Nat) : List Char :=
  t!"Parse error at '" ++ (s.drop pos).take 5 ++ t!"' (column " ++ natDigits (columnAt s pos) ++
    t!") in type string '" ++ s ++ t!"'"

/-- The text of the `ParseError` that `parse(s)` raises, `none` if it raises none.  /repo/eth_abi/grammar.py:110-132. -/
def parseErrorText [Ext] (s : TypeStr) : Option (List Char) :=
  match parse s with
  | .error .parseError => (errorPos s).map (parseErrorStr s)
  | _ => none

end EthAbi
