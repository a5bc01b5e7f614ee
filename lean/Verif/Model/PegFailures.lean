import Verif.Model.Peg
import Verif.Model.Pointing

/-!
# The failures of the grammar's expressions

`Expression.match_core` of `parsimonious` (0.10) records each expression that does not match where it is tried.  Here are these
failures for the grammar as data (`Model/Peg.lean`), in the order in which they happen, and the position made of them.
`Model/Pointing.lean` has them rule by rule.  Simplification as there: results are not
remembered (`C82_remembered` shows that this makes no difference).
-/
namespace EthAbi
namespace Peg

/-- The failures in a `Sequence`.  /repo/eth_abi/grammar.py:18-32. -/
def failsSeq (m : Matcher) (k : Expr → List Char → List Failure) : List Expr → List Char → List Failure
  | [], _ => []
  | e :: es, s =>
    k e s ++ match m e s with
      | some (_, r) => failsSeq m k es r
      | none => []

/-- The failures in a `OneOf`.  /repo/eth_abi/grammar.py:16,28,31. -/
def failsOneOf (m : Matcher) (k : Expr → List Char → List Failure) : List Expr → List Char → List Failure
  | [], _ => []
  | e :: es, s =>
    k e s ++ match m e s with
      | some _ => []
      | none => failsOneOf m k es s

/-- The failures in the loop of a `Quantifier` (`runMany`).  /repo/eth_abi/grammar.py:18,20,24,31. -/
def failsMany [Ext] (m : Matcher) (k : Expr → List Char → List Failure) (e : Expr) (min : Nat) (max : Option Nat) :
    Nat → Nat → List Char → List Failure
  | 0, _, _ => []
  | rounds + 1, count, s =>
    if (s = [] ∧ Ext.triesAtEnd = false) ∨ max = some count then []
    else
      k e s ++ match m e s with
        | none => []
        | some (n, r) => if min ≤ count + 1 ∧ n.text = [] then [] else failsMany m k e min max rounds (count + 1) r

/-- The failure of an expression itself, after those inside it.  /repo/eth_abi/grammar.py:14-38. -/
def own (x : Option (Node × List Char)) (named : Bool) (s : List Char) : List Failure :=
  if x.isNone then [⟨named, s⟩] else []

/-- All failures while an expression is matched.  `named`: it is the right side of a rule.  /repo/eth_abi/grammar.py:14-38. -/
def fails [Ext] : Nat → Bool → Expr → List Char → List Failure
  | 0, _, _, _ => []
  | fuel + 1, named, .lit l, s => own (run (fuel + 1) (.lit l) s) named s
  | fuel + 1, named, .regex rx, s => own (run (fuel + 1) (.regex rx) s) named s
  | fuel + 1, named, .seq es, s =>
    failsSeq (run fuel) (fails fuel false) es s ++ own (run (fuel + 1) (.seq es) s) named s
  | fuel + 1, named, .oneOf es, s =>
    failsOneOf (run fuel) (fails fuel false) es s ++ own (run (fuel + 1) (.oneOf es) s) named s
  | fuel + 1, named, .quant e min max, s =>
    failsMany (run fuel) (fails fuel false) e min max (s.length + 1) 0 s ++ own (run (fuel + 1) (.quant e min max) s) named s
  | fuel + 1, named, .ref r, s =>
    match grammar r with
    | .ref r' => fails fuel named (.ref r') s
    | e => fails fuel true e s

/-- `e.pos` of the `parsimonious.ParseError`: /repo/eth_abi/grammar.py:124-132. -/
def errorPos [Ext] (fuel : Nat) (s : TypeStr) : Option Nat :=
  match run fuel (.ref .type) s with
  | some (_, []) => none
  | some (_, rest) => some (s.length - rest.length)
  | none =>
    (fails fuel false (.ref .type) s).foldl (fun err f => recordFailure err f.named (s.length - f.rest.length)) none

end Peg
end EthAbi
