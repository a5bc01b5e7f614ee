import Verif.Model.Grammar

/-!
# The grammar as it is written, and its visitor

`Model/Grammar.lean` has the parser of type strings as one function for each rule, with the visitor's work done on the way.
Here the grammar is data, transcribed line by line from /repo/eth_abi/grammar.py:14-38, an interpreter builds the parse tree
as `parsimonious` does, and `NodeVisitor` walks over the tree afterwards, as in the code.  C94 says that both come to the
same.

`parsimonious` (0.10) is not in /repo.  What is modelled of it: `Literal`, `Regex`, `Sequence`, `OneOf` and `Quantifier` in
expressions.py, that a rule which is just another rule's name is that rule, `Grammar.match`, `Grammar.parse` and
`NodeVisitor.visit`.
-/
namespace EthAbi
namespace Peg

/-- The names of the rules: /repo/eth_abi/grammar.py:16-36. -/
inductive Rule where
  | type | tuple_type | components | non_zero_tuple | next_type | basic_type | base | sub | two_size | arrlist | const_arr
  | dynam_arr | alphas | digits
  deriving DecidableEq, Repr

/-- How often something occurs in a regular expression: once, any number of times, at least once.
/repo/eth_abi/grammar.py:35-36. -/
inductive Rep where
  | one | star | plus
  deriving DecidableEq, Repr

/-- A regular expression: classes of characters, each a list of ranges, and how often they occur.
/repo/eth_abi/grammar.py:35-36. -/
abbrev Rx := List (List (Char × Char) × Rep)

/-- An expression of the grammar: /repo/eth_abi/grammar.py:14-38. -/
inductive Expr where
  | lit (s : List Char)
  | regex (r : Rx)
  | seq (es : List Expr)
  | oneOf (es : List Expr)
  /-- `Quantifier` with `min` and `max`; `none` is infinity. -/
  | quant (e : Expr) (min : Nat) (max : Option Nat)
  | ref (r : Rule)

/-- `e?`.  /repo/eth_abi/grammar.py:18,24. -/
def Expr.opt (e : Expr) : Expr := .quant e 0 (some 1)

/-- The grammar: /repo/eth_abi/grammar.py:14-38. -/
def grammar : Rule → Expr
  | .type => .oneOf [.ref .tuple_type, .ref .basic_type]
  | .tuple_type => .seq [.ref .components, .opt (.ref .arrlist)]
  | .components => .ref .non_zero_tuple
  | .non_zero_tuple => .seq [.lit t!"(", .ref .type, .quant (.ref .next_type) 0 none, .lit t!")"]
  | .next_type => .seq [.lit t!",", .ref .type]
  | .basic_type => .seq [.ref .base, .opt (.ref .sub), .opt (.ref .arrlist)]
  | .base => .ref .alphas
  | .sub => .oneOf [.ref .two_size, .ref .digits]
  | .two_size => .seq [.ref .digits, .lit t!"x", .ref .digits]
  | .arrlist => .quant (.oneOf [.ref .const_arr, .ref .dynam_arr]) 1 none
  | .const_arr => .seq [.lit t!"[", .ref .digits, .lit t!"]"]
  | .dynam_arr => .lit t!"[]"
  | .alphas => .regex [([('A', 'Z'), ('a', 'z')], .plus)]
  | .digits => .regex [([('1', '9')], .one), ([('0', '9')], .star)]

/-- What kind of expression a node is of, as far as `generic_visit` asks: /repo/eth_abi/grammar.py:95-108. -/
inductive Kind where
  | oneOf | optional | other
  deriving DecidableEq, Repr

/-- `parsimonious.nodes.Node`: `expr_name`, `expr`, `text` and `children`.  Used in /repo/eth_abi/grammar.py:51-108.
Simplification: `start` and `full_text` are left out (`Model/Located.lean` has them). -/
inductive Node where
  | mk (name : Option Rule) (kind : Kind) (text : List Char) (children : List Node)

/-- `node.text`.  /repo/eth_abi/grammar.py:90,93. -/
def Node.text : Node → List Char
  | .mk _ _ t _ => t

/-- A rule gives its expression its name.  /repo/eth_abi/grammar.py:14-38. -/
def Node.named (r : Rule) : Node → Node
  | .mk _ k t c => .mk (some r) k t c

/-- A character class of a regular expression.  /repo/eth_abi/grammar.py:35-36. -/
def inClass (cls : List (Char × Char)) (c : Char) : Bool := cls.any fun r => decide (r.1 ≤ c ∧ c ≤ r.2)

/-- `re.match`: what it matches and what is left.  Greedy; simplification: it does not go back, which makes no difference in
the two expressions of the grammar, as nothing follows on the repetitions.  /repo/eth_abi/grammar.py:35-36. -/
def rxMatch : Rx → List Char → Option (List Char × List Char)
  | [], s => some ([], s)
  | (cls, .one) :: rx, s =>
    match s with
    | c :: cs => if inClass cls c then (rxMatch rx cs).map fun (m, r) => (c :: m, r) else none
    | [] => none
  | (cls, .star) :: rx, s =>
    (rxMatch rx (s.dropWhile (inClass cls))).map fun (m, r) => (s.takeWhile (inClass cls) ++ m, r)
  | (cls, .plus) :: rx, s =>
    if s.takeWhile (inClass cls) = [] then none
    else (rxMatch rx (s.dropWhile (inClass cls))).map fun (m, r) => (s.takeWhile (inClass cls) ++ m, r)

/-- How an expression is matched: the node and what is left. -/
abbrev Matcher := Expr → List Char → Option (Node × List Char)

/-- `Sequence`: all of them, one after the other.  /repo/eth_abi/grammar.py:18-32. -/
def runSeq (m : Matcher) : List Expr → List Char → Option (List Node × List Char)
  | [], s => some ([], s)
  | e :: es, s =>
    match m e s with
    | none => none
    | some (n, r) =>
      match runSeq m es r with
      | none => none
      | some (ns, r') => some (n :: ns, r')

/-- `OneOf`: the first that matches.  /repo/eth_abi/grammar.py:16,28,31. -/
def runOneOf (m : Matcher) : List Expr → List Char → Option (Node × List Char)
  | [], _ => none
  | e :: es, s =>
    match m e s with
    | some x => some x
    | none => runOneOf m es s

/-- The loop of `Quantifier`, with `count` nodes found; it ends with the string (if nothing is tried there), with `max`, with
the first failure, and with a node of length 0 if there are enough.  The first argument is an upper bound on the number of
rounds.  /repo/eth_abi/grammar.py:18,20,24,31. -/
def runMany [Ext] (m : Matcher) (e : Expr) (min : Nat) (max : Option Nat) : Nat → Nat → List Char → List Node × List Char
  | 0, _, s => ([], s)
  | rounds + 1, count, s =>
    if (s = [] ∧ Ext.triesAtEnd = false) ∨ max = some count then ([], s)
    else
      match m e s with
      | none => ([], s)
      | some (n, r) =>
        if min ≤ count + 1 ∧ n.text = [] then ([n], r)
        else
          let (ns, r') := runMany m e min max rounds (count + 1) r
          (n :: ns, r')

/-- The part of `s` in front of `r`. -/
def before (s r : List Char) : List Char := s.take (s.length - r.length)

/-- `Expression.match_core`.  The first argument bounds the depth of the calls.  /repo/eth_abi/grammar.py:14-38. -/
def run [Ext] : Nat → Matcher
  | 0, _, _ => none
  | _ + 1, .lit l, s => if l <+: s then some (.mk none .other l [], s.drop l.length) else none
  | _ + 1, .regex rx, s => (rxMatch rx s).map fun (m, r) => (.mk none .other m [], r)
  | fuel + 1, .seq es, s => (runSeq (run fuel) es s).map fun (ns, r) => (.mk none .other (before s r) ns, r)
  | fuel + 1, .oneOf es, s => (runOneOf (run fuel) es s).map fun (n, r) => (.mk none .oneOf n.text [n], r)
  | fuel + 1, .quant e min max, s =>
    let (ns, r) := runMany (run fuel) e min max (s.length + 1) 0 s
    if min ≤ ns.length then
      some (.mk none (if min = 0 ∧ max = some 1 then .optional else .other) (before s r) ns, r)
    else none
  | fuel + 1, .ref r, s =>
    match grammar r with
    | .ref r' => run fuel (.ref r') s
    | e => (run fuel e s).map fun (n, rest) => (n.named r, rest)

/-- What the methods of the visitor return: a text, an integer, a tuple, `None`, or an `ABIType`.
/repo/eth_abi/grammar.py:51-108. -/
inductive Res where
  | text (s : List Char)
  | int (n : Nat)
  | tuple (rs : List Res)
  | none
  | type (t : ABIType)

/-- The types in a tuple. -/
def Res.types? : List Res → Option (List ABIType)
  | [] => some []
  | .type t :: rs => (Res.types? rs).map (t :: ·)
  | _ => Option.none

/-- The array dimensions in a tuple: `(n,)` and `()`. -/
def Res.dims? : List Res → Option (List (Option Nat))
  | [] => some []
  | .tuple [.int n] :: rs => (Res.dims? rs).map (some n :: ·)
  | .tuple [] :: rs => (Res.dims? rs).map (Option.none :: ·)
  | _ => Option.none

/-- An `arrlist`: `None` or a tuple of dimensions.  `ABIType` has the empty list for `None`; an empty tuple would be another
thing (`is_array` would be true), so it is no `arrlist` here. -/
def Res.arr? : Res → Option (List (Option Nat))
  | .none => some []
  | .tuple (r :: rs) => Res.dims? (r :: rs)
  | _ => Option.none

/-- A `sub`: `None`, an integer, or a pair. -/
def Res.sub? : Res → Option Sub
  | .none => some .none
  | .int n => some (.one n)
  | .tuple [.int m, .int n] => some (.two m n)
  | _ => Option.none

/-- `BasicType(base, sub, arrlist)` and `TupleType(components, arrlist)`: /repo/eth_abi/grammar.py:223-236,274-292.  The
constructors take anything; simplification: a `TypeError` here for what is no part of a type (C94 shows that it is never
raised). -/
def Res.basic (base sub arr : Res) : PyM Res :=
  match base, sub.sub?, arr.arr? with
  | .text b, some s, some a => .ok (.type (.basic b s a))
  | _, _, _ => .error .typeError

@[inherit_doc Res.basic] def Res.tupleType (components arr : Res) : PyM Res :=
  match components, arr.arr? with
  | .tuple rs, some a =>
    match Res.types? rs with
    | some ts => .ok (.type (.tuple ts a))
    | Option.none => .error .typeError
  | _, _ => .error .typeError

/-- `generic_visit`: /repo/eth_abi/grammar.py:95-108. -/
def genericVisit (kind : Kind) (visited : List Res) : PyM Res :=
  match kind, visited with
  | .oneOf, r :: _ => .ok r
  | .oneOf, [] => .error .visitationError
  | .optional, r :: _ => .ok r
  | .optional, [] => .ok .none
  | .other, rs => .ok (.tuple rs)

/-- The method of the visitor for a node, with what it returned for the children: /repo/eth_abi/grammar.py:51-108.  An
exception in it is a `VisitationError`: if a tuple cannot be unpacked, and in `int`. -/
def visitMethod [Ext] (name : Option Rule) (kind : Kind) (text : List Char) (visited : List Res) : PyM Res :=
  match name with
  | some .non_zero_tuple =>
    match visited with
    | [_, first, .tuple rest, _] => .ok (.tuple (first :: rest))
    | _ => .error .visitationError
  | some .tuple_type =>
    match visited with
    | [components, arr] => Res.tupleType components arr
    | _ => .error .visitationError
  | some .next_type =>
    match visited with
    | [_, t] => .ok t
    | _ => .error .visitationError
  | some .basic_type =>
    match visited with
    | [base, sub, arr] => Res.basic base sub arr
    | _ => .error .visitationError
  | some .two_size =>
    match visited with
    | [first, _, second] => .ok (.tuple [first, second])
    | _ => .error .visitationError
  | some .const_arr =>
    match visited with
    | [_, n, _] => .ok (.tuple [n])
    | _ => .error .visitationError
  | some .dynam_arr => .ok (.tuple [])
  | some .alphas => .ok (.text text)
  | some .digits => if numOk (natOfDigits text) then .ok (.int (natOfDigits text)) else .error .visitationError
  | _ => genericVisit kind visited

mutual
/-- `NodeVisitor.visit`: first the children, then the node.  Used in /repo/eth_abi/grammar.py:51-123. -/
def visit [Ext] : Node → PyM Res
  | .mk name kind text children => do
    let visited ← visitAll children
    visitMethod name kind text visited
/-- `[self.visit(n) for n in node]`. -/
def visitAll [Ext] : List Node → PyM (List Res)
  | [] => .ok []
  | n :: ns => do
    let r ← visit n
    let rs ← visitAll ns
    return r :: rs
end

/-- A bound on the depth of the calls that is large enough for `s` (`C94_fuel`). -/
def depth (s : List Char) : Nat := 12 * s.length + 24

/-- `NodeVisitor._parse_uncached`: /repo/eth_abi/grammar.py:110-132.  `Grammar.parse` needs all of the string. -/
def parse [Ext] (fuel : Nat) (s : TypeStr) : PyM Res :=
  match run fuel (.ref .type) s with
  | some (n, []) => visit n
  | _ => if hasEmptyParens s then .error .valueError else .error .parseError

end Peg
end EthAbi
