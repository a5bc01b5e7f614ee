import Verif.Model.EthUtils

/-!
# `eth_abi/grammar.py`

The PEG is parsed by recursive descent over the characters, one function per rule, with fuel for
termination (the caller gives enough fuel; proved in `Lemmas/Grammar.lean`).  Simplification: the
`node` attribute (used only in messages; see `Model/Located.lean`) and the cache on `parse` (`Model/ParseCache.lean`) are left out.
-/
namespace EthAbi

/-! ## Decimal numerals -/

/-- `str(n)`, least significant digit last (with fuel).  Used in /repo/eth_abi/grammar.py:242,298-305. -/
def natDigitsAux : Nat → Nat → List Char → List Char
  | 0, _, acc => acc
  | fuel + 1, n, acc =>
    let acc := Char.ofNat (48 + n % 10) :: acc
    if n < 10 then acc else natDigitsAux fuel (n / 10) acc

/-- `str(n)` for a non-negative integer.  Used in /repo/eth_abi/grammar.py:242,298-305. -/
def natDigits (n : Nat) : List Char := natDigitsAux (n + 1) n []

/-- `int(s)` for a string of digits.  Used in /repo/eth_abi/grammar.py:92-93. -/
def natOfDigits (s : List Char) : Nat := s.foldl (fun acc c => acc * 10 + (c.toNat - 48)) 0

/-- `[0-9]`.  /repo/eth_abi/grammar.py:36. -/
def isDig (c : Char) : Bool := decide (48 ≤ c.toNat ∧ c.toNat ≤ 57)

/-- `[1-9]`.  /repo/eth_abi/grammar.py:36. -/
def isDig19 (c : Char) : Bool := decide (49 ≤ c.toNat ∧ c.toNat ≤ 57)

/-- `[A-Za-z]`.  /repo/eth_abi/grammar.py:35. -/
def isAlph (c : Char) : Bool :=
  decide ((65 ≤ c.toNat ∧ c.toNat ≤ 90) ∨ (97 ≤ c.toNat ∧ c.toNat ≤ 122))

/-! ## Parsed types -/

/-- The sub part of a basic type: /repo/eth_abi/grammar.py:287-292 (`None`, an int, a pair). -/
inductive Sub where
  | none
  | one (n : Nat)
  | two (m n : Nat)
  deriving DecidableEq, Repr

/-- `ABIType`, `BasicType`, `TupleType`: /repo/eth_abi/grammar.py:138-396.
An array dimension `[n]` is `some n`, `[]` is `none`.  `arrlist = None` is the empty list here: the
grammar's `arrlist` rule is `(...)+`, so a parsed `arrlist` is `None` or non-empty, and
`item_type` restores `None` when it becomes empty (lines 257, 321). -/
inductive ABIType where
  | basic (base : List Char) (sub : Sub) (arr : List (Option Nat))
  | tuple (comps : List ABIType) (arr : List (Option Nat))
  deriving Repr

namespace ABIType

/-- `arrlist`: /repo/eth_abi/grammar.py:146. -/
def arrlist : ABIType → List (Option Nat)
  | .basic _ _ a => a
  | .tuple _ a => a

/-- `is_array`: /repo/eth_abi/grammar.py:201-207. -/
def isArray (t : ABIType) : Bool := !t.arrlist.isEmpty

/-- `_has_dynamic_arrlist`: /repo/eth_abi/grammar.py:217-219. -/
def hasDynamicArrlist (t : ABIType) : Bool := t.isArray && t.arrlist.any (·.isNone)

end ABIType

/-- `repr(list(a))` for one dimension: /repo/eth_abi/grammar.py:242,305. -/
def dimStr : Option Nat → List Char
  | .none => t!"[]"
  | .some n => t!"[" ++ natDigits n ++ t!"]"

/-- The array suffix of `to_type_str`: /repo/eth_abi/grammar.py:241-244,304-307. -/
def arrStr (a : List (Option Nat)) : List Char := a.flatMap dimStr

/-- The sub part of `to_type_str`: /repo/eth_abi/grammar.py:297-302. -/
def Sub.str : Sub → List Char
  | .none => []
  | .one n => natDigits n
  | .two m n => natDigits m ++ t!"x" ++ natDigits n

/-- `','.join(...)`.  /repo/eth_abi/grammar.py:246. -/
def joinComma : List (List Char) → List Char
  | [] => []
  | [s] => s
  | s :: ss => s ++ t!"," ++ joinComma ss

mutual
/-- `to_type_str`: /repo/eth_abi/grammar.py:238-246 (tuples), 294-309 (basic types). -/
def ABIType.toTypeStr : ABIType → TypeStr
  | .basic base sub arr => base ++ sub.str ++ arrStr arr
  | .tuple comps arr => t!"(" ++ joinComma (ABIType.toTypeStrs comps) ++ t!")" ++ arrStr arr
/-- `to_type_str` of every component.  /repo/eth_abi/grammar.py:246. -/
def ABIType.toTypeStrs : List ABIType → List TypeStr
  | [] => []
  | c :: cs => c.toTypeStr :: ABIType.toTypeStrs cs
end

/-- `__eq__`: /repo/eth_abi/grammar.py:161-163. -/
def ABIType.pyEq : ABIType → ABIType → Bool
  | a@(.basic ..), b@(.basic ..) => a.toTypeStr == b.toTypeStr
  | a@(.tuple ..), b@(.tuple ..) => a.toTypeStr == b.toTypeStr
  | _, _ => false

/-- `item_type`: /repo/eth_abi/grammar.py:248-259,311-323. -/
def ABIType.itemType : ABIType → PyM ABIType
  | .basic _ _ [] => .error .valueError
  | .basic base sub arr => .ok (.basic base sub arr.dropLast)
  | .tuple _ [] => .error .valueError
  | .tuple comps arr => .ok (.tuple comps arr.dropLast)

mutual
/-- `is_dynamic`: /repo/eth_abi/grammar.py:265-270 (tuples), 325-336 (basic types). -/
def ABIType.isDynamic : ABIType → Bool
  | .basic base sub arr =>
    if (ABIType.basic base sub arr).hasDynamicArrlist then true
    else if base = t!"string" then true
    else if base = t!"bytes" ∧ sub = .none then true
    else false
  | .tuple comps arr =>
    if (ABIType.tuple comps arr).hasDynamicArrlist then true
    else ABIType.anyDynamic comps
/-- `any(c.is_dynamic for c in self.components)`.  /repo/eth_abi/grammar.py:270. -/
def ABIType.anyDynamic : List ABIType → Bool
  | [] => false
  | c :: cs => c.isDynamic || ABIType.anyDynamic cs
end

/-- `BasicType.validate`: /repo/eth_abi/grammar.py:338-396.  Every failure is an `ABITypeError`. -/
def validateBasic (base : List Char) (sub : Sub) : PyM Unit :=
  if base = t!"string" then
    match sub with
    | .none => .ok ()
    | _ => .error .abiTypeError
  else if base = t!"bytes" then
    match sub with
    | .none => .ok ()
    | .one n => if 32 < n then .error .abiTypeError else .ok ()
    | .two _ _ => .error .abiTypeError
  else if base = t!"int" ∨ base = t!"uint" then
    match sub with
    | .one n =>
      if n < 8 ∨ 256 < n then .error .abiTypeError
      else if n % 8 ≠ 0 then .error .abiTypeError
      else .ok ()
    | _ => .error .abiTypeError
  else if base = t!"fixed" ∨ base = t!"ufixed" then
    match sub with
    | .two bits minusE =>
      if bits < 8 ∨ 256 < bits then .error .abiTypeError
      else if bits % 8 ≠ 0 then .error .abiTypeError
      else if minusE < 1 ∨ 80 < minusE then .error .abiTypeError
      else .ok ()
    | _ => .error .abiTypeError
  else if base = t!"hash" then
    match sub with
    | .one _ => .ok ()
    | _ => .error .abiTypeError
  else if base = t!"address" then
    match sub with
    | .none => .ok ()
    | _ => .error .abiTypeError
  else .ok ()

mutual
/-- `validate`: /repo/eth_abi/grammar.py:261-263 (tuples), 338-396 (basic types). -/
def ABIType.validate : ABIType → PyM Unit
  | .basic base sub _ => validateBasic base sub
  | .tuple comps _ => ABIType.validateAll comps
/-- `for c in self.components: c.validate()`.  /repo/eth_abi/grammar.py:262-263. -/
def ABIType.validateAll : List ABIType → PyM Unit
  | [] => .ok ()
  | c :: cs => do
    c.validate
    ABIType.validateAll cs
end

/-! ## The parser: /repo/eth_abi/grammar.py:14-38

A rule is a function from the input to `some (tree, rest)` or `none`. -/

/-- `digits = ~"[1-9][0-9]*"`: line 36, with `visit_digits` (92-93).  /repo/eth_abi/grammar.py:36,92-93. -/
def pDigits : List Char → Option (Nat × List Char)
  | c :: cs =>
    if isDig19 c then some (natOfDigits (c :: cs.takeWhile isDig), cs.dropWhile isDig) else none
  | [] => none

/-- `alphas = ~"[A-Za-z]+"`: line 35, with `visit_alphas` (89-90).  /repo/eth_abi/grammar.py:35,89-90. -/
def pAlphas (s : List Char) : Option (List Char × List Char) :=
  if s.takeWhile isAlph = [] then none else some (s.takeWhile isAlph, s.dropWhile isAlph)

/-- `two_size = (digits "x" digits)`: line 29, with `visit_two_size` (74-78).  /repo/eth_abi/grammar.py:29,74-78. -/
def pTwoSize (s : List Char) : Option (Sub × List Char) :=
  match pDigits s with
  | some (m, 'x' :: r) =>
    match pDigits r with
    | some (n, r) => some (.two m n, r)
    | none => none
  | _ => none

/-- `sub?` where `sub = two_size / digits`: lines 24 and 28.  /repo/eth_abi/grammar.py:24,28. -/
def pSub (s : List Char) : Sub × List Char :=
  match pTwoSize s with
  | some r => r
  | none =>
    match pDigits s with
    | some (n, r) => (.one n, r)
    | none => (.none, s)

/-- `const_arr = "[" digits "]"` or `dynam_arr = "[]"`: lines 32-33 (`visit_*` 80-87).
/repo/eth_abi/grammar.py:32-33,80-87. -/
def pDim : List Char → Option (Option Nat × List Char)
  | '[' :: r =>
    match pDigits r with
    | some (n, ']' :: r') => some (some n, r')
    | _ =>
      match r with
      | ']' :: r' => some (none, r')
      | _ => none
  | _ => none

/-- `arrlist?` where `arrlist = (const_arr / dynam_arr)+`: lines 18, 24, 31.  /repo/eth_abi/grammar.py:18,24,31. -/
def pArr : Nat → List Char → List (Option Nat) × List Char
  | 0, s => ([], s)
  | fuel + 1, s =>
    match pDim s with
    | some (d, r) =>
      let (ds, r') := pArr fuel r
      (d :: ds, r')
    | none => ([], s)

/-- `basic_type = base sub? arrlist?`: line 24 (`visit_basic_type` 69-72).  /repo/eth_abi/grammar.py:24,69-72. -/
def pBasic (fuel : Nat) (s : List Char) : Option (ABIType × List Char) :=
  match pAlphas s with
  | some (base, r) =>
    let (sub, r) := pSub r
    let (arr, r) := pArr fuel r
    some (.basic base sub arr, r)
  | none => none

mutual
/-- `type = tuple_type / basic_type` and `tuple_type = components arrlist?`,
`non_zero_tuple = "(" type next_type* ")"`: lines 16-21 (`visit_*` 52-61).  /repo/eth_abi/grammar.py:16-21,52-61. -/
def pType : Nat → List Char → Option (ABIType × List Char)
  | 0, _ => none
  | fuel + 1, s =>
    match s with
    | '(' :: r =>
      match pType fuel r with
      | some (t, r) =>
        match pNexts fuel r with
        | (ts, ')' :: r) =>
          let (arr, r) := pArr fuel r
          some (.tuple (t :: ts) arr, r)
        | _ => pBasic fuel s
      | none => pBasic fuel s
    | s => pBasic fuel s
/-- `next_type*` where `next_type = "," type`: line 22 (`visit_next_type` 63-67).
/repo/eth_abi/grammar.py:22,63-67. -/
def pNexts : Nat → List Char → List ABIType × List Char
  | 0, s => ([], s)
  | fuel + 1, s =>
    match s with
    | ',' :: r =>
      match pType fuel r with
      | some (t, r) =>
        let (ts, r) := pNexts fuel r
        (t :: ts, r)
      | none => ([], s)
    | s => ([], s)
end

/-- `int(text)` succeeds: /repo/eth_abi/grammar.py:93 under Python's limit on the number of digits. -/
def numOk [Ext] (n : Nat) : Bool :=
  match Ext.maxStrDigits with
  | some k => decide ((natDigits n).length ≤ k)
  | none => true

/-- All numerals of a sub part are converted by `int`.  /repo/eth_abi/grammar.py:92-93. -/
def Sub.numsOk [Ext] : Sub → Bool
  | .none => true
  | .one n => numOk n
  | .two m n => numOk m && numOk n

/-- All numerals of an array suffix are converted by `int`.  /repo/eth_abi/grammar.py:92-93. -/
def arrNumsOk [Ext] (a : List (Option Nat)) : Bool :=
  a.all fun d => match d with
    | some n => numOk n
    | none => true

mutual
/-- The visitor succeeds on the parse tree: every numeral is converted by `int`.  /repo/eth_abi/grammar.py:92-93. -/
def ABIType.numsOk [Ext] : ABIType → Bool
  | .basic _ sub arr => sub.numsOk && arrNumsOk arr
  | .tuple comps arr => ABIType.allNumsOk comps && arrNumsOk arr
/-- The visitor succeeds on every component.  /repo/eth_abi/grammar.py:92-93. -/
def ABIType.allNumsOk [Ext] : List ABIType → Bool
  | [] => true
  | c :: cs => c.numsOk && ABIType.allNumsOk cs
end

/-- `"()" in s`.  Used in /repo/eth_abi/grammar.py:128. -/
def hasEmptyParens : List Char → Bool
  | '(' :: ')' :: _ => true
  | _ :: cs => hasEmptyParens cs
  | [] => false

/-- `parse`: /repo/eth_abi/grammar.py:110-132,427.  The visitor runs only when the whole string
matches; an exception in it (a numeral too long for `int`) comes out as `VisitationError`.
Simplification: `type_str` is a string (`TypeError` otherwise, line 121). -/
def parse [Ext] (s : TypeStr) : PyM ABIType :=
  match pType (s.length + 1) s with
  | some (t, []) => if t.numsOk then .ok t else .error .visitationError
  | _ => if hasEmptyParens s then .error .valueError else .error .parseError

/-! ## Aliases -/

/-- `TYPE_ALIASES`: /repo/eth_abi/grammar.py:399-406. -/
def typeAliases : List (List Char × List Char) :=
  [ (t!"int", t!"int256"),
    (t!"uint", t!"uint256"),
    (t!"fixed", t!"fixed128x18"),
    (t!"ufixed", t!"ufixed128x18"),
    (t!"function", t!"bytes24"),
    (t!"byte", t!"bytes1") ]

/-- `\w` in a `str` regex.  /repo/eth_abi/grammar.py:408-424. -/
def isWord [Ext] (c : Char) : Bool :=
  isAlph c || isDig c || c == '_' || (decide (128 ≤ c.toNat) && Ext.uniWord c)

/-- A whole word: its replacement if it is an alias, itself otherwise.  /repo/eth_abi/grammar.py:408-424. -/
def substWord (w : List Char) : List Char :=
  match typeAliases.lookup w with
  | some r => r
  | none => w

/-- The scan behind `TYPE_ALIAS_RE.sub`: `run` is the current run of word characters, reversed.
`\b(a1|...|ak)\b` with every alias made of word characters matches exactly the maximal runs of word
characters that are an alias.  /repo/eth_abi/grammar.py:408-424. -/
def normAux [Ext] : List Char → List Char → List Char
  | run, [] => substWord run.reverse
  | run, c :: cs =>
    if isWord c then normAux (c :: run) cs
    else substWord run.reverse ++ c :: normAux [] cs

/-- `normalize`: /repo/eth_abi/grammar.py:408-424. -/
def normalize [Ext] (s : TypeStr) : TypeStr := normAux [] s

end EthAbi
