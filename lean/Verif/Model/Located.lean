import Verif.Model.Grammar

/-!
# The nodes of parsed types and the messages of `validate`

`Model/Grammar.lean` leaves out the attribute `node` of a parsed type.  Here the parser is repeated with it, and
`validate` with the text of its `ABITypeError`.  A type that a user makes by calling `BasicType` or `TupleType` has no
node.
-/
namespace EthAbi

/-- What the library uses of a `parsimonious` node: `start`, `text` and `full_text`.
/repo/eth_abi/grammar.py:192-199. -/
structure Node where
  start : Nat
  text : List Char
  fullText : List Char
  deriving DecidableEq, Repr

/-- `BasicType` and `TupleType` with the attribute `node` (`none` is `None`): /repo/eth_abi/grammar.py:138-157,229-236,280-292. -/
inductive NType where
  | basic (base : List Char) (sub : Sub) (arr : List (Option Nat)) (node : Option Node)
  | tuple (comps : List NType) (arr : List (Option Nat)) (node : Option Node)

/-- The node for the part of `full` that begins with `s` and ends before `rest`.  /repo/eth_abi/grammar.py:58-61,69-72. -/
def nodeOf (full s rest : List Char) : Option Node :=
  some ⟨full.length - s.length, s.take (s.length - rest.length), full⟩

/-- `basic_type = base sub? arrlist?` with `visit_basic_type`: /repo/eth_abi/grammar.py:24,69-72. -/
def nBasic (full : List Char) (fuel : Nat) (s : List Char) : Option (NType × List Char) :=
  match pAlphas s with
  | some (base, r) =>
    let (sub, r) := pSub r
    let (arr, r) := pArr fuel r
    some (.basic base sub arr (nodeOf full s r), r)
  | none => none

mutual
/-- `type = tuple_type / basic_type`, `tuple_type = components arrlist?`,
`non_zero_tuple = "(" type next_type* ")"` with `visit_tuple_type`: /repo/eth_abi/grammar.py:16-21,52-61. -/
def nType (full : List Char) : Nat → List Char → Option (NType × List Char)
  | 0, _ => none
  | fuel + 1, s =>
    match s with
    | '(' :: r =>
      match nType full fuel r with
      | some (t, r) =>
        match nNexts full fuel r with
        | (ts, ')' :: r) =>
          let (arr, r) := pArr fuel r
          some (.tuple (t :: ts) arr (nodeOf full s r), r)
        | _ => nBasic full fuel s
      | none => nBasic full fuel s
    | s => nBasic full fuel s
/-- `next_type*` where `next_type = "," type`: /repo/eth_abi/grammar.py:22,63-67. -/
def nNexts (full : List Char) : Nat → List Char → List NType × List Char
  | 0, s => ([], s)
  | fuel + 1, s =>
    match s with
    | ',' :: r =>
      match nType full fuel r with
      | some (t, r) =>
        let (ts, r) := nNexts full fuel r
        (t :: ts, r)
      | none => ([], s)
    | s => ([], s)
end

mutual
/-- The type without its nodes.  /repo/eth_abi/grammar.py:138-396. -/
def NType.erase : NType → ABIType
  | .basic base sub arr _ => .basic base sub arr
  | .tuple comps arr _ => .tuple (NType.eraseAll comps) arr
/-- The components without their nodes.  /repo/eth_abi/grammar.py:138-396. -/
def NType.eraseAll : List NType → List ABIType
  | [] => []
  | c :: cs => c.erase :: NType.eraseAll cs
end

/-- `parse`, with nodes: /repo/eth_abi/grammar.py:110-132,427.  As for `parse`, the string is a `str`. -/
def parseN [Ext] (s : TypeStr) : PyM NType :=
  match nType s (s.length + 1) s with
  | some (t, []) => if t.erase.numsOk then .ok t else .error .visitationError
  | _ => if hasEmptyParens s then .error .valueError else .error .parseError

/-- What `validate` raises: an `ABITypeError` with a text, or the `AttributeError` of `node.text` when `node` is
`None`.  /repo/eth_abi/grammar.py:188-199. -/
inductive Invalid where
  | abiTypeError (message : List Char)
  | attributeError
  deriving DecidableEq, Repr

/-- `invalidate(error_msg)`: /repo/eth_abi/grammar.py:188-199. -/
def invalidate (node : Option Node) (msg : List Char) : Except Invalid Unit :=
  match node with
  | some n => .error (.abiTypeError (t!"For '" ++ n.text ++ t!"' type at column " ++ natDigits (n.start + 1) ++
      t!" in '" ++ n.fullText ++ t!"': " ++ msg))
  | none => .error .attributeError

/-- `BasicType.validate` with its messages: /repo/eth_abi/grammar.py:338-396. -/
def validateBasicN (base : List Char) (sub : Sub) (node : Option Node) : Except Invalid Unit :=
  if base = t!"string" then
    match sub with
    | .none => .ok ()
    | _ => invalidate node t!"string type cannot have suffix"
  else if base = t!"bytes" then
    match sub with
    | .none => .ok ()
    | .one n => if 32 < n then invalidate node t!"maximum 32 bytes for fixed-length bytes" else .ok ()
    | .two _ _ => invalidate node t!"bytes type must have either no suffix or a numerical suffix"
  else if base = t!"int" ∨ base = t!"uint" then
    match sub with
    | .one n =>
      if n < 8 ∨ 256 < n then invalidate node t!"integer size out of bounds (max 256 bits)"
      else if n % 8 ≠ 0 then invalidate node t!"integer size must be multiple of 8"
      else .ok ()
    | _ => invalidate node t!"integer type must have numerical suffix"
  else if base = t!"fixed" ∨ base = t!"ufixed" then
    match sub with
    | .two bits minusE =>
      if bits < 8 ∨ 256 < bits then invalidate node t!"fixed size out of bounds (max 256 bits)"
      else if bits % 8 ≠ 0 then invalidate node t!"fixed size must be multiple of 8"
      else if minusE < 1 ∨ 80 < minusE then
        invalidate node (t!"fixed exponent size out of bounds, " ++ natDigits minusE ++ t!" must be in 1-80")
      else .ok ()
    | _ => invalidate node t!"fixed type must have suffix of form <bits>x<exponent>, e.g. 128x19"
  else if base = t!"hash" then
    match sub with
    | .one _ => .ok ()
    | _ => invalidate node t!"hash type must have numerical suffix"
  else if base = t!"address" then
    match sub with
    | .none => .ok ()
    | _ => invalidate node t!"address cannot have suffix"
  else .ok ()

mutual
/-- `validate`: /repo/eth_abi/grammar.py:261-263 (tuples), 338-396 (basic types). -/
def NType.validate : NType → Except Invalid Unit
  | .basic base sub _ node => validateBasicN base sub node
  | .tuple comps _ _ => NType.validateAll comps
/-- `for c in self.components: c.validate()`.  /repo/eth_abi/grammar.py:262-263. -/
def NType.validateAll : List NType → Except Invalid Unit
  | [] => .ok ()
  | c :: cs => do
    c.validate
    NType.validateAll cs
end

/-- `item_type`, which keeps the node of the array: /repo/eth_abi/grammar.py:248-259,311-323. -/
def NType.itemType : NType → PyM NType
  | .basic _ _ [] _ => .error .valueError
  | .basic base sub arr node => .ok (.basic base sub arr.dropLast node)
  | .tuple _ [] _ => .error .valueError
  | .tuple comps arr node => .ok (.tuple comps arr.dropLast node)

mutual
/-- `BasicType(base, sub, arrlist)` or `TupleType(components, arrlist)` called by a user: the type without a node.
/repo/eth_abi/grammar.py:229-231,280-281. -/
def ABIType.handMade : ABIType → NType
  | .basic base sub arr => .basic base sub arr none
  | .tuple comps arr => .tuple (ABIType.handMadeAll comps) arr none
/-- The components made by a user.  /repo/eth_abi/grammar.py:229-231,280-281. -/
def ABIType.handMadeAll : List ABIType → List NType
  | [] => []
  | c :: cs => c.handMade :: ABIType.handMadeAll cs
end

end EthAbi
