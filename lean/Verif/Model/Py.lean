/-!
# Python runtime layer: values, exceptions, byte strings

Nothing in this file models a file of /repo.  It fixes how the Python objects that /repo
manipulates are represented, so that the modules beside it can mirror the code branch by branch.

Conventions
* An exception is a value of `Exc`; a Python call that may raise is a `PyM α := Except Exc α`.
* `bytes` is `List UInt8`; a Python `str` is a list of code points *including lone surrogates*.
* A type string is a `List Char` (`TypeStr`).  Simplification: a `str` with a lone surrogate is not
  a `List Char`; such a `str` never matches the grammar, so it behaves as any unparsable string.
-/
namespace EthAbi

/-- Python `bytes` (and the contents of a `bytearray`).  No code of its own (Python). -/
abbrev Bytes := List UInt8

/-- A Python code point: every integer below 0x110000, surrogates included.  No code of its own (Python). -/
abbrev CodePoint := Fin 0x110000

/-- Python `str`.  No code of its own (Python). -/
abbrev PyStr := List CodePoint

/-- A type string such as `uint256[]`.  The argument of /repo/eth_abi/codec.py:55,78,130. -/
abbrev TypeStr := List Char

/-- `t!"abc"` is the list of characters `['a','b','c']` (so that it reduces in the kernel). -/
macro:max "t!" s:str : term => do
  let cs := s.getString.toList.map (fun c => Lean.Syntax.mkCharLit c)
  let cs := cs.toArray
  `(([$cs,*] : List Char))

/-- The exceptions the code can raise, by class.  Messages are not modelled.

/repo/eth_abi/exceptions.py:4-115 and the Python built-ins the code raises or lets escape. -/
inductive Exc where
  /-- exceptions.py:4 (raised only by user-registered coders) -/
  | encodingError
  /-- exceptions.py:10 -/
  | encodingTypeError
  /-- exceptions.py:17 -/
  | illegalValue
  /-- exceptions.py:29 -/
  | valueOutOfBounds
  /-- exceptions.py:42 (raised only by user-registered coders) -/
  | decodingError
  /-- exceptions.py:48 -/
  | insufficientDataBytes
  /-- exceptions.py:54 -/
  | nonEmptyPaddingBytes
  /-- exceptions.py:60 -/
  | invalidPointer
  /-- exceptions.py:66 -/
  | parseError
  /-- `parsimonious.VisitationError`: neither a `ParseError` nor a `ValueError`. -/
  | visitationError
  /-- exceptions.py:78 -/
  | abiTypeError
  /-- exceptions.py:92 -/
  | noEntriesFound
  /-- exceptions.py:104 -/
  | multipleEntriesFound
  | valueError
  | typeError
  | keyError
  | indexError
  | attributeError
  | overflowError
  | unicodeEncodeError
  | unicodeDecodeError
  | decimalInvalidOperation
  | decimalOverflow
  /-- Python's recursion limit; the model's fuel running out. -/
  | recursionError
  /-- `RuntimeError`: a dict was changed during an iteration over it. -/
  | runtimeError
  deriving DecidableEq, Repr

/-- `isinstance(e, EncodingError)`: exceptions.py:4,10,17,29. -/
def Exc.isEncodingError : Exc → Bool
  | .encodingError | .encodingTypeError | .illegalValue | .valueOutOfBounds => true
  | _ => false

/-- `isinstance(e, DecodingError)`: exceptions.py:42,48,54,60. -/
def Exc.isDecodingError : Exc → Bool
  | .decodingError | .insufficientDataBytes | .nonEmptyPaddingBytes | .invalidPointer => true
  | _ => false

/-- `isinstance(e, ValueError)`: exceptions.py:78,92,104; `UnicodeError` is a `ValueError`. -/
def Exc.isValueError : Exc → Bool
  | .abiTypeError | .noEntriesFound | .multipleEntriesFound | .valueError
  | .unicodeEncodeError | .unicodeDecodeError => true
  | _ => false

/-- The result of a Python call: a value or an exception.  No code of its own (Python). -/
abbrev PyM (α : Type _) := Except Exc α

/-- A `decimal.Decimal`.  `fin m e` is `m · 10^e`.  Simplification: the sign of zero is not kept
(`Decimal('-0') >= 0` is true, and the code never looks at the sign otherwise).  No code of its own (Python). -/
inductive PyDec where
  | fin (m e : Int)
  | nan
  | inf (neg : Bool)
  deriving DecidableEq, Repr

/-- The Python values that can be passed to the encoder or come out of the decoder.
`fraction n d` is `fractions.Fraction(n, d)` in lowest terms; `seq` is any other `collections.abc.Sequence` (`deque`,
`range`, `memoryview`, `UserList`) with its items; `other` stands for every object that is neither a number, a string, a
bytes object nor a `Sequence`.  Simplification: a `float` and a `complex` carry no payload because no encoder accepts one;
numbers and strings of user-defined classes are not represented.  No code of its own (Python). -/
inductive PyVal where
  | none
  | bool (b : Bool)
  | int (i : Int)
  | float
  | dec (d : PyDec)
  | str (s : PyStr)
  | bytes (b : Bytes)
  | bytearray (b : Bytes)
  | list (xs : List PyVal)
  | tuple (xs : List PyVal)
  | seq (xs : List PyVal)
  | complex
  | fraction (n : Int) (d : Nat)
  | other
  deriving Repr

mutual
/-- Structural equality test on values (used only to evaluate closed examples).  No code of its own (Python). -/
def PyVal.eqb : PyVal → PyVal → Bool
  | .none, .none => true
  | .bool a, .bool b => a == b
  | .int a, .int b => a == b
  | .float, .float => true
  | .dec a, .dec b => a == b
  | .str a, .str b => a == b
  | .bytes a, .bytes b => a == b
  | .bytearray a, .bytearray b => a == b
  | .list a, .list b => PyVal.eqbList a b
  | .tuple a, .tuple b => PyVal.eqbList a b
  | .seq a, .seq b => PyVal.eqbList a b
  | .complex, .complex => true
  | .fraction a b, .fraction c d => a == c && b == d
  | .other, .other => true
  | _, _ => false
/-- Structural equality test on lists of values.  No code of its own (Python). -/
def PyVal.eqbList : List PyVal → List PyVal → Bool
  | [], [] => true
  | a :: as, b :: bs => PyVal.eqb a b && PyVal.eqbList as bs
  | _, _ => false
end

mutual
theorem PyVal.eqb_iff : ∀ a b : PyVal, PyVal.eqb a b = true ↔ a = b
  | .none, b => by cases b <;> simp [PyVal.eqb]
  | .bool _, b => by cases b <;> simp [PyVal.eqb]
  | .int _, b => by cases b <;> simp [PyVal.eqb]
  | .float, b => by cases b <;> simp [PyVal.eqb]
  | .dec _, b => by cases b <;> simp [PyVal.eqb]
  | .str _, b => by cases b <;> simp [PyVal.eqb]
  | .bytes _, b => by cases b <;> simp [PyVal.eqb]
  | .bytearray _, b => by cases b <;> simp [PyVal.eqb]
  | .list xs, b => by cases b <;> simp [PyVal.eqb, PyVal.eqbList_iff xs]
  | .tuple xs, b => by cases b <;> simp [PyVal.eqb, PyVal.eqbList_iff xs]
  | .seq xs, b => by cases b <;> simp [PyVal.eqb, PyVal.eqbList_iff xs]
  | .complex, b => by cases b <;> simp [PyVal.eqb]
  | .fraction _ _, b => by cases b <;> simp [PyVal.eqb]
  | .other, b => by cases b <;> simp [PyVal.eqb]
theorem PyVal.eqbList_iff : ∀ a b : List PyVal, PyVal.eqbList a b = true ↔ a = b
  | [], b => by cases b <;> simp [PyVal.eqbList]
  | x :: xs, b => by cases b <;> simp [PyVal.eqbList, PyVal.eqb_iff x, PyVal.eqbList_iff xs]
end

instance : DecidableEq PyVal := fun a b => decidable_of_iff _ (PyVal.eqb_iff a b)

/-- Code points of an ASCII literal.  No code of its own (Python). -/
def ofChars (cs : List Char) : PyStr :=
  cs.map fun c => ⟨c.toNat % 0x110000, Nat.mod_lt _ (by decide)⟩

/-- `sys.maxsize`: the largest `Py_ssize_t`, hence the largest length of a `bytes` object.  No code of its own
(Python). -/
def ssizeMax : Nat := 2 ^ 63 - 1

end EthAbi
