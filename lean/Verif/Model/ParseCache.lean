import Verif.Model.Grammar

/-!
# The cache of `grammar.parse`

`parse` is `functools.cache` of the parser, for the whole process.  What it returns are objects whose attributes can be
assigned.  Here the objects are on a heap and an object is known by its number there.  Simplification: an entry of the cache is found by the characters of the
string; the attribute `node` is left out; the type of an attribute is not checked by the library, but here an
assignment leaves an object with attributes of the documented types.
-/
namespace EthAbi

/-- The attributes of a `BasicType` or `TupleType` object; `components` is a tuple of objects.
/repo/eth_abi/grammar.py:138-150,229-236,281-292. -/
inductive TypeObj where
  | basic (base : List Char) (sub : Sub) (arr : List (Option Nat))
  | tuple (comps : List Nat) (arr : List (Option Nat))

/-- The objects, and the table of `functools.cache`.  /repo/eth_abi/grammar.py:47-48. -/
structure ParseState where
  heap : List TypeObj
  cache : List (TypeStr × Nat)

mutual
/-- The objects that the visitor makes for a type, the components of a tuple before the tuple.
/repo/eth_abi/grammar.py:52-61,69-72. -/
def buildType : ABIType → List TypeObj → Nat × List TypeObj
  | .basic base sub arr, h => (h.length, h ++ [.basic base sub arr])
  | .tuple comps arr, h =>
    let (rs, h) := buildTypes comps h
    (h.length, h ++ [.tuple rs arr])
/-- The objects for the components, in order.  /repo/eth_abi/grammar.py:52-56. -/
def buildTypes : List ABIType → List TypeObj → List Nat × List TypeObj
  | [], h => ([], h)
  | c :: cs, h =>
    let (r, h) := buildType c h
    let (rs, h) := buildTypes cs h
    (r :: rs, h)
end

/-- `parse(type_str)` with its cache; an exception is not cached.  /repo/eth_abi/grammar.py:47-48,110-132,427. -/
def ParseState.parse [Ext] (p : ParseState) (s : TypeStr) : PyM Nat × ParseState :=
  match p.cache.lookup s with
  | some r => (.ok r, p)
  | none =>
    match EthAbi.parse s with
    | .ok t =>
      let (r, h) := buildType t p.heap
      (.ok r, ⟨h, (s, r) :: p.cache⟩)
    | .error e => (.error e, p)

/-- What a program can do with the parser and with the objects that it gives: parse; assign to attributes of an object;
make a new object, as `BasicType(…)`, `TupleType(…)` and the property `item_type` do.
/repo/eth_abi/grammar.py:138-150,229-236,248-259,281-292,311-323,427. -/
inductive TypeOp where
  | parse (s : TypeStr)
  | assign (r : Nat) (o : TypeObj)
  | make (o : TypeObj)

/-- One step.  /repo/eth_abi/grammar.py:138-150,427. -/
def ParseState.step [Ext] (p : ParseState) : TypeOp → ParseState
  | .parse s => (p.parse s).2
  | .assign r o => { p with heap := p.heap.set r o }
  | .make o => { p with heap := p.heap ++ [o] }

/-- A history.  /repo/eth_abi/grammar.py:138-150,427. -/
def ParseState.run [Ext] (p : ParseState) (ops : List TypeOp) : ParseState := ops.foldl ParseState.step p

end EthAbi
