import Verif.Model.Registry
import Mathlib.Data.List.Forall2

/-!
# `eth_abi/tools/_strategies.py`

A hypothesis strategy is the set of things that drawing from it can give: a value, or an exception
raised while drawing.  The combinators of `hypothesis.strategies` are external code: their documented
behaviour is stated here and belongs to the trusted base (DESIGN.md).
-/
namespace EthAbi

/-- A hypothesis strategy: what a draw can give.  Used in /repo/eth_abi/tools/_strategies.py:1-237. -/
def Strategy : Type := PyM PyVal → Prop

namespace Strategy

/-- `st.integers(min_value, max_value)`.  Used in /repo/eth_abi/tools/_strategies.py:86-100. -/
def integers (lo hi : Int) : Strategy := fun o => ∃ i, lo ≤ i ∧ i ≤ hi ∧ o = .ok (.int i)

/-- `st.booleans()`.  Used in /repo/eth_abi/tools/_strategies.py:104. -/
def booleans : Strategy := fun o => ∃ b, o = .ok (.bool b)

/-- `st.binary(min_size, max_size)`.  Used in /repo/eth_abi/tools/_strategies.py:103,136-142. -/
def binary (lo hi : Nat) : Strategy := fun o => ∃ b : Bytes, lo ≤ b.length ∧ b.length ≤ hi ∧ o = .ok (.bytes b)

/-- `st.text()`: any text without surrogates.  Used in /repo/eth_abi/tools/_strategies.py:143. -/
def text : Strategy :=
  fun o => ∃ s : PyStr, (∀ c ∈ s, ¬ (0xD800 ≤ c.val ∧ c.val ≤ 0xDFFF)) ∧ o = .ok (.str s)

/-- `st.decimals(min_value, max_value, places=0)` with both bounds given: finite decimals with
exponent 0.  Used in /repo/eth_abi/tools/_strategies.py:112-128. -/
def decimals0 (lo hi : Int) : Strategy := fun o => ∃ i, lo ≤ i ∧ i ≤ hi ∧ o = .ok (.dec (.fin i 0))

/-- A strategy with arguments that hypothesis rejects (`InvalidArgument`, a `TypeError`) on the first
draw.  Used in /repo/eth_abi/tools/_strategies.py:86-128. -/
def invalid : Strategy := fun o => o = .error .typeError

/-- `strategy.map(f)`.  Used in /repo/eth_abi/tools/_strategies.py:103,116,128. -/
def map (f : PyVal → PyM PyVal) (S : Strategy) : Strategy := fun o => ∃ o', S o' ∧ o = (o' >>= f)

/-- Several draws in order; the first exception comes out.  Used in /repo/eth_abi/tools/_strategies.py:146-160. -/
def drawAll : List (PyM PyVal) → PyM (List PyVal)
  | [] => .ok []
  | o :: os => do
    let v ← o
    let vs ← drawAll os
    return v :: vs

/-- `st.lists(elements, min_size, max_size)`: a list of draws; an exception in one of them comes
out.  Used in /repo/eth_abi/tools/_strategies.py:146-160. -/
def lists (S : Strategy) (lo : Nat) (hi : Option Nat) : Strategy := fun o =>
  ∃ os : List (PyM PyVal), lo ≤ os.length ∧ (∀ n, hi = some n → os.length ≤ n) ∧ (∀ o' ∈ os, S o') ∧
    o = (drawAll os >>= fun vs => .ok (.list vs))

/-- `st.tuples(*strategies)`.  Used in /repo/eth_abi/tools/_strategies.py:163-171. -/
def tuples (Ss : List Strategy) : Strategy := fun o =>
  ∃ os : List (PyM PyVal), List.Forall₂ (fun S o' => S o') Ss os ∧
    o = (drawAll os >>= fun vs => .ok (.tuple vs))

end Strategy

/-! ## The factories -/

/-- `get_uint_strategy`: /repo/eth_abi/tools/_strategies.py:81-89.  `2**bits` raises `TypeError` for
a `bits` that is not a number. -/
def getUintStrategy (t : ABIType) : PyM Strategy :=
  match t.sub with
  | .one bits => .ok (.integers 0 (2 ^ bits - 1))
  | _ => .error .typeError

/-- `get_int_strategy`: /repo/eth_abi/tools/_strategies.py:92-100.  (`bits` is at least 1: the grammar
has no numeral for zero.) -/
def getIntStrategy (t : ABIType) : PyM Strategy :=
  match t.sub with
  | .one bits => .ok (.integers (-(2 ^ (bits - 1))) (2 ^ (bits - 1) - 1))
  | _ => .error .typeError

/-- `.map(to_checksum_address)` on bytes: /repo/eth_abi/tools/_strategies.py:103. -/
def checksumDraw [Ext] : PyVal → PyM PyVal
  | .bytes b => do
    let s ← toChecksumAddress b
    return .str s
  | _ => .error .typeError

/-- `address_strategy`: /repo/eth_abi/tools/_strategies.py:103. -/
def addressStrategy [Ext] : Strategy := (Strategy.binary 20 20).map checksumDraw

/-- `bool_strategy`: /repo/eth_abi/tools/_strategies.py:104. -/
def boolStrategy : Strategy := .booleans

/-- `.map(scale_places(places))` on decimals: /repo/eth_abi/tools/_strategies.py:116,128. -/
def scaleDraw (places : Nat) : PyVal → PyM PyVal
  | .dec (.fin m e) => do
    let x ← scalePlaces places (m, e)
    return .dec (.fin x.1 x.2)
  | _ => .error .typeError

/-- `get_ufixed_strategy`: /repo/eth_abi/tools/_strategies.py:107-116.  Unpacking a `sub` that is not
a pair raises `TypeError`. -/
def getUfixedStrategy (t : ABIType) : PyM Strategy :=
  match t.sub with
  | .two bits places => .ok ((Strategy.decimals0 0 (2 ^ bits - 1)).map (scaleDraw places))
  | _ => .error .typeError

/-- `get_fixed_strategy`: /repo/eth_abi/tools/_strategies.py:119-128. -/
def getFixedStrategy (t : ABIType) : PyM Strategy :=
  match t.sub with
  | .two bits places =>
    .ok ((Strategy.decimals0 (-(2 ^ (bits - 1))) (2 ^ (bits - 1) - 1)).map (scaleDraw places))
  | _ => .error .typeError

/-- `get_bytes_strategy`: /repo/eth_abi/tools/_strategies.py:131-139. -/
def getBytesStrategy (t : ABIType) : PyM Strategy :=
  match t.sub with
  | .one n => .ok (.binary n n)
  | _ => .ok .invalid

/-- `bytes_strategy`: /repo/eth_abi/tools/_strategies.py:142. -/
def bytesStrategy : Strategy := .binary 0 4096

/-- `string_strategy`: /repo/eth_abi/tools/_strategies.py:143. -/
def stringStrategy : Strategy := .text

/-- `get_array_strategy`: /repo/eth_abi/tools/_strategies.py:146-160. -/
def getArrayStrategy [Ext] (t : ABIType) : Plan Strategy :=
  .bindPyM t.itemType fun item =>
    .ask item.toTypeStr fun S =>
      match t.arrlist.getLast? with
      | some none => .ret (.ok (.lists S 0 none))
      | some (some n) => .ret (.ok (.lists S n (some n)))
      | none => .ret (.error .indexError)

/-- `get_tuple_strategy`: /repo/eth_abi/tools/_strategies.py:163-171.  `components` of a basic type
is an `AttributeError` (unreachable: the matcher is `is_base_tuple`). -/
def getTupleStrategy : ABIType → Plan Strategy
  | .tuple comps _ => .askAll (ABIType.toTypeStrs comps) fun Ss => .ret (.ok (.tuples Ss))
  | .basic _ _ _ => .ret (.error .attributeError)

/-! ## The registry -/

/-- Calling a factory: `registration(parse(normalize(type_str)), self)`:
/repo/eth_abi/tools/_strategies.py:71-78.  The type is not validated. -/
def factoryPlan [Ext] (f : ABIType → Plan Strategy) (s : TypeStr) : Plan Strategy :=
  .bindPyM (parse (normalize s)) f

/-- `get_strategy`: /repo/eth_abi/tools/_strategies.py:56-78, with fuel for the nested calls. -/
def getStrategyFuel [Ext] (m : Mapping (Reg Strategy)) : Nat → TypeStr → PyM Strategy
  | 0, _ => .error .recursionError
  | fuel + 1, s =>
    match m.getRegistration s with
    | .ok (.cls plan) => (plan s).exec (getStrategyFuel m fuel)
    | .ok (.obj S) => .ok S
    | .error e => .error e

/-- A call that changes a `StrategyRegistry`: `register_strategy` or `unregister_strategy`.
/repo/eth_abi/tools/_strategies.py:45-54. -/
inductive StrategyOp where
  | registerStrategy (lookup : LookupArg) (registration : Reg Strategy) (label : Option (List Char))
  | unregisterStrategy (lookup : LookupArg)

/-- The two methods: /repo/eth_abi/tools/_strategies.py:45-54, with `BaseRegistry._register` and `_unregister`:
/repo/eth_abi/registry.py:297-326.  A new registry holds an empty mapping (lines 42-43). -/
def strategyStep (m : Mapping (Reg Strategy)) : StrategyOp → PyM Unit × Mapping (Reg Strategy)
  | .registerStrategy l v label => m.register l v label
  | .unregisterStrategy l => m.unregister l

/-- A sequence of such calls: /repo/eth_abi/tools/_strategies.py:45-54. -/
def strategyRun (m : Mapping (Reg Strategy)) : List StrategyOp → Mapping (Reg Strategy)
  | [] => m
  | op :: h => strategyRun (strategyStep m op).2 h

/-- The matchers and labels of `strategy_registry`: /repo/eth_abi/tools/_strategies.py:176-235. -/
def strategyPreds : List (List Char × PredKind) :=
  [ (t!"uint", .baseEquals t!"uint" none),
    (t!"int", .baseEquals t!"int" none),
    (t!"address", .baseEquals t!"address" (some false)),
    (t!"bool", .baseEquals t!"bool" (some false)),
    (t!"ufixed", .baseEquals t!"ufixed" none),
    (t!"fixed", .baseEquals t!"fixed" none),
    (t!"bytes<M>", .baseEquals t!"bytes" (some true)),
    (t!"bytes", .baseEquals t!"bytes" (some false)),
    (t!"function", .baseEquals t!"function" (some false)),
    (t!"string", .baseEquals t!"string" (some false)),
    (t!"has_arrlist", .hasArrlist),
    (t!"is_base_tuple", .isBaseTuple) ]

/-- The registered strategies and factories: /repo/eth_abi/tools/_strategies.py:176-235. -/
def strategyRegs [Ext] : List (Reg Strategy) :=
  [ .cls (factoryPlan fun t => .ret (getUintStrategy t)),
    .cls (factoryPlan fun t => .ret (getIntStrategy t)),
    .obj addressStrategy,
    .obj boolStrategy,
    .cls (factoryPlan fun t => .ret (getUfixedStrategy t)),
    .cls (factoryPlan fun t => .ret (getFixedStrategy t)),
    .cls (factoryPlan fun t => .ret (getBytesStrategy t)),
    .obj bytesStrategy,
    .cls (factoryPlan fun t => .ret (getBytesStrategy t)),
    .obj stringStrategy,
    .cls (factoryPlan getArrayStrategy),
    .cls (factoryPlan getTupleStrategy) ]

/-- `strategy_registry`: /repo/eth_abi/tools/_strategies.py:174-235. -/
def strategyRegistry [Ext] : Mapping (Reg Strategy) := mappingOf 200 strategyPreds strategyRegs

/-- `get_abi_strategy`: /repo/eth_abi/tools/_strategies.py:237.  Fuel as for `getEncoder`. -/
def getAbiStrategy [Ext] (s : TypeStr) : PyM Strategy :=
  getStrategyFuel strategyRegistry (s.length + 1) s

end EthAbi
