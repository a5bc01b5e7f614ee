import Verif.Model.Encoding
import Verif.Model.Decoding

/-!
# `eth_abi/registry.py`, without object identity and caches

Mappings are ordered association lists (Python dicts).  Lookups are pure functions of the
registrations here; caches, copies and shared decoder objects are added in `Model/World.lean`.
-/
namespace EthAbi

/-! ## `from_type_str` as a plan

A `from_type_str` class method may look up coders of other types in the registry.  It is modelled as
a tree: finish with a result, or ask for the coder of a type string and go on. -/

/-- The behaviour of a `from_type_str` call.  Simplification: exceptions of nested lookups are not
caught (no class in /repo does).  For /repo/eth_abi/base.py:140-146 and the `from_type_str` of
/repo/eth_abi/encoding.py and /repo/eth_abi/decoding.py:231-236,287-299. -/
inductive Plan (C : Type) where
  | ret (r : PyM C)
  | ask (s : TypeStr) (k : C → Plan C)

namespace Plan

/-- Go on with the result of a call that may raise.  For /repo/eth_abi/base.py:140-146 and the `from_type_str`
of /repo/eth_abi/encoding.py and /repo/eth_abi/decoding.py:231-236,287-299. -/
def bindPyM {C α : Type} (x : PyM α) (k : α → Plan C) : Plan C :=
  match x with
  | .ok a => k a
  | .error e => .ret (.error e)

/-- Look up several type strings in order.  For /repo/eth_abi/base.py:140-146 and the `from_type_str` of
/repo/eth_abi/encoding.py and /repo/eth_abi/decoding.py:231-236,287-299. -/
def askAll {C : Type} : List TypeStr → (List C → Plan C) → Plan C
  | [], k => k []
  | s :: ss, k => .ask s fun c => askAll ss fun cs => k (c :: cs)

/-- Carry out a plan with a given lookup function.  For /repo/eth_abi/base.py:140-146 and the `from_type_str` of
/repo/eth_abi/encoding.py and /repo/eth_abi/decoding.py:231-236,287-299. -/
def exec {C : Type} (look : TypeStr → PyM C) : Plan C → PyM C
  | .ret r => r
  | .ask s k =>
    match look s with
    | .ok c => (k c).exec look
    | .error e => .error e

end Plan

/-- What can be registered: a subclass of `BaseCoder` (used through `from_type_str`), or any other
callable, which is used as it is: /repo/eth_abi/registry.py:349-355. -/
inductive Reg (C : Type) where
  | cls (plan : TypeStr → Plan C)
  | obj (c : C)

/-! ## `from_type_str` of the encoders -/

/-- The sub part of a parsed type.  /repo/eth_abi/grammar.py:287-292. -/
def ABIType.sub : ABIType → Sub
  | .basic _ s _ => s
  | .tuple _ _ => .none

/-- A `from_type_str` wrapped by `parse_type_str(base)` that makes no nested lookup.
/repo/eth_abi/base.py:11-74. -/
def basicPlan [Ext] {C : Type} (base : List Char) (mk : Sub → PyM C) (s : TypeStr) : Plan C :=
  .ret (do
    let t ← parseTypeStr (some base) false s
    mk t.sub)

/-- `from_type_str` of the (packed) integer encoders: /repo/eth_abi/encoding.py:283-297,318-329. -/
def intPlan {C : Type} (mk : Nat → PyM C) : Sub → PyM C
  | .one n => mk n
  | _ => .error .typeError

/-- `from_type_str` of the (packed) fixed-point encoders:
/repo/eth_abi/encoding.py:381-400,427-446. -/
def fixedPlan {C : Type} (mk : Nat → Nat → PyM C) : Sub → PyM C
  | .two m n => mk m n
  | _ => .error .typeError

/-- `BaseArrayEncoder.from_type_str`, `PackedArrayEncoder.from_type_str` and
`BaseArrayDecoder.from_type_str`: /repo/eth_abi/encoding.py:611-624,646-657 and
/repo/eth_abi/decoding.py:286-299.  `mk dim item` is the construction. -/
def arrayPlan [Ext] {C : Type} (mk : Option Nat → C → PyM C) (s : TypeStr) : Plan C :=
  .bindPyM (parseTypeStr none true s) fun t =>
    .bindPyM t.itemType fun item =>
      .ask item.toTypeStr fun c =>
        match t.arrlist.getLast? with
        | some dim => .ret (mk dim c)
        | none => .ret (.error .indexError)

/-- `TupleEncoder.from_type_str` and `TupleDecoder.from_type_str`:
/repo/eth_abi/encoding.py:155-161 and /repo/eth_abi/decoding.py:230-236. -/
def tuplePlan [Ext] {C : Type} (mk : List C → C) (s : TypeStr) : Plan C :=
  .bindPyM (parseTupleTypeStr s) fun comps =>
    .askAll (ABIType.toTypeStrs comps) fun cs => .ret (.ok (mk cs))

/-- The construction in `BaseArrayEncoder.from_type_str`: /repo/eth_abi/encoding.py:615-624. -/
def mkArray [Ext] : Option Nat → Encoder → PyM Encoder
  | some n, e => mkSizedArray n e
  | none, e => .ok (mkDynamicArray e)

/-- The construction in `BaseArrayDecoder.from_type_str`: /repo/eth_abi/decoding.py:290-299. -/
def mkArrayD : Option Nat → Decoder → PyM Decoder
  | some n, d => mkSizedArrayD n d
  | none, d => mkDynamicArrayD d

/-! ## Predicates -/

/-- The kinds of matcher.  `user key f` is any other callable: two of them are equal if their keys
are (for a plain function the key is its identity), and `f` is what it answers.
/repo/eth_abi/registry.py:162-277. -/
inductive PredKind where
  /-- `Equals(value)`: /repo/eth_abi/registry.py:190-204 -/
  | equals (value : TypeStr)
  /-- `BaseEquals(base, with_sub=...)`: /repo/eth_abi/registry.py:207-253 -/
  | baseEquals (base : List Char) (withSub : Option Bool)
  /-- `has_arrlist`: /repo/eth_abi/registry.py:256-265 -/
  | hasArrlist
  /-- `is_base_tuple`: /repo/eth_abi/registry.py:268-277 -/
  | isBaseTuple
  | user (key : Nat) (f : TypeStr → PyM Bool)

/-- A matcher object: its identity (for `is`) and what it is.  /repo/eth_abi/registry.py:162-277. -/
structure Pred where
  ident : Nat
  kind : PredKind

/-- `==` on matchers: /repo/eth_abi/registry.py:186-187; identity for functions. -/
def PredKind.pyEq : PredKind → PredKind → Bool
  | .equals a, .equals b => a == b
  | .baseEquals a s, .baseEquals b t => a == b && s == t
  | .hasArrlist, .hasArrlist => true
  | .isBaseTuple, .isBaseTuple => true
  | .user k _, .user l _ => k == l
  | _, _ => false

/-- `p == q`.  /repo/eth_abi/registry.py:183-187. -/
def Pred.pyEq (p q : Pred) : Bool := p.kind.pyEq q.kind

/-- `try: grammar.parse(type_str) except (ParseError, ValueError): return False`, then a test of
the parsed type: /repo/eth_abi/registry.py:223-226,260-263,272-275. -/
def onParsed [Ext] (s : TypeStr) (test : ABIType → Bool) : PyM Bool :=
  match parse s with
  | .ok t => .ok (test t)
  | .error e => if e = .parseError || e.isValueError then .ok false else .error e

/-- The test of `BaseEquals.__call__`: /repo/eth_abi/registry.py:228-242. -/
def baseEqualsTest (base : List Char) (withSub : Option Bool) : ABIType → Bool
  | .basic b sub arr =>
    if !arr.isEmpty then false
    else if withSub = some true ∧ sub = .none then false
    else if withSub = some false ∧ sub ≠ .none then false
    else b == base
  | .tuple _ _ => false

/-- The test of `is_base_tuple`: /repo/eth_abi/registry.py:277. -/
def baseTupleTest : ABIType → Bool
  | .tuple _ arr => arr.isEmpty
  | .basic _ _ _ => false

/-- `predicate(type_str)`.  /repo/eth_abi/registry.py:200-201,222-242,256-277. -/
def Pred.matches [Ext] (p : Pred) (s : TypeStr) : PyM Bool :=
  match p.kind with
  | .equals v => .ok (v == s)
  | .baseEquals base withSub => onParsed s (baseEqualsTest base withSub)
  | .hasArrlist => onParsed s ABIType.isArray
  | .isBaseTuple => onParsed s baseTupleTest
  | .user _ f => f s

/-! ## `PredicateMapping` -/

/-- `PredicateMapping`: /repo/eth_abi/registry.py:51-159; `_values` and `_labeled_predicates` in
insertion order. -/
structure Mapping (V : Type) where
  values : List (Pred × V)
  labels : List (List Char × Pred)

namespace Mapping
variable {V : Type}

/-- `PredicateMapping(name)`: /repo/eth_abi/registry.py:58-61. -/
def empty : Mapping V := ⟨[], []⟩

/-- `predicate in self._values`.  /repo/eth_abi/registry.py:64. -/
def hasPred (m : Mapping V) (p : Pred) : Bool := m.values.any fun q => q.1.pyEq p

/-- `label in self._labeled_predicates`.  /repo/eth_abi/registry.py:70. -/
def hasLabel (m : Mapping V) (l : List Char) : Bool := m.labels.any fun q => q.1 == l

/-- `add`: /repo/eth_abi/registry.py:63-78.  Returns the outcome and the mapping afterwards. -/
def add (m : Mapping V) (p : Pred) (v : V) (label : Option (List Char)) : PyM Unit × Mapping V :=
  if m.hasPred p then (.error .valueError, m)
  else
    match label with
    | some l =>
      if m.hasLabel l then (.error .valueError, m)
      else (.ok (), ⟨m.values ++ [(p, v)], m.labels ++ [(l, p)]⟩)
    | none => (.ok (), ⟨m.values ++ [(p, v)], m.labels⟩)

/-- The generator in `find`: /repo/eth_abi/registry.py:81-85. -/
def results [Ext] (s : TypeStr) : List (Pred × V) → PyM (List (Pred × V))
  | [] => .ok []
  | q :: qs => do
    let b ← q.1.matches s
    let rs ← results s qs
    return if b then q :: rs else rs

/-- `find`: /repo/eth_abi/registry.py:80-105. -/
def find [Ext] (m : Mapping V) (s : TypeStr) : PyM V := do
  match ← results s m.values with
  | [] => throw .noEntriesFound
  | [q] => return q.2
  | _ => throw .multipleEntriesFound

/-- `del d[predicate]` on `_values`; `none` is `KeyError`.  /repo/eth_abi/registry.py:110,140. -/
def delPred (p : Pred) : List (Pred × V) → Option (List (Pred × V))
  | [] => none
  | q :: qs => if q.1.pyEq p then some qs else (delPred p qs).map (q :: ·)

/-- `_label_for_predicate`, with the label's entry removed: /repo/eth_abi/registry.py:116-127.  The
label is searched with `is`. -/
def delLabelOf (p : Pred) : List (List Char × Pred) → List (List Char × Pred)
  | [] => []
  | q :: qs => if q.2.ident = p.ident then qs else q :: delLabelOf p qs

/-- `remove_by_equality`: /repo/eth_abi/registry.py:107-120. -/
def removeByEquality (m : Mapping V) (p : Pred) : PyM Unit × Mapping V :=
  match delPred p m.values with
  | none => (.error .keyError, m)
  | some vs => (.ok (), ⟨vs, delLabelOf p m.labels⟩)

/-- `remove_by_label`: /repo/eth_abi/registry.py:133-140.  The label goes first; if the predicate is
not in `_values` the `KeyError` comes after that. -/
def removeByLabel (m : Mapping V) (l : List Char) : PyM Unit × Mapping V :=
  match m.labels.lookup l with
  | none => (.error .keyError, m)
  | some p =>
    let labels := m.labels.filter fun q => q.1 != l
    match delPred p m.values with
    | none => (.error .keyError, ⟨m.values, labels⟩)
    | some vs => (.ok (), ⟨vs, labels⟩)

end Mapping

/-! ## `BaseRegistry` and `ABIRegistry` -/

/-- A `lookup` argument: a callable or a string (which becomes a new `Equals` object, whose
identity is given here): /repo/eth_abi/registry.py:298-326. -/
inductive LookupArg where
  | pred (p : Pred)
  | str (s : TypeStr) (freshIdent : Nat)
  | other

/-- `_register`: /repo/eth_abi/registry.py:299-311. -/
def Mapping.register {V : Type} (m : Mapping V) (lookup : LookupArg) (v : V)
    (label : Option (List Char)) : PyM Unit × Mapping V :=
  match lookup with
  | .pred p => m.add p v label
  | .str s i => m.add ⟨i, .equals s⟩ v (some s)
  | .other => (.error .typeError, m)

/-- `_unregister`: /repo/eth_abi/registry.py:313-326. -/
def Mapping.unregister {V : Type} (m : Mapping V) (lookupOrLabel : LookupArg) :
    PyM Unit × Mapping V :=
  match lookupOrLabel with
  | .pred p => m.removeByEquality p
  | .str s _ => m.removeByLabel s
  | .other => (.error .typeError, m)

/-- `sub in s`.  /repo/eth_abi/registry.py:332. -/
def isInfix (sub : List Char) : List Char → Bool
  | [] => sub.isEmpty
  | c :: cs => sub.isPrefixOf (c :: cs) || isInfix sub cs

/-- `BaseRegistry._get_registration`: /repo/eth_abi/registry.py:328-339.  The message of
`NoEntriesFound` contains "No matching"; the message of `MultipleEntriesFound` quotes the type
string.  Simplification: it also quotes the `repr`s of the matchers, which are not modelled, and a
`ValueError` raised by a user matcher is re-raised without the check of its message. -/
def Mapping.getRegistration [Ext] {V : Type} (m : Mapping V) (s : TypeStr) : PyM V :=
  match m.find s with
  | .error .noEntriesFound => do
    let _ ← parse s
    throw .noEntriesFound
  | .error .multipleEntriesFound => do
    if isInfix t!"No matching" s then
      let _ ← parse s
    throw .multipleEntriesFound
  | r => r

/-- `ABIRegistry`: /repo/eth_abi/registry.py:342-499, its registrations only. -/
structure Registry where
  encoders : Mapping (Reg Encoder)
  decoders : Mapping (Reg Decoder)

/-- `get_encoder` without the cache: /repo/eth_abi/registry.py:349-355,455-456.  The fuel bounds the
depth of nested lookups; running out of it is Python's `RecursionError`. -/
def getEncoderFuel [Ext] (m : Mapping (Reg Encoder)) : Nat → TypeStr → PyM Encoder
  | 0, _ => .error .recursionError
  | fuel + 1, s =>
    match m.getRegistration s with
    | .ok (.cls plan) => (plan s).exec (getEncoderFuel m fuel)
    | .ok (.obj e) => .ok e
    | .error e => .error e

/-- `decoder.strict = strict` if `decoder.is_dynamic`: /repo/eth_abi/registry.py:477-481, for a
decoder object of its own.  (A registered object is shared; see `Model/World.lean`.) -/
def Decoder.setStrict (d : Decoder) (strict : Bool) : Decoder :=
  if d.dyn then
    match d.strict with
    | .own _ => { d with strict := .own strict }
    | .shared _ => d
  else d

/-- `get_decoder(type_str, strict)` without the cache: /repo/eth_abi/registry.py:474-483.  Nested
lookups use the default `strict=True`. -/
def getDecoderFuel [Ext] (m : Mapping (Reg Decoder)) : Nat → TypeStr → Bool → PyM Decoder
  | 0, _, _ => .error .recursionError
  | fuel + 1, s, strict =>
    match m.getRegistration s with
    | .ok (.cls plan) => do
      let d ← (plan s).exec (fun s' => getDecoderFuel m fuel s' true)
      return d.setStrict strict
    | .ok (.obj d) => .ok (d.setStrict strict)
    | .error e => .error e

/-- `get_encoder(type_str)`.  Fuel: every `from_type_str` of /repo asks only for type strings with
fewer brackets than its own, so the length of the string (plus one) is enough.
/repo/eth_abi/registry.py:455-456. -/
def getEncoder [Ext] (r : Registry) (s : TypeStr) : PyM Encoder :=
  getEncoderFuel r.encoders (s.length + 1) s

/-- `get_decoder(type_str, strict)`.  /repo/eth_abi/registry.py:474-483. -/
def getDecoder [Ext] (r : Registry) (s : TypeStr) (strict : Bool) : PyM Decoder :=
  getDecoderFuel r.decoders (s.length + 1) s strict

/-- `has_encoder`: /repo/eth_abi/registry.py:458-472. -/
def hasEncoder [Ext] (r : Registry) (s : TypeStr) : PyM Bool :=
  match getEncoder r s with
  | .ok _ => .ok true
  | .error .multipleEntriesFound => .error .multipleEntriesFound
  | .error _ => .ok false

/-! ## The default registries -/

/-- A registration made at import: matcher and label.  /repo/eth_abi/registry.py:502-638. -/
def defaultPreds : List (List Char × PredKind) :=
  [ (t!"uint", .baseEquals t!"uint" none),
    (t!"int", .baseEquals t!"int" none),
    (t!"address", .baseEquals t!"address" none),
    (t!"bool", .baseEquals t!"bool" none),
    (t!"ufixed", .baseEquals t!"ufixed" none),
    (t!"fixed", .baseEquals t!"fixed" none),
    (t!"bytes<M>", .baseEquals t!"bytes" (some true)),
    (t!"bytes", .baseEquals t!"bytes" (some false)),
    (t!"function", .baseEquals t!"function" none),
    (t!"string", .baseEquals t!"string" none),
    (t!"has_arrlist", .hasArrlist),
    (t!"is_base_tuple", .isBaseTuple) ]

/-- The mapping after registering the given values under the default matchers and labels, in order;
matcher object number `i` has identity `base + i`.  /repo/eth_abi/registry.py:502-638. -/
def mappingOf {V : Type} : Nat → List (List Char × PredKind) → List V → Mapping V
  | i, (l, k) :: ps, v :: vs =>
    let m := mappingOf (i + 1) ps vs
    ⟨(⟨i, k⟩, v) :: m.values, (l, ⟨i, k⟩) :: m.labels⟩
  | _, _, _ => Mapping.empty

/-- The classes registered as encoders in `registry`: /repo/eth_abi/registry.py:504-575. -/
def defaultEncoders [Ext] : List (Reg Encoder) :=
  [ .cls (basicPlan t!"uint" (intPlan fun n => mkUInt n 32)),
    .cls (basicPlan t!"int" (intPlan fun n => mkSInt n 32)),
    .cls (basicPlan t!"address" fun _ => mkAddress 32),
    .cls (basicPlan t!"bool" fun _ => mkBool 32),
    .cls (basicPlan t!"ufixed" (fixedPlan fun m n => mkUFixed m n 32)),
    .cls (basicPlan t!"fixed" (fixedPlan fun m n => mkSFixed m n 32)),
    .cls (basicPlan t!"bytes" (intPlan fun n => mkBytesM (n * 8) 32)),
    .cls (basicPlan t!"bytes" fun _ => .ok byteStringEncoder),
    .cls (basicPlan t!"bytes" (intPlan fun n => mkBytesM (n * 8) 32)),
    .cls (basicPlan t!"string" fun _ => .ok textStringEncoder),
    .cls (arrayPlan mkArray),
    .cls (tuplePlan mkTuple) ]

/-- The classes registered as decoders in `registry`: /repo/eth_abi/registry.py:504-575. -/
def defaultDecoders [Ext] : List (Reg Decoder) :=
  [ .cls (basicPlan t!"uint" (intPlan mkUIntD)),
    .cls (basicPlan t!"int" (intPlan mkSIntD)),
    .cls (basicPlan t!"address" fun _ => .ok addressDecoder),
    .cls (basicPlan t!"bool" fun _ => .ok boolDecoder),
    .cls (basicPlan t!"ufixed" (fixedPlan mkUFixedD)),
    .cls (basicPlan t!"fixed" (fixedPlan mkSFixedD)),
    .cls (basicPlan t!"bytes" (intPlan fun n => mkBytesMD (n * 8))),
    .cls (basicPlan t!"bytes" fun _ => .ok (byteStringDecoder (.own true))),
    .cls (basicPlan t!"bytes" (intPlan fun n => mkBytesMD (n * 8))),
    .cls (basicPlan t!"string" fun _ => .ok (stringDecoder (.own true))),
    .cls (arrayPlan mkArrayD),
    .cls (tuplePlan mkTupleD) ]

/-- The classes registered as encoders in `registry_packed`: /repo/eth_abi/registry.py:577-638. -/
def packedEncoders [Ext] : List (Reg Encoder) :=
  [ .cls (basicPlan t!"uint" (intPlan fun n => mkUInt n (n / 8))),
    .cls (basicPlan t!"int" (intPlan fun n => mkSInt n (n / 8))),
    .cls (basicPlan t!"address" fun _ => mkAddress 20),
    .cls (basicPlan t!"bool" fun _ => mkBool 1),
    .cls (basicPlan t!"ufixed" (fixedPlan fun m n => mkUFixed m n (m / 8))),
    .cls (basicPlan t!"fixed" (fixedPlan fun m n => mkSFixed m n (m / 8))),
    .cls (basicPlan t!"bytes" (intPlan fun n => mkBytesM (n * 8) n)),
    .cls (basicPlan t!"bytes" fun _ => .ok packedByteStringEncoder),
    .cls (basicPlan t!"bytes" (intPlan fun n => mkBytesM (n * 8) n)),
    .cls (basicPlan t!"string" fun _ => .ok packedTextStringEncoder),
    .cls (arrayPlan fun dim e => .ok (mkPackedArray dim e)),
    .cls (tuplePlan mkTuple) ]

/-- `registry`: /repo/eth_abi/registry.py:502-575.  In Python the encoder and the decoder mapping
share each matcher object. -/
def defaultRegistry [Ext] : Registry where
  encoders := mappingOf 0 defaultPreds defaultEncoders
  decoders := mappingOf 0 defaultPreds defaultDecoders

/-- `registry_packed`: /repo/eth_abi/registry.py:577-638. -/
def packedRegistry [Ext] : Registry where
  encoders := mappingOf 100 defaultPreds packedEncoders
  decoders := Mapping.empty

end EthAbi
