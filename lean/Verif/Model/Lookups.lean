import Verif.Model.Located
import Verif.Model.Pointing
import Verif.Model.Registry

/-!
# The texts of the exceptions of a registry

The lookups of `Model/Registry.lean` again, with what is said when they raise.  Whether a nested lookup raises is always taken
from `Model/Registry.lean`.  `none` says that nothing is raised, or that the text is not the library's.
-/
namespace EthAbi

/-- What Python prints: `repr` of a `str`, and of a matcher that is neither an `Equals` nor a `BaseEquals` (for a function it has
the address of the object).  /repo/eth_abi/registry.py:66,72,95,112,130,204,246, /repo/eth_abi/base.py:25-30. -/
structure Wording where
  str : List Char → List Char
  matcher : Pred → List Char

/-! ## `PredicateMapping` -/

/-- `repr(predicate)`: /repo/eth_abi/registry.py:176-177,203-204,244-253. -/
def Pred.rep (w : Wording) (p : Pred) : List Char :=
  match p.kind with
  | .equals v => t!"<Equals (== " ++ w.str v ++ t!")>"
  | .baseEquals base withSub =>
    t!"<BaseEquals (base == " ++ w.str base ++
      (match withSub with
        | none => []
        | some true => t!" and sub is not None"
        | some false => t!" and sub is None") ++ t!")>"
  | _ => w.matcher p

/-- `", ".join(map(repr, predicates))`: /repo/eth_abi/registry.py:95. -/
def joinReps (w : Wording) : List Pred → List Char
  | [] => []
  | [p] => p.rep w
  | p :: ps => p.rep w ++ t!", " ++ joinReps w ps

/-- The text of `NoEntriesFound`: /repo/eth_abi/registry.py:88-90. -/
def noEntriesText (name : List Char) (s : TypeStr) : List Char :=
  t!"No matching entries for '" ++ s ++ t!"' in " ++ name

/-- The text of `MultipleEntriesFound`: /repo/eth_abi/registry.py:95-103. -/
def multipleText (w : Wording) (name : List Char) (s : TypeStr) (ps : List Pred) : List Char :=
  t!"Multiple matching entries for '" ++ s ++ t!"' in " ++ name ++ t!": " ++ joinReps w ps ++
    t!". This occurs when two registrations match the same type string. You may need to delete one of the registrations or modify its matching behavior to ensure it doesn't collide with other registrations. See the \"Registry\" documentation for more information."

namespace Mapping
variable {V : Type}

/-- What `add` says: /repo/eth_abi/registry.py:63-74. -/
def addSays (w : Wording) (name : List Char) (m : Mapping V) (p : Pred) (label : Option (List Char)) : Option (List Char) :=
  if m.hasPred p then some (t!"Matcher " ++ p.rep w ++ t!" already exists in " ++ name)
  else
    match label with
    | some l =>
      if m.hasLabel l then
        some (t!"Matcher " ++ p.rep w ++ t!" with label '" ++ l ++ t!"' already exists in " ++ name)
      else none
    | none => none

/-- What `find` says: /repo/eth_abi/registry.py:80-103.  What a matcher raises is its own. -/
def findSays [Ext] (w : Wording) (name : List Char) (m : Mapping V) (s : TypeStr) : Option (List Char) :=
  match results s m.values with
  | .error _ => none
  | .ok [] => some (noEntriesText name s)
  | .ok [_] => none
  | .ok qs => some (multipleText w name s (qs.map (·.1)))

/-- What `remove_by_equality` says: /repo/eth_abi/registry.py:107-112. -/
def removeByEqualitySays (w : Wording) (name : List Char) (m : Mapping V) (p : Pred) : Option (List Char) :=
  match delPred p m.values with
  | none => some (t!"Matcher " ++ p.rep w ++ t!" not found in " ++ name)
  | some _ => none

/-- What `remove_by_label` says: /repo/eth_abi/registry.py:133-140.  The `KeyError` of `del self._values[predicate]` has the
matcher in the place of a text. -/
def removeByLabelSays (name : List Char) (m : Mapping V) (l : List Char) : Option (List Char) :=
  match m.labels.lookup l with
  | none => some (t!"Label '" ++ l ++ t!"' not found in " ++ name)
  | some _ => none

end Mapping

/-! ## `parse` and `from_type_str` -/

/-- What `grammar.parse` says: /repo/eth_abi/grammar.py:110-132.  A `VisitationError` has a text of `parsimonious`. -/
def parseSays [Ext] (s : TypeStr) : Option (List Char) :=
  match parse s with
  | .error .valueError => some t!"Zero-sized tuple types \"()\" are not supported."
  | _ => parseErrorText s

/-- What `_get_registration` says, with the text of `find`: /repo/eth_abi/registry.py:328-339. -/
def Mapping.registrationSays [Ext] {V : Type} (w : Wording) (name : List Char) (m : Mapping V) (s : TypeStr) :
    Option (List Char) :=
  match m.findSays w name s with
  | none => none
  | some text =>
    if isInfix t!"No matching" text then
      match parse s with
      | .error _ => parseSays s
      | .ok _ => some text
    else some text

/-- `_get_registration` with the test of the text of `find`: /repo/eth_abi/registry.py:328-339.  (`Mapping.getRegistration` has
only the type string for this.)  Simplification: as there, a `ValueError` of a matcher is raised again without the test. -/
def Mapping.getRegistrationWorded [Ext] {V : Type} (w : Wording) (name : List Char) (m : Mapping V) (s : TypeStr) : PyM V :=
  match m.find s with
  | .ok v => .ok v
  | .error e =>
    match m.findSays w name s with
    | none => .error e
    | some text => do
      if isInfix t!"No matching" text then
        let _ ← parse s
      throw e

/-- `type_str_repr`: /repo/eth_abi/base.py:25-30,91-96. -/
def typeRep [Ext] (w : Wording) (s : TypeStr) : List Char :=
  if s ≠ normalize s then w.str s ++ t!" (normalized to " ++ w.str (normalize s) ++ t!")" else w.str s

/-- What `abi_type.validate()` says for the type of a string: /repo/eth_abi/base.py:69,106. -/
def validateSays [Ext] (s : TypeStr) : Option (List Char) :=
  match parseN s with
  | .ok t =>
    match t.validate with
    | .error (.abiTypeError text) => some text
    | _ => none
  | .error _ => none

/-- What a `from_type_str` under `parse_type_str(expected_base, with_arrlist)` says: /repo/eth_abi/base.py:21-69.  Simplification:
`none` for what the class itself raises after that (no class of /repo does for a type that is validated). -/
def typeStrSays [Ext] (w : Wording) (cls : List Char) (expected : Option (List Char)) (withArrlist : Bool) (s : TypeStr) :
    Option (List Char) :=
  match parse (normalize s) with
  | .error _ => parseSays (normalize s)
  | .ok t =>
    match expected, t with
    | some _, .tuple _ _ => some (t!"Cannot create " ++ cls ++ t!" for non-basic type " ++ typeRep w s)
    | some base, .basic b _ _ =>
      if b ≠ base then
        some (t!"Cannot create " ++ cls ++ t!" for type " ++ typeRep w s ++ t!": expected type with base '" ++ base ++ t!"'")
      else arrlistSays t
    | none, _ => arrlistSays t
where
  /-- The tests of the dimensions and of the whole type: /repo/eth_abi/base.py:50-69. -/
  arrlistSays (t : ABIType) : Option (List Char) :=
    if !withArrlist && t.isArray then
      some (t!"Cannot create " ++ cls ++ t!" for type " ++ typeRep w s ++ t!": expected type with no array dimension list")
    else if withArrlist && !t.isArray then
      some (t!"Cannot create " ++ cls ++ t!" for type " ++ typeRep w s ++ t!": expected type with array dimension list")
    else validateSays (normalize s)

/-- What a `from_type_str` under `parse_tuple_type_str` says: /repo/eth_abi/base.py:86-106. -/
def tupleStrSays [Ext] (w : Wording) (cls : List Char) (s : TypeStr) : Option (List Char) :=
  match parse (normalize s) with
  | .error _ => parseSays (normalize s)
  | .ok (.tuple _ _) => validateSays (normalize s)
  | .ok (.basic _ _ _) => some (t!"Cannot create " ++ cls ++ t!" for non-tuple type " ++ typeRep w s)

/-! ## Lookups -/

/-- A registration, and what its `from_type_str` says when it raises itself.  /repo/eth_abi/registry.py:349-355. -/
structure Telling (C : Type) where
  reg : Reg C
  own : TypeStr → Option (List Char)

/-- What is said while a plan is carried out: the text of the nested lookup that raises, or that of the class.
/repo/eth_abi/encoding.py:155-161,611-624,646-657, /repo/eth_abi/decoding.py:230-236,286-299. -/
def Plan.says {C : Type} (look : TypeStr → PyM C) (nested : TypeStr → Option (List Char)) (own : Option (List Char)) :
    Plan C → Option (List Char)
  | .ret (.ok _) => none
  | .ret (.error _) => own
  | .ask s k =>
    match look s with
    | .ok c => (k c).says look nested own
    | .error _ => nested s

/-- What `get_encoder` or `get_decoder` says: /repo/eth_abi/registry.py:349-355,455-456,474-475.  `look` is the lookup itself, with
a recursion limit. -/
def lookupSays [Ext] {C : Type} (w : Wording) (look : Nat → TypeStr → PyM C) (name : List Char) (m : Mapping (Telling C)) :
    Nat → TypeStr → Option (List Char)
  | 0, _ => none
  | fuel + 1, s =>
    match m.getRegistration s with
    | .error _ => m.registrationSays w name s
    | .ok t =>
      match t.reg with
      | .cls plan => (plan s).says (look fuel) (lookupSays w look name m fuel) (t.own s)
      | .obj _ => none

/-- The texts of the classes of a default registry, given their names: /repo/eth_abi/registry.py:502-638. -/
def classTexts [Ext] (w : Wording) : List (List Char) → List (TypeStr → Option (List Char))
  | [u, i, a, b, uf, f, bm, by_, fn, s, arr, tup] =>
    [ typeStrSays w u (some t!"uint") false, typeStrSays w i (some t!"int") false,
      typeStrSays w a (some t!"address") false, typeStrSays w b (some t!"bool") false,
      typeStrSays w uf (some t!"ufixed") false, typeStrSays w f (some t!"fixed") false,
      typeStrSays w bm (some t!"bytes") false, typeStrSays w by_ (some t!"bytes") false,
      typeStrSays w fn (some t!"bytes") false, typeStrSays w s (some t!"string") false,
      typeStrSays w arr none true, tupleStrSays w tup ]
  | _ => []

/-- The encoder classes of `registry`: /repo/eth_abi/registry.py:504-575. -/
def encoderClasses : List (List Char) :=
  [ t!"UnsignedIntegerEncoder", t!"SignedIntegerEncoder", t!"AddressEncoder", t!"BooleanEncoder", t!"UnsignedFixedEncoder",
    t!"SignedFixedEncoder", t!"BytesEncoder", t!"ByteStringEncoder", t!"BytesEncoder", t!"TextStringEncoder",
    t!"BaseArrayEncoder", t!"TupleEncoder" ]

/-- The decoder classes of `registry`: /repo/eth_abi/registry.py:504-575. -/
def decoderClasses : List (List Char) :=
  [ t!"UnsignedIntegerDecoder", t!"SignedIntegerDecoder", t!"AddressDecoder", t!"BooleanDecoder", t!"UnsignedFixedDecoder",
    t!"SignedFixedDecoder", t!"BytesDecoder", t!"ByteStringDecoder", t!"BytesDecoder", t!"StringDecoder",
    t!"BaseArrayDecoder", t!"TupleDecoder" ]

/-- The encoder classes of `registry_packed`: /repo/eth_abi/registry.py:579-638. -/
def packedClasses : List (List Char) :=
  [ t!"PackedUnsignedIntegerEncoder", t!"PackedSignedIntegerEncoder", t!"PackedAddressEncoder", t!"PackedBooleanEncoder",
    t!"PackedUnsignedFixedEncoder", t!"PackedSignedFixedEncoder", t!"PackedBytesEncoder", t!"PackedByteStringEncoder",
    t!"PackedBytesEncoder", t!"PackedTextStringEncoder", t!"PackedArrayEncoder", t!"TupleEncoder" ]

/-- What `registry.get_encoder(type_str)` says: /repo/eth_abi/registry.py:344-346,455-456,502-575. -/
def encoderSays [Ext] (w : Wording) (s : TypeStr) : Option (List Char) :=
  lookupSays w (getEncoderFuel defaultRegistry.encoders) t!"encoder registry"
    (mappingOf 0 defaultPreds (List.zipWith Telling.mk defaultEncoders (classTexts w encoderClasses))) (s.length + 1) s

/-- What `registry_packed.get_encoder(type_str)` says: /repo/eth_abi/registry.py:344-346,455-456,577-638. -/
def packedSays [Ext] (w : Wording) (s : TypeStr) : Option (List Char) :=
  lookupSays w (getEncoderFuel packedRegistry.encoders) t!"encoder registry"
    (mappingOf 100 defaultPreds (List.zipWith Telling.mk packedEncoders (classTexts w packedClasses))) (s.length + 1) s

/-- What `registry.get_decoder(type_str)` says: /repo/eth_abi/registry.py:344-346,474-475,502-575. -/
def decoderSays [Ext] (w : Wording) (s : TypeStr) : Option (List Char) :=
  lookupSays w (fun fuel s => getDecoderFuel defaultRegistry.decoders fuel s true) t!"decoder registry"
    (mappingOf 0 defaultPreds (List.zipWith Telling.mk defaultDecoders (classTexts w decoderClasses))) (s.length + 1) s

/-- What the lookups of a call say, one type string after the other: `for type_str in types`.
/repo/eth_abi/codec.py:72,157. -/
def lookupsSay {C : Type} (look : TypeStr → PyM C) (tells : TypeStr → Option (List Char)) : List TypeStr → Option (List Char)
  | [] => none
  | s :: ss =>
    match look s with
    | .ok _ => lookupsSay look tells ss
    | .error _ => tells s

end EthAbi
