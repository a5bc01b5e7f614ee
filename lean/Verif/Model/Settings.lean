import Verif.Model.Direct

/-!
# The settings of a coder class

`BaseCoder.__init__` (/repo/eth_abi/base.py:118-137) for any class that inherits it, the library's and those that a user
writes: "any keyword arguments passed to `__init__` [are] used to set the value of properties on an instance if a class
property with the same name is found" (/repo/docs/registry.rst).

Class attributes are plain values here: a property without a setter, `__slots__` and a `__setattr__` or `__getattr__` of
the user's own are not modelled, and neither are the attributes that every Python object has (`__doc__`, `__class__`, ...).
-/
namespace EthAbi

/-- The name of an attribute.  /repo/eth_abi/base.py:119. -/
abbrev AttrName := List Char

/-- A class that inherits `BaseCoder.__init__`.  /repo/eth_abi/base.py:111-137. -/
structure SettingsClass (α : Type) where
  /-- `cls.__name__`. -/
  name : List Char
  /-- `vars(k)` for each class `k` of `cls.__mro__`, beginning with `cls` itself. -/
  mro : List (List (AttrName × α))
  /-- The attributes that a class, but not its instances, has from its metaclass (`mro`, and `register` of `ABCMeta`). -/
  metaNames : List AttrName
  /-- The method `validate`: what it does depends on the attributes of the object. -/
  validate : (AttrName → Option α) → PyM Unit

/-- The object: its class, and `vars(self)`.  /repo/eth_abi/base.py:132. -/
structure SettingsObj (α : Type) where
  cls : SettingsClass α
  dict : List (AttrName × α)

/-- Attribute lookup in `__mro__`: the first class that has it.  /repo/eth_abi/base.py:123. -/
def SettingsClass.find {α : Type} (k : AttrName) : List (List (AttrName × α)) → Option α
  | [] => none
  | d :: ds =>
    match d.lookup k with
    | some v => some v
    | none => find k ds

/-- `hasattr(cls, key)`: /repo/eth_abi/base.py:123. -/
def SettingsClass.hasattr {α : Type} (c : SettingsClass α) (k : AttrName) : Bool :=
  (find k c.mro).isSome || c.metaNames.elem k

/-- `getattr(self, key)`; `none` is `AttributeError`.  /repo/eth_abi/base.py:118-135. -/
def SettingsObj.getattr {α : Type} (o : SettingsObj α) (k : AttrName) : Option α :=
  match o.dict.lookup k with
  | some v => some v
  | none => SettingsClass.find k o.cls.mro

/-- Assignment to an item of a `dict`.  /repo/eth_abi/base.py:132. -/
def assignItem {α : Type} (k : AttrName) (v : α) : List (AttrName × α) → List (AttrName × α)
  | [] => [(k, v)]
  | (k', v') :: d => if k' = k then (k, v) :: d else (k', v') :: assignItem k v d

/-- `setattr(self, key, value)`: /repo/eth_abi/base.py:132. -/
def SettingsObj.setattr {α : Type} (o : SettingsObj α) (k : AttrName) (v : α) : SettingsObj α :=
  { o with dict := assignItem k v o.dict }

/-- What the constructor raises.  /repo/eth_abi/base.py:123-135. -/
inductive SettingsError where
  /-- `AttributeError` with the text of /repo/eth_abi/base.py:125-131. -/
  | notFound (key : AttrName) (clsName : List Char)
  /-- What Python or `validate` raises. -/
  | raised (e : Exc)

/-- The text of the exception.  /repo/eth_abi/base.py:125-131. -/
def SettingsError.text : SettingsError → Option (List Char)
  | .notFound key clsName => some (t!"Property " ++ key ++ t!" not found on " ++ clsName ++ t!" class. `" ++ clsName ++
      t!".__init__` only accepts keyword arguments which are present on the " ++ clsName ++ t!" class.")
  | .raised _ => none

/-- The loop over `kwargs.items()`: /repo/eth_abi/base.py:122-132. -/
def SettingsObj.assignAll {α : Type} : List (AttrName × α) → SettingsObj α → Except SettingsError (SettingsObj α)
  | [], o => .ok o
  | (key, value) :: kwargs, o =>
    if !o.cls.hasattr key then .error (.notFound key o.cls.name)
    else assignAll kwargs (o.setattr key value)

/-- `cls(**kwargs)`: /repo/eth_abi/base.py:118-135.  A keyword `self` makes Python itself raise `TypeError`; an attribute
`validate` of the object is called instead of the method (`call`). -/
def SettingsClass.construct {α : Type} (c : SettingsClass α) (call : α → PyM Unit) (kwargs : List (AttrName × α)) :
    Except SettingsError (SettingsObj α) :=
  if (kwargs.lookup t!"self").isSome then .error (.raised .typeError)
  else
    match SettingsObj.assignAll kwargs ⟨c, []⟩ with
    | .error e => .error e
    | .ok o =>
      match (match o.dict.lookup t!"validate" with
             | some f => call f
             | none => c.validate o.getattr) with
      | .error e => .error (.raised e)
      | .ok _ => .ok o

/-- `StringDecoder(**kwargs)`: /repo/eth_abi/decoding.py:623-626.  Its own `__init__` has the one parameter
`handle_string_errors`, with the default `"strict"` (`deflt`): Python raises `TypeError` for every other keyword.
`super().__init__()` is called without keywords, so that only `validate` is left of it. -/
def stringDecoderNew {α : Type} (c : SettingsClass α) (deflt : α) (kwargs : List (AttrName × α)) :
    Except SettingsError (SettingsObj α) :=
  if kwargs.any fun p => p.1 != t!"handle_string_errors" then .error (.raised .typeError)
  else
    let o : SettingsObj α := ⟨c, [(t!"bytes_errors", (kwargs.lookup t!"handle_string_errors").getD deflt)]⟩
    match c.validate o.getattr with
    | .error e => .error (.raised e)
    | .ok _ => .ok o

/-! ## The classes of the library -/

/-- A class statement: name, base class, and the attributes other than methods; `true` if it is not `None`, with the
number if it is one.  /repo/eth_abi/encoding.py, /repo/eth_abi/decoding.py. -/
structure ClassStmt where
  name : List Char
  base : List Char
  own : List (AttrName × Option Nat)

/-- The class statements of the fixed-size encoders (the attributes that are numbers, booleans or `None`):
/repo/eth_abi/base.py:111-116, /repo/eth_abi/encoding.py:55,164-170,209-216,236-242,278,300,332-333,370,403,449-453,
470-476. -/
def encoderStmts : List ClassStmt :=
  [⟨t!"BaseCoder", [], [(t!"is_dynamic", some 0)]⟩,
   ⟨t!"BaseEncoder", t!"BaseCoder", []⟩,
   ⟨t!"FixedSizeEncoder", t!"BaseEncoder",
     [(t!"value_bit_size", none), (t!"data_byte_size", none), (t!"is_big_endian", none)]⟩,
   ⟨t!"Fixed32ByteSizeEncoder", t!"FixedSizeEncoder", [(t!"data_byte_size", some 32)]⟩,
   ⟨t!"BooleanEncoder", t!"Fixed32ByteSizeEncoder", [(t!"value_bit_size", some 8), (t!"is_big_endian", some 1)]⟩,
   ⟨t!"PackedBooleanEncoder", t!"BooleanEncoder", [(t!"data_byte_size", some 1)]⟩,
   ⟨t!"NumberEncoder", t!"Fixed32ByteSizeEncoder", [(t!"is_big_endian", some 1)]⟩,
   ⟨t!"UnsignedIntegerEncoder", t!"NumberEncoder", []⟩,
   ⟨t!"PackedUnsignedIntegerEncoder", t!"UnsignedIntegerEncoder", []⟩,
   ⟨t!"SignedIntegerEncoder", t!"NumberEncoder", []⟩,
   ⟨t!"PackedSignedIntegerEncoder", t!"SignedIntegerEncoder", []⟩,
   ⟨t!"BaseFixedEncoder", t!"NumberEncoder", [(t!"frac_places", none)]⟩,
   ⟨t!"UnsignedFixedEncoder", t!"BaseFixedEncoder", []⟩,
   ⟨t!"PackedUnsignedFixedEncoder", t!"UnsignedFixedEncoder", []⟩,
   ⟨t!"SignedFixedEncoder", t!"BaseFixedEncoder", []⟩,
   ⟨t!"PackedSignedFixedEncoder", t!"SignedFixedEncoder", []⟩,
   ⟨t!"AddressEncoder", t!"Fixed32ByteSizeEncoder",
     [(t!"value_bit_size", some (20 * 8)), (t!"is_big_endian", some 1)]⟩,
   ⟨t!"PackedAddressEncoder", t!"AddressEncoder", [(t!"data_byte_size", some 20)]⟩,
   ⟨t!"BytesEncoder", t!"Fixed32ByteSizeEncoder", [(t!"is_big_endian", some 0)]⟩,
   ⟨t!"PackedBytesEncoder", t!"BytesEncoder", []⟩]

/-- The class statements of the fixed-size and string decoders: /repo/eth_abi/base.py:111-116,
/repo/eth_abi/decoding.py:116-123,239,361-365,425-431,449-451,462-464,477-478,509-510,521-523,535,551,588-589,623. -/
def decoderStmts : List ClassStmt :=
  [⟨t!"BaseCoder", [], [(t!"is_dynamic", some 0)]⟩,
   ⟨t!"BaseDecoder", t!"BaseCoder", [(t!"strict", some 1)]⟩,
   ⟨t!"SingleDecoder", t!"BaseDecoder", []⟩,
   ⟨t!"ByteStringDecoder", t!"SingleDecoder", [(t!"is_dynamic", some 1)]⟩,
   ⟨t!"StringDecoder", t!"ByteStringDecoder", []⟩,
   ⟨t!"FixedByteSizeDecoder", t!"SingleDecoder",
     [(t!"value_bit_size", none), (t!"data_byte_size", none), (t!"is_big_endian", none)]⟩,
   ⟨t!"Fixed32ByteSizeDecoder", t!"FixedByteSizeDecoder", [(t!"data_byte_size", some 32)]⟩,
   ⟨t!"BooleanDecoder", t!"Fixed32ByteSizeDecoder", [(t!"value_bit_size", some 8), (t!"is_big_endian", some 1)]⟩,
   ⟨t!"AddressDecoder", t!"Fixed32ByteSizeDecoder",
     [(t!"value_bit_size", some (20 * 8)), (t!"is_big_endian", some 1)]⟩,
   ⟨t!"UnsignedIntegerDecoder", t!"Fixed32ByteSizeDecoder", [(t!"is_big_endian", some 1)]⟩,
   ⟨t!"SignedIntegerDecoder", t!"Fixed32ByteSizeDecoder", [(t!"is_big_endian", some 1)]⟩,
   ⟨t!"BytesDecoder", t!"Fixed32ByteSizeDecoder", [(t!"is_big_endian", some 0)]⟩,
   ⟨t!"BaseFixedDecoder", t!"Fixed32ByteSizeDecoder", [(t!"frac_places", none), (t!"is_big_endian", some 1)]⟩,
   ⟨t!"UnsignedFixedDecoder", t!"BaseFixedDecoder", []⟩,
   ⟨t!"SignedFixedDecoder", t!"BaseFixedDecoder", []⟩]

/-- `__mro__` of a class in a list of class statements, each of which names an earlier one as its only base: the statement
itself, and then those before it that its bases name.  The list is given from the last statement to the first.
/repo/eth_abi/encoding.py:55-705, /repo/eth_abi/decoding.py:116-665. -/
def mroOf (name : List Char) : List ClassStmt → List (List (AttrName × Option Nat))
  | [] => []
  | s :: earlier => if s.name = name then s.own :: mroOf s.base earlier else mroOf name earlier

/-- The name of the encoder class.  /repo/eth_abi/encoding.py:213-523. -/
def Cls.encoderName : Cls → List Char
  | .bool => t!"BooleanEncoder"
  | .uint => t!"UnsignedIntegerEncoder"
  | .int => t!"SignedIntegerEncoder"
  | .ufixed => t!"UnsignedFixedEncoder"
  | .fixed => t!"SignedFixedEncoder"
  | .address => t!"AddressEncoder"
  | .bytesM => t!"BytesEncoder"

/-- The name of the decoder class.  /repo/eth_abi/decoding.py:429-583. -/
def Cls.decoderName : Cls → List Char
  | .bool => t!"BooleanDecoder"
  | .uint => t!"UnsignedIntegerDecoder"
  | .int => t!"SignedIntegerDecoder"
  | .ufixed => t!"UnsignedFixedDecoder"
  | .fixed => t!"SignedFixedDecoder"
  | .address => t!"AddressDecoder"
  | .bytesM => t!"BytesDecoder"

/-- The name of a numeric setting.  /repo/eth_abi/encoding.py:165-169,333. -/
def Key.attr : Key → AttrName
  | .valueBitSize => t!"value_bit_size"
  | .dataByteSize => t!"data_byte_size"
  | .fracPlaces => t!"frac_places"
  | .isBigEndian => t!"is_big_endian"
  | .unknown name => name

end EthAbi
