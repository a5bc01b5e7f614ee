import Verif.Suite.Vectors
import Verif.Props.Examples
import Verif.Model.World

/-!
# The model on the project's tests

The cases that the project's tests list, evaluated on the model.  Each `example` carries the test it stands for.  These
are tests of the model, not proofs about it: where the code passes and the model would not, the model would be wrong.
(Tests that draw their cases at random are not here; what they claim is proved as properties.)
-/
namespace EthAbi.Suite
open Spec

attribute [local instance] Ex.ext

mutual
/-- `==` on the values of the vectors: decimals by their value, lists and tuples apart. -/
def same : PyVal → PyVal → Bool
  | .dec (.fin m e), .dec (.fin n f) => decide (m * 10 ^ (e - min e f).toNat = n * 10 ^ (f - min e f).toNat)
  | .list a, .list b => sameAll a b
  | .tuple a, .tuple b => sameAll a b
  | a, b => a.eqb b
/-- `==` on lists of values. -/
def sameAll : List PyVal → List PyVal → Bool
  | [], [] => true
  | a :: as, b :: bs => same a b && sameAll as bs
  | _, _ => false
end

/-- `actual == expected`. -/
def gives (r : PyM PyVal) (v : PyVal) : Bool :=
  match r with
  | .ok w => same w v
  | .error _ => false

/-- `[t.to_type_str() for t in parse(type_str).components]`, for a tuple type without dimensions. -/
def components (s : TypeStr) : List TypeStr :=
  match parse s with
  | .ok (.tuple cs []) => ABIType.toTypeStrs cs
  | _ => []

/-- The vectors that the tests of several types use: those of a tuple type without dimensions. -/
def tuples : List Vector := (staticTuples ++ dynamicTuples).filter fun v => components v.typ ≠ []

/-- `tuple(expected) if isinstance(expected, list) else expected`. -/
def expected : PyVal → PyVal
  | .list vs => .tuple vs
  | v => v

example : tuples.length = 34 ∧ (staticTuples ++ dynamicTuples).length = 35 := by decide +kernel

/-! ## tests/core/abi_tests/test_encode.py -/

/-- `test_abi_encode_for_multiple_types_as_list`: test_encode.py:20-45. -/
example : ∀ v ∈ tuples, encode (components v.typ) v.value = .ok v.abi := by decide +kernel

/-- `test_abi_encode_for_single_static_types`: test_encode.py:48-71. -/
example : ∀ v ∈ staticTuples ++ staticSingles, encode [v.typ] (.list [v.value]) = .ok v.abi := by decide +kernel

/-- `test_abi_encode_for_single_dynamic_types`: test_encode.py:74-89. -/
example : ∀ v ∈ dynamicTuples ++ dynamicSingles, encode [v.typ] (.list [v.value]) = .ok (be32 32 ++ v.abi) := by
  decide +kernel

/-- `test_abi_encode_raises_for_non_list_like_params`: test_encode.py:92-119 (the part on `args`). -/
example : ∀ v ∈ [PyVal.str [], .int 123, .bytes [], .bytes [255], .bytearray [1, 255], .other],
    encode [t!"valid_string_value"] v = .error .typeError := by decide +kernel

/-- `test_abi_encode_raises_for_zero_sized_tuple_types`: test_encode.py:122-139. -/
example : ∀ v ∈ [(t!"()", PyVal.tuple []), (t!"(int,())", .tuple [.int 1, .tuple []]),
      (t!"(int,((),))", .tuple [.int 1, .tuple [.tuple []]]), (t!"(((),),int)", .tuple [.tuple [.tuple []], .int 1]),
      (t!"(((),),int,())", .tuple [.tuple [.tuple []], .int 1, .tuple []]),
      (t!"(int,(),int)", .tuple [.int 1, .tuple [], .int 1])],
    encode [v.1] (.list [v.2]) = .error .valueError := by decide +kernel

/-! ## tests/core/abi_tests/test_decode.py -/

/-- `test_abi_decode_for_multiple_types_as_list`: test_decode.py:22-37. -/
example : ∀ strict ∈ [true, false], ∀ v ∈ tuples,
    gives (decode (components v.typ) (.bytes v.abi) strict) v.value = true := by decide +kernel

/-- `test_abi_decode_for_single_static_types`: test_decode.py:40-49. -/
example : ∀ strict ∈ [true, false], ∀ v ∈ staticTuples ++ staticSingles,
    gives (decode [v.typ] (.bytes v.abi) strict) (.tuple [v.value]) = true := by decide +kernel

/-- `test_abi_decode_for_single_dynamic_types`: test_decode.py:52-71. -/
example : ∀ strict ∈ [true, false], ∀ v ∈ dynamicTuples ++ dynamicSingles,
    gives (decode [v.typ] (.bytes (be32 32 ++ v.abi)) strict) (.tuple [expected v.value]) = true := by decide +kernel

/-- `test_abi_decode_empty_data_raises`: test_decode.py:74-78. -/
example : ∀ strict ∈ [true, false], ∀ data ∈ [PyVal.bytes [], .bytearray []],
    decode [t!"uint"] data strict = .error .insufficientDataBytes := by decide +kernel

/-- `test_abi_decode_wrong_data_param_type_raises`: test_decode.py:81-87. -/
example : ∀ strict ∈ [true, false], ∀ data ∈ [PyVal.str [], .int 123, .list [.bytes [1]], .tuple [.bytes [1]], .other],
    decode [t!"uint32", t!"uint32"] data strict = .error .typeError := by decide +kernel

/-- `test_abi_decode_raises_for_zero_sized_tuple_type`: test_decode.py:112-127. -/
example : ∀ strict ∈ [true, false], ∀ typ ∈ [t!"()[]", t!"()", t!"(int,())", t!"(int,((),))", t!"(int,(),int)"],
    decode [typ] (.bytes [98, 121, 116, 101, 115]) strict = .error .valueError := by decide +kernel

/-- `test_abi_decode_with_shorter_data_than_32_bytes`: test_decode.py:128-198. -/
example : ∀ c ∈ ([
      ([t!"string"], be32 32 ++ be32 17 ++ [110, 111, 32, 112, 97, 100, 100, 105, 110, 103, 32, 110, 101, 101, 100,
        101, 100], .tuple [.str (ofChars t!"no padding needed")]),
      ([t!"bytes"], be32 32 ++ be32 1 ++ [1, 0, 0, 0, 0, 0, 0, 0, 0, 0], .tuple [.bytes [1]]),
      ([t!"uint256", t!"uint256", t!"address", t!"bytes"], be32 0x3050f28c10d7d9b40c ++ be32 0 ++
        be32 0xb5c7ad3cb6506c65da01f2fac2e667dcb9e66e9c ++ be32 128 ++ be32 201 ++
        be32 0x4853d955acef822db058eb8505911ed77f175b99e1531c1a63a169ac75a2daa ++
        be32 0xe399080745fa51de440000000000000000000000000000000000000000000000 ++
        be32 0x3050f28c10d7d9b40c7bc2c873190bbaddefe646c35f1ae6cffbfb402059bd67 ++
        be32 0x74c22486d9f4fab2d448dce4f892a9ae250d0ab87046fbb341d058f17cbc4c11 ++
        be32 0x33f25a20a52f000db63cac384247597756545b500253ff8e607a8020010b0002 ++
        be32 0xf0100000e030c01990966d504030200000569b81152c5a8d35a67b32a4d3772 ++ [121, 93, 150, 202, 228, 218, 1, 1,
        6], .tuple [.int 891276594009425425420, .int 0, .str (ofChars t!"0xb5c7ad3cb6506c65da01f2fac2e667dcb9e66e9c"),
        .bytes [4, 133, 61, 149, 90, 206, 248, 34, 219, 5, 142, 184, 80, 89, 17, 237, 119, 241, 117, 185, 158, 21, 49,
        193, 166, 58, 22, 154, 199, 90, 45, 170, 227, 153, 8, 7, 69, 250, 81, 222, 68, 0, 0, 0, 0, 0, 0, 0, 0, 0, 0, 0,
        0, 0, 0, 0, 0, 0, 0, 0, 0, 0, 0, 0, 48, 80, 242, 140, 16, 215, 217, 180, 12, 123, 194, 200, 115, 25, 11, 186,
        221, 239, 230, 70, 195, 95, 26, 230, 207, 251, 251, 64, 32, 89, 189, 103, 116, 194, 36, 134, 217, 244, 250,
        178, 212, 72, 220, 228, 248, 146, 169, 174, 37, 13, 10, 184, 112, 70, 251, 179, 65, 208, 88, 241, 124, 188, 76,
        17, 51, 242, 90, 32, 165, 47, 0, 13, 182, 60, 172, 56, 66, 71, 89, 119, 86, 84, 91, 80, 2, 83, 255, 142, 96,
        122, 128, 32, 1, 11, 0, 2, 15, 1, 0, 0, 14, 3, 12, 1, 153, 9, 102, 213, 4, 3, 2, 0, 0, 5, 105, 184, 17, 82,
        197, 168, 211, 90, 103, 179, 42, 77, 55, 114, 121, 93, 150, 202, 228, 218, 1, 1, 6]])] : List (List TypeStr × Bytes × PyVal)),
    decode c.1 (.bytes c.2.1) false = .ok c.2.2 ∧ decode c.1 (.bytes c.2.1) = .error .insufficientDataBytes := by
  decide +kernel

/-- `test_decode_nested_dynamic_array_with_invalid_pointer_fails_fast`: test_decode.py:201-249. -/
example : ∀ c ∈ ([
      ([t!"uint256[][][][][][][][][][]"], (List.replicate 10 (be32 32)).flatten ++ List.replicate 2048 0 ++
        List.replicate 8 0),
      ([t!"uint256[][][][][][][][][][][][]"], be32 32 ++ be32 160 ++ (List.replicate 9 (be32 32)).flatten ++
        List.replicate 1024 0),
      ([t!"uint8[]", t!"uint[2]", t!"uint8[]"], be32 96 ++ be32 0 ++ be32 0 ++ be32 160 ++ be32 0 ++ be32 0),
      ([t!"(uint8[2],uint8[])"], be32 32 ++ be32 0 ++ be32 0 ++ be32 32 ++ be32 0),
      ([t!"(uint8[2],uint8[])"], be32 240 ++ be32 0 ++ be32 0 ++ be32 32 ++ be32 0),
      ([t!"uint8[]"], be32 240 ++ be32 0 ++ be32 0 ++ be32 32 ++ be32 0),
      ([t!"(uint8[],uint8[8],uint8[])"], be32 32 ++ be32 288 ++ List.replicate 256 0 ++ be32 352 ++ be32 0 ++ be32 0)] : List (List TypeStr × Bytes)),
    decode c.1 (.bytearray c.2) = .error .invalidPointer := by decide +kernel

/-! ## tests/core/abi_tests/test_is_encodable.py, test_is_encodable_type.py -/

/-- `test_is_encodable_returns_true`: test_is_encodable.py:21-26; test_is_encodable_type.py:11-16. -/
example : ∀ v ∈ staticTuples ++ dynamicTuples ++ staticSingles ++ dynamicSingles,
    isEncodable v.typ v.value = .ok true ∧ isEncodableType v.typ = .ok true := by decide +kernel

/-- `test_is_encodable_returns_false`: test_is_encodable.py:29-34; test_is_encodable_type.py:19-20. -/
example : (∀ v ∈ notEncodable, isEncodable v.1 v.2 = .ok false) ∧ isEncodableType t!"foo" = .ok false := by
  decide +kernel

/-! ## tests/core/packed -/

/-- `test_encode_packed`: test_encode_packed.py:15-27. -/
example : ∀ v ∈ tuples, encodePacked (components v.typ) v.value = .ok v.packed := by decide +kernel

/-- `test_encode_packed_single_types`: test_encode_packed.py:30-36. -/
example : ∀ v ∈ staticTuples ++ dynamicTuples ++ staticSingles ++ dynamicSingles,
    encodePacked [v.typ] (.list [v.value]) = .ok v.packed := by decide +kernel

/-- `test_is_encodable_returns_true`, `test_is_encodable_returns_false`: test_is_encodable_packed.py:21-34. -/
example : (∀ v ∈ staticTuples ++ dynamicTuples ++ staticSingles ++ dynamicSingles,
      isEncodablePacked v.typ v.value = .ok true) ∧
    ∀ v ∈ notEncodable, isEncodablePacked v.1 v.2 = .ok false := by decide +kernel

/-! ## tests/core/grammar.py -/

/-- `parse(type_str) == expected_type`. -/
def parsesTo (s : TypeStr) (a : ABIType) : Bool :=
  match parse s with
  | .ok b => b.pyEq a
  | .error _ => false

/-- `test_parsing_with_parsimonious_grammar_and_node_visitor_works`: grammar.py:26-98.  (Its cases `()` and `(int,(),())` are not what the code does: the parser raises
`ValueError`.  The name of the file `grammar.py` keeps pytest from collecting it.) -/
example : ∀ c ∈ ([
      (t!"custom", .basic t!"custom" (.none) []),
      (t!"Custom", .basic t!"Custom" (.none) []),
      (t!"CUSTOM", .basic t!"CUSTOM" (.none) []),
      (t!"Custom[2]", .basic t!"Custom" (.none) [some 2]),
      (t!"uint", .basic t!"uint" (.none) []),
      (t!"uint256", .basic t!"uint" (.one 256) []),
      (t!"uint256[]", .basic t!"uint" (.one 256) [none]),
      (t!"uint256[][1][23][]", .basic t!"uint" (.one 256) [none, some 1, some 23, none]),
      (t!"uint[]", .basic t!"uint" (.none) [none]),
      (t!"int[2]", .basic t!"int" (.none) [some 2]),
      (t!"fixed128x19", .basic t!"fixed" (.two 128 19) []),
      (t!"ufixed128x19[][]", .basic t!"ufixed" (.two 128 19) [none, none]),
      (t!"(int,ufixed128x19[][])", .tuple [.basic t!"int" (.none) [], .basic t!"ufixed" (.two 128 19) [none,
        none]] []),
      (t!"(int,(address,function))", .tuple [.basic t!"int" (.none) [], .tuple [.basic t!"address" (.none) [],
        .basic t!"function" (.none) []] []] []),
      (t!"((address,(fixed,bool)),(uint256[][1][],fixed128x19))", .tuple [.tuple [.basic t!"address" (.none) [],
        .tuple [.basic t!"fixed" (.none) [], .basic t!"bool" (.none) []] []] [],
        .tuple [.basic t!"uint" (.one 256) [none, some 1, none], .basic t!"fixed" (.two 128 19) []] []] [])] : List (TypeStr × ABIType)),
    parsesTo c.1 c.2 = true := by decide +kernel

/-- `test_normalizing_and_parsing_works`: grammar.py:101-112. -/
example : ∀ c ∈ ([
      (t!"uint", .basic t!"uint" (.one 256) []),
      (t!"uint256[]", .basic t!"uint" (.one 256) [none]),
      (t!"function", .basic t!"bytes" (.one 24) []),
      (t!"fixed", .basic t!"fixed" (.two 128 18) []),
      (t!"ufixed", .basic t!"ufixed" (.two 128 18) [])] : List (TypeStr × ABIType)),
    parsesTo (normalize c.1) c.2 = true := by decide +kernel

/-- The two cases that are not what the code does. -/
example : ∀ s ∈ [t!"()", t!"(int,(),())"], (parse s).map (·.toTypeStr) = .error .valueError := by decide +kernel

/-- The examples of `test_parsing_invalid_type_str_causes_parse_error`: grammar.py:115-130. -/
example : ∀ s ∈ [t!"int0", t!"fixed128x0", t!"ufixed128x0", t!"int!", t!"(int, bool)", t!"(int,bool,)",
        t!"(int,(address,uint256[][])"],
    (parse s).map (·.toTypeStr) = .error .parseError := by decide +kernel

/-- `test_invalid_abi_types`: grammar.py:143-190. -/
example : ∀ s ∈ [t!"string1x1", t!"string33", t!"bytes1x1", t!"bytes33", t!"int", t!"int7", t!"int257", t!"int9", t!"uint",
        t!"uint7", t!"uint257", t!"uint9", t!"fixed", t!"fixed8", t!"fixed7x19", t!"fixed257x19", t!"fixed17x19",
        t!"fixed128x81", t!"ufixed", t!"ufixed8", t!"ufixed7x19", t!"ufixed257x19", t!"ufixed17x19", t!"ufixed128x81",
        t!"hash", t!"hash128x128", t!"address128", t!"address128x128", t!"(int256,(address,(ufixed7x19,fixed)))",
        t!"(int256,(address,(ufixed128x19,fixed)))"],
    (parse s >>= fun a => a.validate) = .error .abiTypeError := by decide +kernel

/-- `test_valid_abi_types`: grammar.py:193-208. -/
example : ∀ s ∈ [t!"string", t!"bytes24", t!"int256", t!"uint128", t!"fixed128x19", t!"ufixed256x19", t!"hash256", t!"address",
        t!"(int256,(address,(ufixed128x19,fixed128x19)))"],
    (parse s >>= fun a => a.validate) = .ok () := by decide +kernel

/-- `test_normalize`: grammar.py:211-220. -/
example : (∀ c ∈ typeAliases, normalize c.1 = c.2) ∧
    normalize t!"(int,uint,fixed,ufixed)" = t!"(int256,uint256,fixed128x18,ufixed128x18)" ∧
    normalize t!"(function,function,(function,byte))" = t!"(bytes24,bytes24,(bytes24,bytes1))" := by decide +kernel

/-- `test_basic_type_item_type_throws_errors`: grammar.py:223-228. -/
example : (parse t!"int256" >>= fun a => a.itemType.map (·.toTypeStr)) = .error .valueError := by decide +kernel

/-- `test_abi_type_dynamic_types`: grammar.py:231-246. -/
example : ∀ s ∈ [t!"string", t!"bytes", t!"Custom[]", t!"(bool,Custom[])[2]", t!"int[]", t!"int[][2]",
        t!"((int[][2],bool),int)", t!"(bool,bool)[][2]"],
    (parse s).map (·.isDynamic) = .ok true := by decide +kernel

/-- `test_abi_type_static_types`: grammar.py:249-262. -/
example : ∀ s ∈ [t!"bytes2", t!"Custom", t!"int[2]", t!"int[2][2]", t!"((int[2][2],bool),int)", t!"(bool,bool)[1][2]"],
    (parse s).map (·.isDynamic) = .ok false := by decide +kernel

/-- `test_abi_type_has_dynamic_arrlist`: grammar.py:265-276. -/
example : ∀ s ∈ [t!"bytes[][2]", t!"bytes[]", t!"(bool,bool)[][2]", t!"(bool,bool)[]"],
    (parse s).map (·.hasDynamicArrlist) = .ok true := by decide +kernel

/-- `test_abi_type_lacks_dynamic_arrlist`: grammar.py:279-290. -/
example : ∀ s ∈ [t!"bytes[2][2]", t!"bytes", t!"string", t!"(int[],bool)"],
    (parse s).map (·.hasDynamicArrlist) = .ok false := by decide +kernel

/-- `test_abi_type_is_array`: grammar.py:293-305. -/
example : ∀ s ∈ [t!"bytes[2]", t!"Custom[2]", t!"bytes[][]", t!"(int[],bool)[]", t!"(int[],bool)[][2]"],
    (parse s).map (·.isArray) = .ok true := by decide +kernel

/-- `test_abi_type_is_not_array`: grammar.py:308-319. -/
example : ∀ s ∈ [t!"Custom", t!"bytes", t!"bytes2", t!"(int[],bool)"],
    (parse s).map (·.isArray) = .ok false := by decide +kernel

/-! ## tests/core/utils -/

/-- `test_abbr`, `test_abbr_throws_value_errors`: test_abbr.py:8-37, given the `repr`s. -/
example : abbr t!"1234567891234567891" = .ok t!"1234567891234567891" ∧
    abbr (t!"'" ++ (List.replicate 30 t!"asdf").flatten ++ t!"'") =
      .ok (t!"'" ++ (List.replicate 18 t!"asdf").flatten ++ t!"asd...") ∧
    abbr t!"1234567891234567891" 3 = .ok t!"..." ∧ abbr t!"1234567891234567891" 4 = .ok t!"1..." ∧
    abbr t!"'asdf'" 2 = .error .valueError := by decide +kernel

/-- `test_validate_bytes_param`, `test_validate_bytes_param_raises_for_non_bytes_types`:
test_validation_utils.py:9-40. -/
example : (∀ b ∈ [[], [0], List.replicate 32 255],
      validateBytesParam (.bytes b) = .ok b ∧ validateBytesParam (.bytearray b) = .ok b) ∧
    ∀ v ∈ [PyVal.str [], .int 123, .list [.bytes [1]], .other, .tuple [.bytes [1]]],
      validateBytesParam v = .error .typeError := by decide +kernel

/-- `test_validate_list_like_param` and the test after it: test_validation_utils.py:43-70. -/
example : (∀ v ∈ [PyVal.list [.int 1, .int 2], .tuple [.int 1, .int 2], .list [.str (ofChars t!"1"), .int 2], .list [],
      .tuple []], validateListLikeParam v = .ok ()) ∧
    ∀ v ∈ [PyVal.str [], .int 123, .bytes [], .bytes [255], .bytearray [1, 255], .other],
      validateListLikeParam v = .error .typeError := by decide +kernel

/-! ## tests/core/decoding/test_context_frames_bytes_io.py -/

/-- `test_pushing_and_popping_frames`: test_context_frames_bytes_io.py:30-49. -/
example : (do
    let s := (List.range 100).map UInt8.ofNat
    let st ← (Stream.init s).pushFrame 5
    let (a, st) ← st.read 5
    let st ← st.seekInFrame 1
    let (b, st) ← st.read 1
    let st ← st.seekInFrame 5
    let st ← st.pushFrame 2
    let (c, st) ← st.read 5
    let st ← st.seekInFrame 2
    let (d, st) ← st.read 1
    let st ← st.popFrame
    let (e, st) ← st.read 5
    let st ← st.popFrame
    let (f, st) ← st.read 5
    let g : Bool := match st.popFrame with
      | .error .indexError => true
      | _ => false
    return ([a, b, c, d, e, f], g) : PyM (List Bytes × Bool)) =
    .ok ([[5, 6, 7, 8, 9], [6], [7, 8, 9, 10, 11], [9], [10, 11, 12, 13, 14], [0, 1, 2, 3, 4]], true) := by
  decide +kernel

/-! ## tests/core/registry/test_predicate_mapping.py -/

/-- `Equals("foo")` and `Equals("bar")`. -/
def equalsFoo : Pred := ⟨0, .equals t!"foo"⟩
/-- `Equals("bar")`. -/
def equalsBar : Pred := ⟨1, .equals t!"bar"⟩

/-- A mapping with the two matchers. -/
def fooBar : Mapping Nat := ((Mapping.empty.add equalsFoo 1 none).2.add equalsBar 2 none).2

/-- `test_can_add_predicates_and_find_corresponding_values`, `test_cannot_add_same_predicate_twice`,
`test_no_matching_predicates_should_raise_error`: test_predicate_mapping.py:22-59. -/
example : fooBar.find t!"foo" = .ok 1 ∧ fooBar.find t!"bar" = .ok 2 ∧
    (fooBar.add equalsFoo 3 none).1 = .error .valueError ∧ fooBar.find t!"baz" = .error .noEntriesFound := by
  decide +kernel

/-- `test_cannot_add_two_predicates_with_same_label`: test_predicate_mapping.py:43-49. -/
example : (((Mapping.empty : Mapping Nat).add equalsFoo 1 (some t!"some label")).2.add equalsBar 2
    (some t!"some label")).1 = .error .valueError := by decide +kernel

/-- `test_multiple_matching_predicates_should_raise_error`: test_predicate_mapping.py:62-71. -/
example : (((Mapping.empty : Mapping Nat).add ⟨2, .equals t!"baz"⟩ 1 none).2.add
    ⟨3, .user 0 fun s => .ok (s == t!"baz")⟩ 2 none).2.find t!"baz" = .error .multipleEntriesFound := by decide +kernel

/-- `test_can_remove_predicates_by_reference`, `test_removing_non_existent_predicate_raises_error`,
`test_removing_non_existent_label_raises_error`: test_predicate_mapping.py:74-86,112-114. -/
example : (fooBar.removeByEquality equalsFoo).2.find t!"foo" = .error .noEntriesFound ∧
    ((Mapping.empty : Mapping Nat).removeByEquality equalsFoo).1 = .error .keyError ∧
    ((Mapping.empty : Mapping Nat).removeByLabel t!"asdf").1 = .error .keyError := by decide +kernel

/-- `test_removing_labeled_predicate_by_reference_also_removes_label`,
`test_can_remove_predicates_by_label_if_label_was_given`: test_predicate_mapping.py:89-109. -/
example : let m : Mapping Nat := (Mapping.empty.add equalsFoo 1 (some t!"foo label")).2
    (m.removeByEquality equalsFoo).2.values.length = 0 ∧ (m.removeByEquality equalsFoo).2.labels.length = 0 ∧
    m.find t!"foo" = .ok 1 ∧ (m.removeByLabel t!"foo label").2.find t!"foo" = .error .noEntriesFound := by
  decide +kernel

/-- `test_removing_unsupported_type_raises_error`: test_predicate_mapping.py:117-121. -/
example : (fooBar.unregister .other).1 = .error .typeError := by decide +kernel

/-! ## tests/core/registry/test_predicates.py -/

/-- Some of the strings that `test_base_equals_has_expected_behavior_for_parsable_types` and the tests after it draw:
test_predicates.py:49-151. -/
example :
    let is (w : Option Bool) (s : TypeStr) := (⟨0, .baseEquals t!"int" w⟩ : Pred).matches s
    (∀ s ∈ [t!"(int,int8)", t!"int[]", t!"int8[2]", t!"uint8", t!"int!", t!"int[", t!"()"], ∀ w ∈ [none, some true,
      some false], is w s = .ok false) ∧
    is none t!"int" = .ok true ∧ is (some false) t!"int" = .ok true ∧ is (some true) t!"int" = .ok false ∧
    is none t!"int8" = .ok true ∧ is (some false) t!"int8" = .ok false ∧ is (some true) t!"int8" = .ok true := by
  decide +kernel

/-! ## tests/core/registry/test_abi_registry.py -/

/-- The exception of a call. -/
def raised {α : Type} : PyM α → Option Exc
  | .ok _ => none
  | .error e => some e

/-- `BaseEquals("address")`. -/
def isAddressBase : LookupArg := .pred ⟨1, .baseEquals t!"address" none⟩

/-- `BaseEquals("address", with_sub=False)`. -/
def isAddressNoSub : LookupArg := .pred ⟨2, .baseEquals t!"address" (some false)⟩

/-- `AddressEncoder` and `AddressDecoder`, as they are registered by default. -/
def addressReg : Option (Reg Encoder × Reg Decoder) :=
  match defaultRegistry.encoders.find t!"address", defaultRegistry.decoders.find t!"address" with
  | .ok e, .ok d => some (e, d)
  | _, _ => none

/-- The fixture `registry`, without the abstract array coders, which the tests do not call; `address` has been looked
up, so that it is in the cache. -/
def fixture : World :=
  match addressReg with
  | none => World.empty
  | some (e, d) => World.empty.run [(9, .new), (9, .register 0 isAddressBase e d (some t!"address")),
      (9, .getEncoder 0 t!"address"), (9, .getDecoder 0 t!"address" .absent)]

/-- The encoder and the decoder of `address`. -/
def lookAddress (w : World) : Option Exc × Option Exc :=
  (raised (w.getEncoder 9 0 t!"address").1, raised (w.getDecoder 9 0 t!"address" .absent).1)

/-- The fixture works. -/
example : addressReg.isSome = true ∧ lookAddress fixture = (none, none) := by decide +kernel

/-- `test_cache_resets_after_register_and_register_works`, `test_has_encoder_raises`: test_abi_registry.py:69-87,
177-189. -/
example : (match addressReg with
    | none => false
    | some (e, d) =>
      let w := fixture.run [(9, .register 0 isAddressNoSub e d (some t!"address without sub"))]
      decide (lookAddress w = (some .multipleEntriesFound, some .multipleEntriesFound) ∧
        (w.hasEncoder 9 0 t!"address").1 = .error .multipleEntriesFound)) = true := by decide +kernel

/-- `test_cache_resets_after_unregister_and_unregister_works`, `test_can_unregister_by_equality`:
test_abi_registry.py:90-103,134-141. -/
example : ∀ l ∈ [LookupArg.str t!"address" 3, isAddressBase],
    lookAddress (fixture.run [(9, .unregister 0 l)]) = (some .noEntriesFound, some .noEntriesFound) := by
  intro l hl
  simp only [List.mem_cons, List.not_mem_nil, or_false] at hl
  rcases hl with rfl | rfl <;> decide +kernel

/-- `test_registry_should_reject_unknown_types`, `test_unregister_unknown_lookups`,
`test_looking_up_unparsable_type_causes_error`, `test_has_encoder_returns_true`, `test_has_encoder_returns_false`:
test_abi_registry.py:126-131,155-164,173-174,192-194. -/
example : (fixture.register 0 .other (.obj ⟨none, none, fun _ => .ok []⟩) (.obj (byteStringDecoder (.shared 0)))
      none).1 = .error .typeError ∧
    (fixture.unregister 0 .other).1 = .error .typeError ∧
    (fixture.unregister 0 (.pred ⟨9, .user 9 fun _ => .ok true⟩)).1 = .error .keyError ∧
    (fixture.unregister 0 (.str t!"foo" 9)).1 = .error .keyError ∧
    raised (fixture.getEncoder 9 0 t!"uint[]256").1 = some .parseError ∧
    (fixture.hasEncoder 9 0 t!"address").1 = .ok true ∧ (fixture.hasEncoder 9 0 t!"foo").1 = .ok false := by
  decide +kernel

/-! ## tests/core/end_to_end/test_custom_registrations.py -/

/-- `encode_null`: test_custom_registrations.py:23-27. -/
def encodeNull : Encoder :=
  ⟨none, none, fun v => match v with
    | .none => .ok (List.replicate 32 0)
    | _ => .error .encodingError⟩

/-- `decode_null`: test_custom_registrations.py:30-34. -/
def decodeNull : Decoder :=
  { isDynamic := none, isHeadTail := false, arraySize := none, strict := .shared 0
    run := fun _ _ st => do
      let (b, st) ← st.read 32
      if b = List.replicate 32 0 then return (.none, st) else throw .decodingError }

/-- `test_register_and_use_callables`: test_custom_registrations.py:69-86. -/
example :
    let w := World.imported.run [(9, .register 0 (.str t!"null" 90) (.obj encodeNull) (.obj decodeNull) none)]
    (w.encode 9 0 [t!"null"] (.list [.none])).1 = .ok (be32 0) ∧
    (w.decode 9 0 [t!"null"] (.bytes (be32 0)) true).1 = .ok (.tuple [.none]) ∧
    (w.encode 9 0 [t!"(int,null)"] (.list [.tuple [.int 1, .none]])).1 = .ok (be32 1 ++ be32 0) ∧
    (w.decode 9 0 [t!"(int,null)"] (.bytes (be32 1 ++ be32 0)) true).1 = .ok (.tuple [.tuple [.int 1, .none]]) := by
  decide +kernel

/-- `type_str[4:]` as a number, for the classes below. -/
def widthOf (s : TypeStr) : Nat := natOfDigits (s.drop 4)

/-- `EncodeNull`: test_custom_registrations.py:37-52. -/
def encodeNulls (n : Nat) : Encoder :=
  { isDynamic := some false
    validate := some fun v => match v with
      | .none => .ok ()
      | _ => .error .encodingError
    call := fun v => match v with
      | .none => .ok (List.replicate (32 * n) 0)
      | _ => .error .encodingError }

/-- `DecodeNull`: test_custom_registrations.py:55-66. -/
def decodeNulls (n : Nat) : Decoder :=
  { isDynamic := some false, isHeadTail := false, arraySize := none, strict := .own true
    run := fun _ _ st => do
      let (b, st) ← st.read (32 * n)
      if b = List.replicate (32 * n) 0 then return (.none, st) else throw .decodingError }

/-- `test_register_and_use_coder_classes`: test_custom_registrations.py:89-107. -/
example :
    let w := World.imported.run [(9, .register 0 (.pred ⟨90, .user 0 fun s => .ok (t!"null".isPrefixOf s)⟩)
      (.cls fun s => .ret (.ok (encodeNulls (widthOf s)))) (.cls fun s => .ret (.ok (decodeNulls (widthOf s))))
      (some t!"null"))]
    (w.encode 9 0 [t!"null2"] (.list [.none])).1 = .ok (be32 0 ++ be32 0) ∧
    (w.decode 9 0 [t!"null2"] (.bytes (be32 0 ++ be32 0)) true).1 = .ok (.tuple [.none]) ∧
    (w.encode 9 0 [t!"(int,null2)"] (.list [.tuple [.int 1, .none]])).1 = .ok (be32 1 ++ be32 0 ++ be32 0) ∧
    (w.decode 9 0 [t!"(int,null2)"] (.bytes (be32 1 ++ be32 0 ++ be32 0)) true).1 =
      .ok (.tuple [.tuple [.int 1, .none]]) := by
  decide +kernel

end EthAbi.Suite
