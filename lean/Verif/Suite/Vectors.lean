import Verif.Lemmas.Api

/-!
# The test vectors of the project

The vectors of /repo/tests/core/common/unit.py, transcribed by a script from the text of that file.  They are no proof
of anything; `Verif/Suite/Checks.lean` evaluates the model on them, as the project's tests evaluate the code, to show
that the model is a model of this code.
-/
namespace EthAbi.Suite
open Spec

/-- A vector: type string, Python value, ABI encoding, packed encoding. -/
structure Vector where
  typ : TypeStr
  value : PyVal
  abi : Bytes
  packed : Bytes

/-- `CORRECT_STATIC_TUPLE_ENCODINGS`: /repo/tests/core/common/unit.py:71-113. -/
def staticTuples : List Vector :=
  [
    ⟨t!"(uint32)", .tuple [.int 6], (be32 6), [0, 0, 0, 6]⟩,
    ⟨t!"(uint32,uint32)", .tuple [.int 4294967295, .int 4294967295], (be32 4294967295 ++ be32 4294967295), [255, 255,
      255, 255, 255, 255, 255, 255]⟩,
    ⟨t!"(bytes32,bytes32)", .tuple [.bytes (be32 0x6100000000000000000000000000000000000000000000000000000000000000),
      .bytes (be32 0x6200000000000000000000000000000000000000000000000000000000000000)],
      (be32 0x6100000000000000000000000000000000000000000000000000000000000000 ++
      be32 0x6200000000000000000000000000000000000000000000000000000000000000),
      (be32 0x6100000000000000000000000000000000000000000000000000000000000000 ++
      be32 0x6200000000000000000000000000000000000000000000000000000000000000)⟩,
    ⟨t!"(address,uint32,bytes32,int32)", .tuple [.str (ofChars t!"0x82a978b3f5962a5b0957d9ee9eef472ee55b42f1"),
      .int 1, .bytes (be32 0x7374757069642070696e6b20616e696d616c0000000000000000000000000000), .int 0],
      (be32 0x82a978b3f5962a5b0957d9ee9eef472ee55b42f1 ++ be32 1 ++
      be32 0x7374757069642070696e6b20616e696d616c0000000000000000000000000000 ++ be32 0), [130, 169, 120, 179, 245,
      150, 42, 91, 9, 87, 217, 238, 158, 239, 71, 46, 229, 91, 66, 241, 0, 0, 0, 1, 115, 116, 117, 112, 105, 100, 32,
      112, 105, 110, 107, 32, 97, 110, 105, 109, 97, 108, 0, 0, 0, 0, 0, 0, 0, 0, 0, 0, 0, 0, 0, 0, 0, 0, 0, 0]⟩]

/-- `CORRECT_DYNAMIC_TUPLE_ENCODINGS`: /repo/tests/core/common/unit.py:115-391. -/
def dynamicTuples : List Vector :=
  [
    ⟨t!"(string[])", .tuple [.tuple []], (be32 32 ++ be32 0), []⟩,
    ⟨t!"(bytes[])", .tuple [.tuple []], (be32 32 ++ be32 0), []⟩,
    ⟨t!"(bytes32[])", .tuple [.tuple []], (be32 32 ++ be32 0), []⟩,
    ⟨t!"(address[])", .tuple [.tuple []], (be32 32 ++ be32 0), []⟩,
    ⟨t!"(int[])", .tuple [.tuple []], (be32 32 ++ be32 0), []⟩,
    ⟨t!"(uint[])", .tuple [.tuple []], (be32 32 ++ be32 0), []⟩,
    ⟨t!"(uint8[])", .tuple [.tuple []], (be32 32 ++ be32 0), []⟩,
    ⟨t!"(uint256[])", .tuple [.tuple []], (be32 32 ++ be32 0), []⟩,
    ⟨t!"((string[]))", .tuple [.tuple [.tuple []]], (be32 32 ++ be32 32 ++ be32 0), []⟩,
    ⟨t!"((bytes[]))", .tuple [.tuple [.tuple []]], (be32 32 ++ be32 32 ++ be32 0), []⟩,
    ⟨t!"((bytes32[]))", .tuple [.tuple [.tuple []]], (be32 32 ++ be32 32 ++ be32 0), []⟩,
    ⟨t!"((address[]))", .tuple [.tuple [.tuple []]], (be32 32 ++ be32 32 ++ be32 0), []⟩,
    ⟨t!"((int[]))", .tuple [.tuple [.tuple []]], (be32 32 ++ be32 32 ++ be32 0), []⟩,
    ⟨t!"((uint8[]))", .tuple [.tuple [.tuple []]], (be32 32 ++ be32 32 ++ be32 0), []⟩,
    ⟨t!"((uint256[]))", .tuple [.tuple [.tuple []]], (be32 32 ++ be32 32 ++ be32 0), []⟩,
    ⟨t!"(((string[])))", .tuple [.tuple [.tuple [.tuple []]]], (be32 32 ++ be32 32 ++ be32 32 ++ be32 0), []⟩,
    ⟨t!"(((bytes[])))", .tuple [.tuple [.tuple [.tuple []]]], (be32 32 ++ be32 32 ++ be32 32 ++ be32 0), []⟩,
    ⟨t!"(((bytes32[])))", .tuple [.tuple [.tuple [.tuple []]]], (be32 32 ++ be32 32 ++ be32 32 ++ be32 0), []⟩,
    ⟨t!"(((address[])))", .tuple [.tuple [.tuple [.tuple []]]], (be32 32 ++ be32 32 ++ be32 32 ++ be32 0), []⟩,
    ⟨t!"(((int[])))", .tuple [.tuple [.tuple [.tuple []]]], (be32 32 ++ be32 32 ++ be32 32 ++ be32 0), []⟩,
    ⟨t!"(((uint8[])))", .tuple [.tuple [.tuple [.tuple []]]], (be32 32 ++ be32 32 ++ be32 32 ++ be32 0), []⟩,
    ⟨t!"(((uint256[])))", .tuple [.tuple [.tuple [.tuple []]]], (be32 32 ++ be32 32 ++ be32 32 ++ be32 0), []⟩,
    ⟨t!"(bytes32[])",
      .tuple [.tuple [.bytes (be32 0x6100000000000000000000000000000000000000000000000000000000000000),
      .bytes (be32 0x6200000000000000000000000000000000000000000000000000000000000000)]], (be32 32 ++ be32 2 ++
      be32 0x6100000000000000000000000000000000000000000000000000000000000000 ++
      be32 0x6200000000000000000000000000000000000000000000000000000000000000),
      (be32 0x6100000000000000000000000000000000000000000000000000000000000000 ++
      be32 0x6200000000000000000000000000000000000000000000000000000000000000)⟩,
    ⟨t!"(uint256,bytes)", .tuple [.int 0, .bytes []], (be32 0 ++ be32 64 ++ be32 0), (be32 0)⟩,
    ⟨t!"(int,(int,int[]))", .tuple [.int 1, .tuple [.int 2, .tuple [.int 3, .int 3]]], (be32 1 ++ be32 64 ++
      be32 2 ++ be32 64 ++ be32 2 ++ be32 3 ++ be32 3), (be32 1 ++ be32 2 ++ be32 3 ++ be32 3)⟩,
    ⟨t!"((int[],int),int)", .tuple [.tuple [.tuple [.int 1, .int 1], .int 2], .int 3], (be32 64 ++ be32 3 ++
      be32 64 ++ be32 2 ++ be32 2 ++ be32 1 ++ be32 1), (be32 1 ++ be32 1 ++ be32 2 ++ be32 3)⟩,
    ⟨t!"((bytes,bool),(bytes,bool))", .tuple [.tuple [.bytes [100, 97, 118, 105, 100, 32, 97, 116, 116, 101, 110, 98,
      111, 114, 111, 117, 103, 104], .bool false], .tuple [.bytes [98, 111, 97, 116, 121, 32, 109, 99, 98, 111, 97,
      116, 102, 97, 99, 101], .bool true]], (be32 64 ++ be32 192 ++ be32 64 ++ be32 0 ++ be32 18 ++
      be32 0x646176696420617474656e626f726f7567680000000000000000000000000000 ++ be32 64 ++ be32 1 ++ be32 16 ++
      be32 0x626f617479206d63626f61746661636500000000000000000000000000000000), [100, 97, 118, 105, 100, 32, 97, 116,
      116, 101, 110, 98, 111, 114, 111, 117, 103, 104, 0, 98, 111, 97, 116, 121, 32, 109, 99, 98, 111, 97, 116, 102,
      97, 99, 101, 1]⟩,
    ⟨t!"((int,int)[])", .tuple [.tuple [.tuple [.int 1, .int 2], .tuple [.int 3, .int 4]]], (be32 32 ++ be32 2 ++
      be32 1 ++ be32 2 ++ be32 3 ++ be32 4), (be32 1 ++ be32 2 ++ be32 3 ++ be32 4)⟩,
    ⟨t!"((int,int[],(int,int)[]),(int,int),int)", .tuple [.tuple [.int 1, .tuple [.int 2, .int 3],
      .tuple [.tuple [.int 4, .int 5], .tuple [.int 6, .int 7]]], .tuple [.int 8, .int 9], .int 10], (be32 128 ++
      be32 8 ++ be32 9 ++ be32 10 ++ be32 1 ++ be32 96 ++ be32 192 ++ be32 2 ++ be32 2 ++ be32 3 ++ be32 2 ++ be32 4 ++
      be32 5 ++ be32 6 ++ be32 7), (be32 1 ++ be32 2 ++ be32 3 ++ be32 4 ++ be32 5 ++ be32 6 ++ be32 7 ++ be32 8 ++
      be32 9 ++ be32 10)⟩,
    ⟨t!"(int,int)[][]", .tuple [.tuple [.tuple [.int 1, .int 2]], .tuple [.tuple [.int 3, .int 4], .tuple [.int 5,
      .int 6]], .tuple [.tuple [.int 7, .int 8], .tuple [.int 9, .int 10], .tuple [.int 11, .int 12]]], (be32 3 ++
      be32 96 ++ be32 192 ++ be32 352 ++ be32 1 ++ be32 1 ++ be32 2 ++ be32 2 ++ be32 3 ++ be32 4 ++ be32 5 ++
      be32 6 ++ be32 3 ++ be32 7 ++ be32 8 ++ be32 9 ++ be32 10 ++ be32 11 ++ be32 12), (be32 1 ++ be32 2 ++ be32 3 ++
      be32 4 ++ be32 5 ++ be32 6 ++ be32 7 ++ be32 8 ++ be32 9 ++ be32 10 ++ be32 11 ++ be32 12)⟩,
    ⟨t!"((int,int)[][2])", .tuple [.tuple [.tuple [.tuple [.int 1, .int 2], .tuple [.int 3, .int 4]],
      .tuple [.tuple [.int 5, .int 6], .tuple [.int 7, .int 8], .tuple [.int 9, .int 10]]]], (be32 32 ++ be32 64 ++
      be32 224 ++ be32 2 ++ be32 1 ++ be32 2 ++ be32 3 ++ be32 4 ++ be32 3 ++ be32 5 ++ be32 6 ++ be32 7 ++ be32 8 ++
      be32 9 ++ be32 10), (be32 1 ++ be32 2 ++ be32 3 ++ be32 4 ++ be32 5 ++ be32 6 ++ be32 7 ++ be32 8 ++ be32 9 ++
      be32 10)⟩]

/-- `CORRECT_STATIC_SINGLE_ENCODINGS`: /repo/tests/core/common/unit.py:397-515. -/
def staticSingles : List Vector :=
  [
    ⟨t!"uint8", .int 255, (be32 255), [255]⟩,
    ⟨t!"uint8", .int 21, (be32 21), [21]⟩,
    ⟨t!"uint8", .int 1, (be32 1), [1]⟩,
    ⟨t!"uint256", .int 115792089237316195423570985008687907853269984665640564039457584007913129639935,
      (be32 0xffffffffffffffffffffffffffffffffffffffffffffffffffffffffffffffff),
      (be32 0xffffffffffffffffffffffffffffffffffffffffffffffffffffffffffffffff)⟩,
    ⟨t!"uint256", .int 115792089237316195423570985008687907853269984665640564039457584007913129639836,
      (be32 0xffffffffffffffffffffffffffffffffffffffffffffffffffffffffffffff9c),
      (be32 0xffffffffffffffffffffffffffffffffffffffffffffffffffffffffffffff9c)⟩,
    ⟨t!"uint256", .int 21, (be32 21), (be32 21)⟩,
    ⟨t!"uint256", .int 1, (be32 1), (be32 1)⟩,
    ⟨t!"int8", .int 21, (be32 21), [21]⟩,
    ⟨t!"int8", .int 1, (be32 1), [1]⟩,
    ⟨t!"int8", .int (-1), (be32 0xffffffffffffffffffffffffffffffffffffffffffffffffffffffffffffffff), [255]⟩,
    ⟨t!"int8", .int (-100), (be32 0xffffffffffffffffffffffffffffffffffffffffffffffffffffffffffffff9c), [156]⟩,
    ⟨t!"int256", .int 21, (be32 21), (be32 21)⟩,
    ⟨t!"int256", .int 1, (be32 1), (be32 1)⟩,
    ⟨t!"int256", .int (-1), (be32 0xffffffffffffffffffffffffffffffffffffffffffffffffffffffffffffffff),
      (be32 0xffffffffffffffffffffffffffffffffffffffffffffffffffffffffffffffff)⟩,
    ⟨t!"int256", .int (-100), (be32 0xffffffffffffffffffffffffffffffffffffffffffffffffffffffffffffff9c),
      (be32 0xffffffffffffffffffffffffffffffffffffffffffffffffffffffffffffff9c)⟩,
    ⟨t!"address", .str (ofChars t!"0x0000000000000000000000000000000000000000"), (be32 0), [0, 0, 0, 0, 0, 0, 0, 0,
      0, 0, 0, 0, 0, 0, 0, 0, 0, 0, 0, 0]⟩,
    ⟨t!"address", .str (ofChars t!"0xd3cda913deb6f67967b99d67acdfa1712c293601"),
      (be32 0xd3cda913deb6f67967b99d67acdfa1712c293601), [211, 205, 169, 19, 222, 182, 246, 121, 103, 185, 157, 103,
      172, 223, 161, 113, 44, 41, 54, 1]⟩,
    ⟨t!"address", .str (ofChars t!"0x0005c901078781c232a2a521c2af7980f8385ee9"),
      (be32 0x5c901078781c232a2a521c2af7980f8385ee9), [0, 5, 201, 1, 7, 135, 129, 194, 50, 162, 165, 33, 194, 175, 121,
      128, 248, 56, 94, 233]⟩,
    ⟨t!"address", .str (ofChars t!"0x5c901078781c232a2a521c2af7980f8385ee9000"),
      (be32 0x5c901078781c232a2a521c2af7980f8385ee9000), [92, 144, 16, 120, 120, 28, 35, 42, 42, 82, 28, 42, 247, 152,
      15, 131, 133, 238, 144, 0]⟩,
    ⟨t!"uint", .int 115792089237316195423570985008687907853269984665640564039457584007913129639935,
      (be32 0xffffffffffffffffffffffffffffffffffffffffffffffffffffffffffffffff),
      (be32 0xffffffffffffffffffffffffffffffffffffffffffffffffffffffffffffffff)⟩,
    ⟨t!"uint", .int 115792089237316195423570985008687907853269984665640564039457584007913129639836,
      (be32 0xffffffffffffffffffffffffffffffffffffffffffffffffffffffffffffff9c),
      (be32 0xffffffffffffffffffffffffffffffffffffffffffffffffffffffffffffff9c)⟩,
    ⟨t!"uint", .int 21, (be32 21), (be32 21)⟩,
    ⟨t!"uint", .int 1, (be32 1), (be32 1)⟩,
    ⟨t!"int", .int 21, (be32 21), (be32 21)⟩,
    ⟨t!"int", .int 1, (be32 1), (be32 1)⟩,
    ⟨t!"int", .int (-1), (be32 0xffffffffffffffffffffffffffffffffffffffffffffffffffffffffffffffff),
      (be32 0xffffffffffffffffffffffffffffffffffffffffffffffffffffffffffffffff)⟩,
    ⟨t!"int", .int (-100), (be32 0xffffffffffffffffffffffffffffffffffffffffffffffffffffffffffffff9c),
      (be32 0xffffffffffffffffffffffffffffffffffffffffffffffffffffffffffffff9c)⟩,
    ⟨t!"bool", .bool true, (be32 1), [1]⟩,
    ⟨t!"bool", .bool false, (be32 0), [0]⟩,
    ⟨t!"fixed8x1", .dec (.fin (127) (-1)), (be32 127), [127]⟩,
    ⟨t!"fixed8x1", .dec (.fin (1) (-1)), (be32 1), [1]⟩,
    ⟨t!"fixed8x1", .dec (.fin (0) (0)), (be32 0), [0]⟩,
    ⟨t!"fixed8x1", .dec (.fin (-1) (-1)), (be32 0xffffffffffffffffffffffffffffffffffffffffffffffffffffffffffffffff),
      [255]⟩,
    ⟨t!"fixed8x1", .dec (.fin (-128) (-1)),
      (be32 0xffffffffffffffffffffffffffffffffffffffffffffffffffffffffffffff80), [128]⟩,
    ⟨t!"fixed128x18", .dec (.fin (127) (-18)), (be32 127), [0, 0, 0, 0, 0, 0, 0, 0, 0, 0, 0, 0, 0, 0, 0, 127]⟩,
    ⟨t!"fixed128x18", .dec (.fin (1) (-18)), (be32 1), [0, 0, 0, 0, 0, 0, 0, 0, 0, 0, 0, 0, 0, 0, 0, 1]⟩,
    ⟨t!"fixed128x18", .dec (.fin (0) (0)), (be32 0), [0, 0, 0, 0, 0, 0, 0, 0, 0, 0, 0, 0, 0, 0, 0, 0]⟩,
    ⟨t!"fixed128x18", .dec (.fin (-1) (-18)),
      (be32 0xffffffffffffffffffffffffffffffffffffffffffffffffffffffffffffffff), [255, 255, 255, 255, 255, 255, 255,
      255, 255, 255, 255, 255, 255, 255, 255, 255]⟩,
    ⟨t!"fixed128x18", .dec (.fin (-128) (-18)),
      (be32 0xffffffffffffffffffffffffffffffffffffffffffffffffffffffffffffff80), [255, 255, 255, 255, 255, 255, 255,
      255, 255, 255, 255, 255, 255, 255, 255, 128]⟩,
    ⟨t!"fixed256x80", .dec (.fin (127) (-80)), (be32 127), (be32 127)⟩,
    ⟨t!"fixed256x80", .dec (.fin (1) (-80)), (be32 1), (be32 1)⟩,
    ⟨t!"fixed256x80", .dec (.fin (0) (0)), (be32 0), (be32 0)⟩,
    ⟨t!"fixed256x80", .dec (.fin (-1) (-80)),
      (be32 0xffffffffffffffffffffffffffffffffffffffffffffffffffffffffffffffff),
      (be32 0xffffffffffffffffffffffffffffffffffffffffffffffffffffffffffffffff)⟩,
    ⟨t!"fixed256x80", .dec (.fin (-128) (-80)),
      (be32 0xffffffffffffffffffffffffffffffffffffffffffffffffffffffffffffff80),
      (be32 0xffffffffffffffffffffffffffffffffffffffffffffffffffffffffffffff80)⟩,
    ⟨t!"ufixed8x1", .dec (.fin (255) (-1)), (be32 255), [255]⟩,
    ⟨t!"ufixed8x1", .dec (.fin (254) (-1)), (be32 254), [254]⟩,
    ⟨t!"ufixed8x1", .dec (.fin (1) (-1)), (be32 1), [1]⟩,
    ⟨t!"ufixed8x1", .dec (.fin (0) (0)), (be32 0), [0]⟩,
    ⟨t!"ufixed128x18", .dec (.fin (255) (-18)), (be32 255), [0, 0, 0, 0, 0, 0, 0, 0, 0, 0, 0, 0, 0, 0, 0, 255]⟩,
    ⟨t!"ufixed128x18", .dec (.fin (254) (-18)), (be32 254), [0, 0, 0, 0, 0, 0, 0, 0, 0, 0, 0, 0, 0, 0, 0, 254]⟩,
    ⟨t!"ufixed128x18", .dec (.fin (1) (-18)), (be32 1), [0, 0, 0, 0, 0, 0, 0, 0, 0, 0, 0, 0, 0, 0, 0, 1]⟩,
    ⟨t!"ufixed128x18", .dec (.fin (0) (0)), (be32 0), [0, 0, 0, 0, 0, 0, 0, 0, 0, 0, 0, 0, 0, 0, 0, 0]⟩,
    ⟨t!"ufixed256x80", .dec (.fin (255) (-80)), (be32 255), (be32 255)⟩,
    ⟨t!"ufixed256x80", .dec (.fin (254) (-80)), (be32 254), (be32 254)⟩,
    ⟨t!"ufixed256x80", .dec (.fin (1) (-80)), (be32 1), (be32 1)⟩,
    ⟨t!"ufixed256x80", .dec (.fin (0) (0)), (be32 0), (be32 0)⟩,
    ⟨t!"fixed", .dec (.fin (127) (-18)), (be32 127), [0, 0, 0, 0, 0, 0, 0, 0, 0, 0, 0, 0, 0, 0, 0, 127]⟩,
    ⟨t!"fixed", .dec (.fin (1) (-18)), (be32 1), [0, 0, 0, 0, 0, 0, 0, 0, 0, 0, 0, 0, 0, 0, 0, 1]⟩,
    ⟨t!"fixed", .dec (.fin (0) (0)), (be32 0), [0, 0, 0, 0, 0, 0, 0, 0, 0, 0, 0, 0, 0, 0, 0, 0]⟩,
    ⟨t!"fixed", .dec (.fin (-1) (-18)), (be32 0xffffffffffffffffffffffffffffffffffffffffffffffffffffffffffffffff),
      [255, 255, 255, 255, 255, 255, 255, 255, 255, 255, 255, 255, 255, 255, 255, 255]⟩,
    ⟨t!"fixed", .dec (.fin (-128) (-18)), (be32 0xffffffffffffffffffffffffffffffffffffffffffffffffffffffffffffff80),
      [255, 255, 255, 255, 255, 255, 255, 255, 255, 255, 255, 255, 255, 255, 255, 128]⟩,
    ⟨t!"ufixed", .dec (.fin (255) (-18)), (be32 255), [0, 0, 0, 0, 0, 0, 0, 0, 0, 0, 0, 0, 0, 0, 0, 255]⟩,
    ⟨t!"ufixed", .dec (.fin (254) (-18)), (be32 254), [0, 0, 0, 0, 0, 0, 0, 0, 0, 0, 0, 0, 0, 0, 0, 254]⟩,
    ⟨t!"ufixed", .dec (.fin (1) (-18)), (be32 1), [0, 0, 0, 0, 0, 0, 0, 0, 0, 0, 0, 0, 0, 0, 0, 1]⟩,
    ⟨t!"ufixed", .dec (.fin (0) (0)), (be32 0), [0, 0, 0, 0, 0, 0, 0, 0, 0, 0, 0, 0, 0, 0, 0, 0]⟩,
    ⟨t!"bytes32", .bytes (be32 0x7465737400000000000000000000000000000000000000000000000000000000),
      (be32 0x7465737400000000000000000000000000000000000000000000000000000000),
      (be32 0x7465737400000000000000000000000000000000000000000000000000000000)⟩,
    ⟨t!"bytes32", .bytes (be32 0x6162636465666768696a6b6c6d6e6f707172737475767778797a000000000000),
      (be32 0x6162636465666768696a6b6c6d6e6f707172737475767778797a000000000000),
      (be32 0x6162636465666768696a6b6c6d6e6f707172737475767778797a000000000000)⟩,
    ⟨t!"bytes32", .bytes (be32 0x3031323334353637383921402324255e262a2829000000000000000000000000),
      (be32 0x3031323334353637383921402324255e262a2829000000000000000000000000),
      (be32 0x3031323334353637383921402324255e262a2829000000000000000000000000)⟩,
    ⟨t!"bytes32", .bytes (be32 0x6162630000000000616263000000000000000000000000000000000000000000),
      (be32 0x6162630000000000616263000000000000000000000000000000000000000000),
      (be32 0x6162630000000000616263000000000000000000000000000000000000000000)⟩,
    ⟨t!"bytes1", .bytes [97], (be32 0x6100000000000000000000000000000000000000000000000000000000000000), [97]⟩]

/-- `CORRECT_DYNAMIC_SINGLE_ENCODINGS`: /repo/tests/core/common/unit.py:517-533. -/
def dynamicSingles : List Vector :=
  [
    ⟨t!"string", .str [], (be32 0), []⟩,
    ⟨t!"string", .str (ofChars t!"test"), (be32 4 ++
      be32 0x7465737400000000000000000000000000000000000000000000000000000000), [116, 101, 115, 116]⟩,
    ⟨t!"bytes", .bytes [], (be32 0), []⟩,
    ⟨t!"bytes", .bytes [222], (be32 1 ++ be32 0xde00000000000000000000000000000000000000000000000000000000000000),
      [222]⟩,
    ⟨t!"bytes[]", .list [], (be32 0), []⟩,
    ⟨t!"bytes[]", .list [.bytes []], (be32 1 ++ be32 32 ++ be32 0), []⟩,
    ⟨t!"bytes[]", .list [.bytes [222, 173, 190, 239]], (be32 1 ++ be32 32 ++ be32 4 ++
      be32 0xdeadbeef00000000000000000000000000000000000000000000000000000000), [222, 173, 190, 239]⟩]

/-- `NOT_ENCODABLE`: /repo/tests/core/common/unit.py:544-579. -/
def notEncodable : List (TypeStr × PyVal) :=
  [
    (t!"()", .tuple []),
    (t!"((),((),((),())))", .tuple [.tuple [], .tuple [.tuple [], .tuple [.tuple [], .tuple []]]]),
    (t!"((bytes,bool),(bytes,bool))", .tuple [.tuple [.bytes [100, 97, 118, 105, 100, 32, 97, 116, 116, 101, 110, 98,
      111, 114, 111, 117, 103, 104], .int 0], .tuple [.bytes [98, 111, 97, 116, 121, 32, 109, 99, 98, 111, 97, 116,
      102, 97, 99, 101], .bool true]]),
    (t!"(uint32)", .tuple [.str (ofChars t!"6")]),
    (t!"int[]", .int 6),
    (t!"bool[2]", .tuple [.bool true, .int 2]),
    (t!"bool", .int 1),
    (t!"uint", .bool true),
    (t!"int", .bool true),
    (t!"bytes", .int 129),
    (t!"fixed8x1", .float),
    (t!"int[3]", .tuple [.int 6, .int 2]),
    (t!"bytes5", .bytes [97, 115, 100, 102, 103, 116]),
    (t!"address", .str (ofChars t!"0x8deebe59332ebc3f81935e311f0fb8556cf573")),
    (t!"address", .bytes [141, 238, 190, 89, 51, 46, 188, 63, 129, 147, 94, 49, 31, 15, 184, 85, 108, 245, 115]),
    (t!"uint8", .int 256),
    (t!"uint8", .int (-1)),
    (t!"int8", .int 128),
    (t!"int8", .int (-129)),
    (t!"string", .int (-129)),
    (t!"fixed8x1", .dec (.fin (128) (-1))),
    (t!"fixed8x1", .dec (.fin (-129) (-1))),
    (t!"ufixed8x1", .dec (.fin (256) (-1))),
    (t!"ufixed8x1", .dec (.fin (-1) (-1))),
    (t!"fixed8x1", .dec (.fin (1) (-2)))]

end EthAbi.Suite
