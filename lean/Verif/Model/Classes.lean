import Verif.Model.Registry

/-!
# `from_type_str` of the library's classes, called by itself

A registry calls `from_type_str` of the class it found for a type string.  A user who registers a class of the library
for type strings of their own, or who calls `from_type_str`, meets the checks in it alone.
-/
namespace EthAbi

/-- The kinds of coder classes with a `from_type_str`, the same for encoders, packed encoders and decoders:
/repo/eth_abi/encoding.py:155,231,283,318,381,427,465,493,525,559,611 and
/repo/eth_abi/decoding.py:230,286,444,454,466,501,516,544,578,618,628. -/
inductive CoderClass where
  | uint
  | int
  | address
  | bool
  | ufixed
  | fixed
  /-- `BytesEncoder` -/
  | bytes
  | byteString
  | textString
  /-- `BaseArrayEncoder` -/
  | array
  | tuple
  deriving DecidableEq, Repr

/-- `cls.from_type_str(type_str, registry)` of the encoders of the standard mode, with `look` for the lookups in the
registry: /repo/eth_abi/encoding.py:155-161,231-233,283-288,318-320,381-389,427-435,465-467,493-495,525-527,559-561,611-624. -/
def encoderFromTypeStr [Ext] (c : CoderClass) (look : TypeStr → PyM Encoder) (s : TypeStr) : PyM Encoder :=
  match c with
  | .uint => (basicPlan t!"uint" (intPlan fun n => mkUInt n 32) s).exec look
  | .int => (basicPlan t!"int" (intPlan fun n => mkSInt n 32) s).exec look
  | .address => (basicPlan t!"address" (fun _ => mkAddress 32) s).exec look
  | .bool => (basicPlan t!"bool" (fun _ => mkBool 32) s).exec look
  | .ufixed => (basicPlan t!"ufixed" (fixedPlan fun m n => mkUFixed m n 32) s).exec look
  | .fixed => (basicPlan t!"fixed" (fixedPlan fun m n => mkSFixed m n 32) s).exec look
  | .bytes => (basicPlan t!"bytes" (intPlan fun n => mkBytesM (n * 8) 32) s).exec look
  | .byteString => (basicPlan t!"bytes" (fun _ => .ok byteStringEncoder) s).exec look
  | .textString => (basicPlan t!"string" (fun _ => .ok textStringEncoder) s).exec look
  | .array => (arrayPlan mkArray s).exec look
  | .tuple => (tuplePlan mkTuple s).exec look

/-- `from_type_str` of the packed encoders:
/repo/eth_abi/encoding.py:155-161,231-238,291-297,323-329,391-400,437-446,465-472,498-504,525-536,559-570,646-657. -/
def packedFromTypeStr [Ext] (c : CoderClass) (look : TypeStr → PyM Encoder) (s : TypeStr) : PyM Encoder :=
  match c with
  | .uint => (basicPlan t!"uint" (intPlan fun n => mkUInt n (n / 8)) s).exec look
  | .int => (basicPlan t!"int" (intPlan fun n => mkSInt n (n / 8)) s).exec look
  | .address => (basicPlan t!"address" (fun _ => mkAddress 20) s).exec look
  | .bool => (basicPlan t!"bool" (fun _ => mkBool 1) s).exec look
  | .ufixed => (basicPlan t!"ufixed" (fixedPlan fun m n => mkUFixed m n (m / 8)) s).exec look
  | .fixed => (basicPlan t!"fixed" (fixedPlan fun m n => mkSFixed m n (m / 8)) s).exec look
  | .bytes => (basicPlan t!"bytes" (intPlan fun n => mkBytesM (n * 8) n) s).exec look
  | .byteString => (basicPlan t!"bytes" (fun _ => .ok packedByteStringEncoder) s).exec look
  | .textString => (basicPlan t!"string" (fun _ => .ok packedTextStringEncoder) s).exec look
  | .array => (arrayPlan (fun dim e => .ok (mkPackedArray dim e)) s).exec look
  | .tuple => (tuplePlan mkTuple s).exec look

/-- `from_type_str` of the decoders:
/repo/eth_abi/decoding.py:230-236,286-299,444-446,454-456,466-468,501-503,516-518,544-549,578-583,618-620,628-632. -/
def decoderFromTypeStr [Ext] (c : CoderClass) (look : TypeStr → PyM Decoder) (s : TypeStr) : PyM Decoder :=
  match c with
  | .uint => (basicPlan t!"uint" (intPlan mkUIntD) s).exec look
  | .int => (basicPlan t!"int" (intPlan mkSIntD) s).exec look
  | .address => (basicPlan t!"address" (fun _ => .ok addressDecoder) s).exec look
  | .bool => (basicPlan t!"bool" (fun _ => .ok boolDecoder) s).exec look
  | .ufixed => (basicPlan t!"ufixed" (fixedPlan mkUFixedD) s).exec look
  | .fixed => (basicPlan t!"fixed" (fixedPlan mkSFixedD) s).exec look
  | .bytes => (basicPlan t!"bytes" (intPlan fun n => mkBytesMD (n * 8)) s).exec look
  | .byteString => (basicPlan t!"bytes" (fun _ => .ok (byteStringDecoder (.own true))) s).exec look
  | .textString => (basicPlan t!"string" (fun _ => .ok (stringDecoder (.own true))) s).exec look
  | .array => (arrayPlan mkArrayD s).exec look
  | .tuple => (tuplePlan mkTupleD s).exec look

end EthAbi
