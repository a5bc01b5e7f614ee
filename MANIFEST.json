{
 "claims": [
  {
   "property": "C01",
   "status": "partial",
   "theorems": [
    "EthAbi.C01_roundTrip_partial",
    "EthAbi.C01_outcome",
    "EthAbi.C01_roundTrip_false",
    "EthAbi.C01_other_value_false"
   ],
   "note": "Proved for all arguments whose fixed-point numbers are on the grid; false in general because off-grid negative fixed values are accepted: C01_roundTrip_false has one that decode refuses, C01_other_value_false one that decodes to another number. For all accepted arguments, decode returns or raises NonEmptyPaddingBytes, and strict makes no difference (C01_outcome)."
  },
  {
   "property": "C02",
   "status": "partial",
   "theorems": [
    "EthAbi.C02_conformance_partial",
    "EthAbi.C02_conformance_complete",
    "EthAbi.C02_conformance_false"
   ],
   "note": "Proved for all on-grid arguments, with the converse; false in general for off-grid negative fixed values."
  },
  {
   "property": "C03",
   "status": "proved",
   "theorems": [
    "EthAbi.C03_multiple_of_32",
    "EthAbi.C03_static_length",
    "EthAbi.encode_length"
   ],
   "note": ""
  },
  {
   "property": "C04",
   "status": "partial",
   "theorems": [
    "EthAbi.C04_isEncodable_partial",
    "EthAbi.C04_encode_isEncodable",
    "EthAbi.C04_gap",
    "EthAbi.C04_isEncodable_false",
    "EthAbi.C04_raises_false",
    "EthAbi.C04_odd_false",
    "EthAbi.C04_fraction"
   ],
   "note": "Exact up to lone surrogates, where is_encodable says yes and encode raises UnicodeEncodeError (C04_isEncodable_false, C04_gap), and integers of too many digits, for which is_encodable may raise ValueError (C04_raises_false), and complex numbers and Fractions for a fixed-point type, for which it raises TypeError (C04_odd_false)."
  },
  {
   "property": "C05",
   "status": "proved",
   "theorems": [
    "EthAbi.C05_uint",
    "EthAbi.C05_int"
   ],
   "note": ""
  },
  {
   "property": "C06",
   "status": "proved",
   "theorems": [
    "EthAbi.C06_twosComplement"
   ],
   "note": ""
  },
  {
   "property": "C07",
   "status": "partial",
   "theorems": [
    "EthAbi.C07_ufixed_partial",
    "EthAbi.C07_fixed_partial",
    "EthAbi.C07_negative",
    "EthAbi.C07_fixed_false",
    "EthAbi.C07_ufixed_false",
    "EthAbi.C07_exact"
   ],
   "note": "False of the code: negative numbers are never refused for extra digits, and tiny decimals underflow to zero. Proved: bounds for all numbers; grid for non-negative numbers with exponent at least -1000997; C07_exact gives the exact set of accepted numbers."
  },
  {
   "property": "C08",
   "status": "proved",
   "theorems": [
    "EthAbi.C08_fixed_roundTrip"
   ],
   "note": ""
  },
  {
   "property": "C09",
   "status": "proved",
   "theorems": [
    "EthAbi.C09_bytesM"
   ],
   "note": ""
  },
  {
   "property": "C10",
   "status": "proved",
   "theorems": [
    "EthAbi.C10_address",
    "EthAbi.C10_same",
    "EthAbi.C10_accepts",
    "EthAbi.C10_mixed",
    "EthAbi.C10_refuses"
   ],
   "note": ""
  },
  {
   "property": "C11",
   "status": "proved",
   "theorems": [
    "EthAbi.C11_encoded",
    "EthAbi.C11_trailing"
   ],
   "note": "C11_encoded is for everything encode returns, strict or not, including the encodings that decode refuses (C01); C11_trailing is for all data that decode."
  },
  {
   "property": "C12",
   "status": "proved",
   "theorems": [
    "EthAbi.C12_relax"
   ],
   "note": ""
  },
  {
   "property": "C13",
   "status": "partial",
   "theorems": [
    "EthAbi.C13_relaxed_partial",
    "EthAbi.C13_relaxed_sound",
    "EthAbi.C13_relaxed_false"
   ],
   "note": "False of the code for bytes and string inside arrays and tuples: nested lookups use the default strict=True. The counterexample is proved, and the claim is proved for all types where bytes and string are outermost."
  },
  {
   "property": "C14",
   "status": "proved",
   "theorems": [
    "EthAbi.C14_static_canonical",
    "EthAbi.C14_static_injective"
   ],
   "note": ""
  },
  {
   "property": "C15",
   "status": "proved",
   "theorems": [
    "EthAbi.C15_reencode"
   ],
   "note": ""
  },
  {
   "property": "C16",
   "status": "partial",
   "theorems": [
    "EthAbi.C16_errors_partial",
    "EthAbi.C16_errors_plain",
    "EthAbi.C16_overflow_false",
    "EthAbi.C16_unicode_false"
   ],
   "note": "False of the code: OverflowError for huge length words and UnicodeDecodeError for invalid text escape. Everything else is proved to be a DecodingError, both exceptions occur only if the data hold such a length or such text, and types without bytes and string raise nothing else."
  },
  {
   "property": "C17",
   "status": "partial",
   "theorems": [
    "EthAbi.C17_errors_partial",
    "EthAbi.C17_errors_false",
    "EthAbi.C17_digits_false",
    "EthAbi.C17_odd_false"
   ],
   "note": "False for lone surrogates (UnicodeEncodeError), for integers of too many digits (ValueError) and for a complex or a Fraction given for a fixed-point type (TypeError)."
  },
  {
   "property": "C18",
   "status": "partial",
   "theorems": [
    "EthAbi.C18_pointers_partial",
    "EthAbi.C18_pointers_flat",
    "EthAbi.C18_pointers_refused",
    "EthAbi.C18_pointers_false"
   ],
   "note": "False of the code when a tuple has a static component that is itself a tuple or an array of composite elements: an offset into the head is accepted. Proved in full when static components are flat, and with a weaker bound (one word per component) in general."
  },
  {
   "property": "C19",
   "status": "proved",
   "theorems": [
    "EthAbi.C19_bounded"
   ],
   "note": "Every sequence at any depth."
  },
  {
   "property": "C20",
   "status": "proved",
   "theorems": [
    "EthAbi.C20_no_prefix"
   ],
   "note": ""
  },
  {
   "property": "C21",
   "status": "proved",
   "theorems": [
    "EthAbi.C21_parse",
    "EthAbi.C21_unique",
    "EthAbi.C21_rejects",
    "EthAbi.C21_too_long"
   ],
   "note": "Including Python's limit on the digits int() converts, which the claim mentions."
  },
  {
   "property": "C22",
   "status": "proved",
   "theorems": [
    "EthAbi.C22_to_type_str",
    "EthAbi.C22_parse"
   ],
   "note": ""
  },
  {
   "property": "C23",
   "status": "proved",
   "theorems": [
    "EthAbi.C23_idempotent",
    "EthAbi.C23_parses",
    "EthAbi.C23_words"
   ],
   "note": "For arbitrary strings, not only type strings."
  },
  {
   "property": "C24",
   "status": "partial",
   "theorems": [
    "EthAbi.C24_total",
    "EthAbi.C24_accepts",
    "EthAbi.C24_supported_partial",
    "EthAbi.C24_byte_false",
    "EthAbi.C24_bool_false"
   ],
   "note": "False of the code for a bare byte (refused) and for bool followed by a size (accepted); both are proved. C24_accepts is the exact set; C24_supported_partial is the claim for all other strings."
  },
  {
   "property": "C25",
   "status": "proved",
   "theorems": [
    "EthAbi.C25_dynamic",
    "EthAbi.C25_placement"
   ],
   "note": ""
  },
  {
   "property": "C26",
   "status": "proved",
   "theorems": [
    "EthAbi.C26_unambiguous",
    "EthAbi.C26_symmetric",
    "EthAbi.C26_no_conflict"
   ],
   "note": ""
  },
  {
   "property": "C27",
   "status": "partial",
   "theorems": [
    "EthAbi.C27_encoder_unique",
    "EthAbi.C27_encoder_served",
    "EthAbi.C27_decoder_unique",
    "EthAbi.C27_decoder_served",
    "EthAbi.C27_multiple_partial",
    "EthAbi.C27_multiple_false",
    "EthAbi.C27_none",
    "EthAbi.C27_encoder_order",
    "EthAbi.C27_decoder_order",
    "EthAbi.C27_matchers"
   ],
   "note": "A lookup returns a coder iff exactly one registration matches and it is that one; order is irrelevant. MultipleEntriesFound is not raised (ParseError is) for unparsable type strings containing 'No matching': C27_multiple_false."
  },
  {
   "property": "C28",
   "status": "proved",
   "theorems": [
    "EthAbi.C28_getEncoder",
    "EthAbi.C28_getDecoder",
    "EthAbi.C28_encode",
    "EthAbi.C28_hasEncoder",
    "EthAbi.C28_isEncodable",
    "EthAbi.C28_decode",
    "EthAbi.C28_changes",
    "EthAbi.C28_default_encode",
    "EthAbi.C28_default_decode",
    "EthAbi.C28_default_isEncodable",
    "EthAbi.C28_default_isEncodableType",
    "EthAbi.C28_packed_encode",
    "EthAbi.C28_packed_isEncodable"
   ],
   "note": "For every history of calls on heap objects with caches, every outcome is the one the current registrations determine without caches (a cached entry can only spare a RecursionError)."
  },
  {
   "property": "C29",
   "status": "partial",
   "theorems": [
    "EthAbi.C29_isolated",
    "EthAbi.C29_changes",
    "EthAbi.C29_copy",
    "EthAbi.C29_decode_partial",
    "EthAbi.C29_decode_false"
   ],
   "note": "Lookups and encoding are isolated. decode is isolated unless a decoder object (not a class or callable) is registered, which a copy shares: C29_decode_false."
  },
  {
   "property": "C30",
   "status": "partial",
   "theorems": [
    "EthAbi.C30_label",
    "EthAbi.C30_matcher_partial",
    "EthAbi.C30_matcher_false"
   ],
   "note": "By label everything is restored. By an equal but not identical matcher lookups are restored, but the label stays in use: C30_matcher_false."
  },
  {
   "property": "C31",
   "status": "partial",
   "theorems": [
    "EthAbi.C31_partial",
    "EthAbi.C31_later_partial",
    "EthAbi.C31_objects_partial",
    "EthAbi.C31_default",
    "EthAbi.C31_false"
   ],
   "note": "Holds for registries without decoder objects, in particular the default one; C31_false is a registered ByteStringDecoder object."
  },
  {
   "property": "C32",
   "status": "partial",
   "theorems": [
    "EthAbi.C32_one_side",
    "EthAbi.C32_partial",
    "EthAbi.C32_default",
    "EthAbi.C32_register_false",
    "EthAbi.C32_unregister_false"
   ],
   "note": "register_encoder/_decoder and unregister_* are atomic; register/unregister are for registries whose two sides are always changed together, and not otherwise."
  },
  {
   "property": "C33",
   "status": "partial",
   "theorems": [
    "EthAbi.C33_false",
    "EthAbi.C33_encoder_false",
    "EthAbi.C33_decoder_false",
    "EthAbi.C33_encoder_partial",
    "EthAbi.C33_decoder_partial",
    "EthAbi.C33_encoder_recovers",
    "EthAbi.C33_decoder_recovers",
    "EthAbi.C33_assembled_partial",
    "EthAbi.C33_encoder_alone",
    "EthAbi.C33_decoder_alone"
   ],
   "note": "False of the code for every registry, type string and change: the cache is cleared before the change, so a lookup in between leaves a stale entry that later lookups return. Proved instead: all lookups are right in every schedule in which no call overlaps a change; one more exclusive change repairs a stale cache; and in every schedule lookups return only coders made from registrations that were present at some time."
  },
  {
   "property": "C34",
   "status": "proved",
   "theorems": [
    "EthAbi.C34_packed",
    "EthAbi.C34_complete",
    "EthAbi.C34_concat",
    "EthAbi.C34_sized",
    "EthAbi.C34_dyn",
    "EthAbi.C34_tuple",
    "EthAbi.C34_fixed"
   ],
   "note": "C34_packed gives the exact bytes for every accepted argument on the fixed-point grid; C34_concat, C34_sized, C34_dyn, C34_tuple and C34_fixed give concatenation and widths for every accepted argument."
  },
  {
   "property": "C35",
   "status": "proved",
   "theorems": [
    "EthAbi.C35_isEncodable",
    "EthAbi.C35_encode"
   ],
   "note": ""
  },
  {
   "property": "C36",
   "status": "proved",
   "theorems": [
    "EthAbi.C36_encode",
    "EthAbi.C36_decode_static",
    "EthAbi.C36_decode_dynamic"
   ],
   "note": ""
  },
  {
   "property": "C37",
   "status": "proved",
   "theorems": [
    "EthAbi.C37_ceil32",
    "EthAbi.C37_zpad",
    "EthAbi.C37_zpad_right",
    "EthAbi.C37_fpad",
    "EthAbi.C37_pad32",
    "EthAbi.C37_zpad_value",
    "EthAbi.C37_fpad_value",
    "EthAbi.C37_lengths",
    "EthAbi.C37_abbr",
    "EthAbi.C37_abbr_cases",
    "EthAbi.C37_scale_places",
    "EthAbi.C37_scale_places_overflow",
    "EthAbi.C37_scale_back"
   ],
   "note": "Every integer, also negative lengths and limits; abbr is a function of repr(value). scale_places for every positive or negative number of places. (Its docstring says that it moves the decimal point to the right; it moves it to the left.)"
  },
  {
   "property": "C38",
   "status": "proved",
   "theorems": [
    "EthAbi.C38_frames",
    "EthAbi.C38_static",
    "EthAbi.C38_compose"
   ],
   "note": "Default decoders on any stream; C38_compose extends it to tuples and arrays of the user's own decoders."
  },
  {
   "property": "C39",
   "status": "partial",
   "theorems": [
    "EthAbi.C39_strategies_partial",
    "EthAbi.C39_defined",
    "EthAbi.C39_covers",
    "EthAbi.C39_false",
    "EthAbi.C39_bool8"
   ],
   "note": "Proved for every type string the codec supports, with exactness (every value of the type can be drawn). Missing: the strategy registry also accepts strings the codec rejects (uint7); C39_false is the counterexample."
  },
  {
   "property": "C40",
   "status": "partial",
   "theorems": [
    "EthAbi.C40_encode_false",
    "EthAbi.C40_decode_false",
    "EthAbi.C40_arguments_partial",
    "EthAbi.C40_single_partial"
   ],
   "note": "The property is false of every callable: t[k] has no coder and t[] encodes only the empty list (AttributeError), for every history, registry and type string. Proved instead: callables encode exactly as arguments and in tuples (and round-trip there, C47); missing: arrays of callables, which the code does not support."
  },
  {
   "property": "C41",
   "status": "partial",
   "theorems": [
    "EthAbi.C41_aliases_partial",
    "EthAbi.C41_is_encodable_partial",
    "EthAbi.C41_byte_false"
   ],
   "note": "False of the code for an argument of the bare type byte, which is proved; otherwise proved as exact equality of outcomes, exceptions included."
  },
  {
   "property": "C42",
   "status": "proved",
   "theorems": [
    "EthAbi.C42_range"
   ],
   "note": ""
  },
  {
   "property": "C43",
   "status": "partial",
   "theorems": [
    "EthAbi.C43_injective_partial",
    "EthAbi.C43_injective_false",
    "EthAbi.C43_exact"
   ],
   "note": "False off the grid (C43_injective_false). C43_exact says for all accepted arguments, on the grid or not, when two encodings are the same: exactly if the arguments are taken for the same (Spec.taken of C60)."
  },
  {
   "property": "C44",
   "status": "partial",
   "theorems": [
    "EthAbi.C44_bound_partial",
    "EthAbi.C44_no_arrays",
    "EthAbi.C44_counted",
    "EthAbi.C44_nested_false",
    "EthAbi.C44_shared_false",
    "EthAbi.C44_false"
   ],
   "note": "False as stated: decode makes at least 2^d decoder calls for ((...(uint256)...)) on one word (C44_nested_false), returns a value with 2^d parts from 64+96d bytes when offsets meet (C44_shared_false), and no polynomial in the lengths of the type strings and the data bounds the calls (C44_false). Proved: for fixed types a polynomial in the length of the data, of degree the nesting of arrays, bounds the calls."
  },
  {
   "property": "C45",
   "status": "proved",
   "theorems": [
    "EthAbi.C45_equality"
   ],
   "note": ""
  },
  {
   "property": "C46",
   "status": "proved",
   "theorems": [
    "EthAbi.C46_args",
    "EthAbi.C46_data",
    "EthAbi.C46_count"
   ],
   "note": ""
  },
  {
   "property": "C47",
   "status": "proved",
   "theorems": [
    "EthAbi.C47_roundTrip",
    "EthAbi.C47_registered",
    "EthAbi.C47_builtin",
    "EthAbi.C47_compound",
    "EthAbi.C47_short_false"
   ],
   "note": "For coders that belong together (Spec.ReadsBack), in any nesting; C47_short_false shows that the size condition of ReadsBack is needed."
  },
  {
   "property": "C48",
   "status": "partial",
   "theorems": [
    "EthAbi.C48_decode",
    "EthAbi.C48_total",
    "EthAbi.C48_raises",
    "EthAbi.C48_encode_false",
    "EthAbi.C48_encode_object"
   ],
   "note": "Decoding is proved for every handler, every nesting and every history without strict=False. The last sentence is false: the class TextStringEncoder registered under any other name than string never encodes (C48_encode_false); the object TextStringEncoder() does (C48_encode_object)."
  },
  {
   "property": "C49",
   "status": "proved",
   "theorems": [
    "EthAbi.C49_undisturbed",
    "EthAbi.C49_default",
    "EthAbi.C49_packed",
    "EthAbi.C49_alone",
    "EthAbi.C49_shared_false"
   ],
   "note": "Steps are single accesses to dicts and caches. C49_alone ties the step-by-step model to the sequential one. C49_shared_false: the condition on decoder objects is needed; with one registered, a strict decode may return what it refuses in every sequential order."
  },
  {
   "property": "C50",
   "status": "partial",
   "theorems": [
    "EthAbi.C50_false",
    "EthAbi.C50_encode_false",
    "EthAbi.C50_partial"
   ],
   "note": "False of the code: a registration during the iteration in find makes it raise RuntimeError, so encode raises and is_encodable('bool', True) returns False. Proved instead: if no other thread is in a call on the registry while it is being changed, calls take effect one after the other in the order of their return. Missing: calls that overlap a change, for which the property fails."
  },
  {
   "property": "C51",
   "status": "proved",
   "theorems": [
    "EthAbi.C51_finishes"
   ],
   "note": "Every endless schedule that is fair to the thread."
  },
  {
   "property": "C52",
   "status": "partial",
   "theorems": [
    "EthAbi.C52_encode",
    "EthAbi.C52_encode_packed",
    "EthAbi.C52_decode",
    "EthAbi.C52_decode_partial",
    "EthAbi.C52_decode_single",
    "EthAbi.C52_decode_false",
    "EthAbi.C52_dynamic_encode",
    "EthAbi.C52_dynamic_decode"
   ],
   "note": "Encoding and T[] in full. decode: from the array form to the tuple form for all data, back for data whose offsets point behind their heads. The rest is false: with a static array beside dynamic types, an offset into the head is refused with the array form and followed with the tuple form (C52_decode_false)."
  },
  {
   "property": "C53",
   "status": "proved",
   "theorems": [
    "EthAbi.C53_encode",
    "EthAbi.C53_encode_packed",
    "EthAbi.C53_is_encodable",
    "EthAbi.C53_printable",
    "EthAbi.C53_decode",
    "EthAbi.C53_digits_false"
   ],
   "note": "For every pair of values related by Spec.Alike, whether they are accepted or refused. Exceptions are compared by class."
  },
  {
   "property": "C54",
   "status": "proved",
   "theorems": [
    "EthAbi.C54_leading",
    "EthAbi.C54_encoded",
    "EthAbi.C54_static"
   ],
   "note": "In full, for data that fit in memory (Fits)."
  },
  {
   "property": "C55",
   "status": "partial",
   "theorems": [
    "EthAbi.C55_construct",
    "EthAbi.C55_encode",
    "EthAbi.C55_decode",
    "EthAbi.C55_round_trip",
    "EthAbi.C55_bool_16",
    "EthAbi.C55_address_152"
   ],
   "note": "In full for the value sizes a class is meant for (BitsOk: 8 bits for bool, 160 for addresses, 8 to 256 for fixed-point numbers, any from 8 for the others) and, as in C07, for fixed-point values on the grid; C55_bool_16 and C55_address_152 show that it is false for others: a boolean encoder of 16 bits encodes what the decoder of 16 bits refuses, and an address decoder, unlike the encoder, can be made for other sizes than 160 bits and then refuses everything."
  },
  {
   "property": "C56",
   "status": "partial",
   "theorems": [
    "EthAbi.C56_outcomes_partial",
    "EthAbi.C56_encoders_partial",
    "EthAbi.C56_decoders_partial",
    "EthAbi.C56_by_label",
    "EthAbi.C56_strategies_partial",
    "EthAbi.C56_label_false"
   ],
   "note": "In full for histories in which a labelled entry is unregistered by its label or with the matcher object itself (in particular if nothing is unregistered by matcher: C56_by_label). With an equal matcher that is another object the entry goes and its label stays (C56_label_false), so the statement as it stands is false of the code."
  },
  {
   "property": "C57",
   "status": "proved",
   "theorems": [
    "EthAbi.C57_encoded",
    "EthAbi.C57_refused",
    "EthAbi.C57_raised",
    "EthAbi.C57_callable"
   ],
   "note": "Encoders are functions of the value (they do not change state between the two calls); the lookup does not reach the recursion limit."
  },
  {
   "property": "C58",
   "status": "proved",
   "theorems": [
    "EthAbi.C58_exact",
    "EthAbi.C58_bounds",
    "EthAbi.C58_linear"
   ],
   "note": "Complements C44: a decode that returns costs no more than its value, up to the factor for nested tuples (which is needed: C44_nested_false); the value itself can be exponentially larger than the data (C44_shared_false)."
  },
  {
   "property": "C59",
   "status": "proved",
   "theorems": [
    "EthAbi.C59_decode",
    "EthAbi.C59_encode",
    "EthAbi.C59_round_trip",
    "EthAbi.C59_uint_not_injective",
    "EthAbi.C55_construct"
   ],
   "note": "The argument does not do what its name says: C59_round_trip gives the exact set of values that survive, C59_uint_not_injective two values with the same encoding."
  },
  {
   "property": "C60",
   "status": "proved",
   "theorems": [
    "EthAbi.C60_encode",
    "EthAbi.C60_encode_packed",
    "EthAbi.C60_decode",
    "EthAbi.C60_number",
    "EthAbi.C60_number_decoded"
   ],
   "note": "Completes C01, C02, C07: what happens where their claims are false. The bound of 900 places is needed: an example shows a number with 1005 places that is rounded to 999 digits first."
  },
  {
   "property": "C61",
   "status": "proved",
   "theorems": [
    "EthAbi.C61_encode",
    "EthAbi.C61_round_trip",
    "EthAbi.C61_whole",
    "EthAbi.C61_short",
    "EthAbi.C61_refused"
   ],
   "note": "Arrays of fixed length 0 are left out; C61_zero shows one with dynamic elements that is encoded and cannot be decoded."
  },
  {
   "property": "C62",
   "status": "proved",
   "theorems": [
    "EthAbi.C62_bound",
    "EthAbi.C62_exact",
    "EthAbi.C62_exact_packed",
    "EthAbi.C62_is_encodable",
    "EthAbi.C62_is_encodable_packed",
    "EthAbi.C62_quadratic"
   ],
   "note": "Calls of validate_value are counted on the same path as the encoders of the model (Model/EncCost.lean takes every intermediate result from Model/Encoding.lean). The time of a single call, copying of bytes and the construction of coder objects are not counted."
  },
  {
   "property": "C63",
   "status": "proved",
   "theorems": [
    "EthAbi.C63_decode",
    "EthAbi.C63_encode",
    "EthAbi.C63_is_encodable",
    "EthAbi.C63_decode_deep",
    "EthAbi.C63_encode_deep"
   ],
   "note": "Calls of decoder objects, encoder objects and validate_value are counted, on the same path as the model (Model/Cost.lean, Model/EncCost.lean); each of them is a fixed number of Python frames. The recursion of the grammar and of the registry while the type string is looked up, which depends on the types alone, is not counted."
  },
  {
   "property": "C64",
   "status": "partial",
   "theorems": [
    "EthAbi.C64_makes",
    "EthAbi.C64_refuses_partial",
    "EthAbi.C64_overlooked",
    "EthAbi.C64_no_type",
    "EthAbi.C64_alone",
    "EthAbi.C64_own_class",
    "EthAbi.C64_own_refuses"
   ],
   "note": "That a class refuses the names it is not for is false of the code in three cases, and proved for all others (C64_refuses_partial); C64_overlooked says what happens in these: ByteStringEncoder and ByteStringDecoder take bytes5 for bytes, TupleEncoder and TupleDecoder take (int256)[] for (int256), and BytesEncoder and BytesDecoder raise TypeError for bytes."
  },
  {
   "property": "C65",
   "status": "proved",
   "theorems": [
    "EthAbi.C65_parse",
    "EthAbi.C65_invalid",
    "EthAbi.C65_valid",
    "EthAbi.C65_one",
    "EthAbi.C65_verdict",
    "EthAbi.C65_nodes",
    "EthAbi.C65_items",
    "EthAbi.C65_hand_made"
   ],
   "note": "The docstring of ABIType.validate promises ABITypeError for every invalid type; for types made by hand the code raises AttributeError (C65_hand_made)."
  },
  {
   "property": "C66",
   "status": "partial",
   "theorems": [
    "EthAbi.C66_conforms_partial",
    "EthAbi.C66_exact",
    "EthAbi.C66_conforms_false"
   ],
   "note": "False of the code: elements of arrays are not padded to 32 bytes. C66_exact says when the bytes agree: if and only if every argument for an array with elements shorter than 32 bytes is empty. (Off-grid fixed-point arguments, see C01, are left out.)"
  },
  {
   "property": "C67",
   "status": "partial",
   "theorems": [
    "EthAbi.C67_injective_partial",
    "EthAbi.C67_collision",
    "EthAbi.C67_length"
   ],
   "note": "An equivalence: unique for OneVariableAll types, with collisions for all others. Missing: off-grid fixed-point arguments, for which already C43 is false. The collisions need an encoding that fits into a bytes object (bound on the fixed array lengths)."
  },
  {
   "property": "C68",
   "status": "proved",
   "theorems": [
    "EthAbi.C68_canonical",
    "EthAbi.C68_prefix",
    "EthAbi.C68_one"
   ],
   "note": ""
  },
  {
   "property": "C69",
   "status": "partial",
   "theorems": [
    "EthAbi.C69_transparent_partial",
    "EthAbi.C69_same_object",
    "EthAbi.C69_isolated",
    "EthAbi.C69_disjoint",
    "EthAbi.C69_one_type",
    "EthAbi.C69_transparent_false"
   ],
   "note": "The full claim is false: the cache hands out the same mutable object. Partial: histories without assignments to the result. The library itself never assigns to these attributes."
  },
  {
   "property": "C70",
   "status": "proved",
   "theorems": [
    "EthAbi.C70_encode",
    "EthAbi.C70_decode",
    "EthAbi.C70_narrow"
   ],
   "note": "encode: arguments of weight below 2^249 and Decimals with at most 900 places, as in C60."
  },
  {
   "property": "C71",
   "status": "proved",
   "theorems": [
    "EthAbi.C71_decode",
    "EthAbi.C71_bare",
    "EthAbi.C71_recast",
    "EthAbi.C71_encode",
    "EthAbi.C71_leaves"
   ],
   "note": "An equivalence for decode, on any data and for both values of strict."
  },
  {
   "property": "C72",
   "status": "proved",
   "theorems": [
    "EthAbi.C72_strings",
    "EthAbi.C72_no_list",
    "EthAbi.C72_no_string",
    "EthAbi.C72_only_strings",
    "EthAbi.C72_questions",
    "EthAbi.C72_parse"
   ],
   "note": "C72_strings ties the functions that take any value to those of the other theorems."
  },
  {
   "property": "C73",
   "status": "proved",
   "theorems": [
    "EthAbi.C73_isEncodable",
    "EthAbi.C73_encode",
    "EthAbi.C73_first",
    "EthAbi.C73_element",
    "EthAbi.C73_component",
    "EthAbi.C73_count",
    "EthAbi.C73_part"
   ],
   "note": "fault t v (Spec/Fault.lean) is the part at fault and the kind of fault; validation is shown to report it for every value, so the four functions are determined completely (up to the bytes). C73_first, C73_element, C73_component and C73_count say the same without it, in terms of encode and is_encodable alone."
  },
  {
   "property": "C74",
   "status": "proved",
   "theorems": [
    "EthAbi.C74_final",
    "EthAbi.C74_beginning",
    "EthAbi.C74_cut",
    "EthAbi.C74_static",
    "EthAbi.C74_static_cut"
   ],
   "note": "Strict decoding; with strict=False a cut string may raise UnicodeDecodeError (an example shows it)."
  },
  {
   "property": "C75",
   "status": "proved",
   "theorems": [
    "EthAbi.C75_apart",
    "EthAbi.C75_together",
    "EthAbi.C75_append",
    "EthAbi.C75_parts"
   ],
   "note": "All arguments, also those off the fixed-point grid."
  },
  {
   "property": "C76",
   "status": "proved",
   "theorems": [
    "EthAbi.C76_order",
    "EthAbi.C76_integers"
   ],
   "note": "Dynamic types have offsets and lengths first and are not ordered this way."
  },
  {
   "property": "C77",
   "status": "proved",
   "theorems": [
    "EthAbi.C77_refuses",
    "EthAbi.C77_accepts",
    "EthAbi.C77_either",
    "EthAbi.C77_beginning"
   ],
   "note": "Both directions: the outcome of decode on supported types is determined completely (Spec/Breaks.lean, Spec/Read.lean)."
  },
  {
   "property": "C78",
   "status": "partial",
   "theorems": [
    "EthAbi.C78_says",
    "EthAbi.C78_when",
    "EthAbi.C78_tells",
    "EthAbi.C78_repr",
    "EthAbi.C78_means",
    "EthAbi.C78_padding_partial",
    "EthAbi.C78_zeros"
   ],
   "note": "Everything is proved as stated except that the bytes which a text calls not empty are not all zeros: this is false for intN and fixedMxN (C78_zeros) and is proved for lists of types without them (C78_padding_partial)."
  },
  {
   "property": "C79",
   "status": "proved",
   "theorems": [
    "EthAbi.C79_depends",
    "EthAbi.C79_free"
   ],
   "note": "The positions are existential; their number is bounded by the length of the encoding of the value."
  },
  {
   "property": "C80",
   "status": "proved",
   "theorems": [
    "EthAbi.C80_lookup",
    "EthAbi.C80_one",
    "EthAbi.C80_calls"
   ],
   "note": "Spec/Declined gives the exception from the derivation of the string in the grammar of C21, the abbreviations of C23 and the rules of C65; C80_lookup is an equivalence for get_encoder of both registries and get_decoder. Registries changed by the user are not covered (C57 has those)."
  },
  {
   "property": "C81",
   "status": "proved",
   "theorems": [
    "EthAbi.C81_fault",
    "EthAbi.C81_says",
    "EthAbi.C81_when",
    "EthAbi.C81_text",
    "EthAbi.C81_range"
   ],
   "note": "How Python prints values, their types and decimals is a parameter (Printing). Texts of exceptions raised after validation (lone surrogates, lengths from 2^256 on) are not the library's, or unreachable under the weight bound of C81_when."
  },
  {
   "property": "C82",
   "status": "proved",
   "theorems": [
    "EthAbi.C82_text",
    "EthAbi.C82_place",
    "EthAbi.C82_before",
    "EthAbi.C82_after",
    "EthAbi.C82_missing",
    "EthAbi.C82_name",
    "EthAbi.C82_grammar",
    "EthAbi.C82_grammar_ok",
    "EthAbi.C82_remembered"
   ],
   "note": "C82_grammar: the same place comes of recording failures while the grammar as data (C94) is interpreted, expression by expression. C82_remembered: that parsimonious remembers results, and so does not record some failures a second time, makes no difference. C82_text: the text as a function of the place, for all strings. PointsAt is stated with the grammar of the specification (Derives) only. How parsimonious 0.10 remembers the failure that got furthest (Expression.match_core, ParseError.column) is modelled from knowledge of the library, as it is not in /repo. Whether a repetition (e?, e*, e+) is tried at the end of the string is a parameter of the model (Ext.triesAtEnd) and everything is proved for both: parsimonious 0.10 does not try it. With triesAtEnd = true the modelled columns agree with all those in tests/core/grammar.py, a file that pytest does not collect and that was written for an older parsimonious."
  },
  {
   "property": "C83",
   "status": "proved",
   "theorems": [
    "EthAbi.C83_text",
    "EthAbi.C83_every",
    "EthAbi.C83_one",
    "EthAbi.C83_calls",
    "EthAbi.C83_class",
    "EthAbi.C83_tupleClass",
    "EthAbi.C83_find",
    "EthAbi.C83_register",
    "EthAbi.C83_unregister",
    "EthAbi.C83_test",
    "EthAbi.C83_matcher",
    "EthAbi.C83_matcher_one"
   ],
   "note": "What Python prints for a str (repr) is a parameter; it is assumed that letters and digits are printed between apostrophes. The text of VisitationError belongs to parsimonious and is not modelled. C83_test: the lookup used elsewhere in the model, which tests only the type string for 'No matching', agrees with the code's test of the whole text unless the repr of a matcher contains these words."
  },
  {
   "property": "C84",
   "status": "proved",
   "theorems": [
    "EthAbi.C84_dynamicArray",
    "EthAbi.C84_sizedArray",
    "EthAbi.C84_items",
    "EthAbi.C84_tuple",
    "EthAbi.C84_name"
   ],
   "note": "the attributes are said by recursion over the string, for every string that parses, whether or not it passes validate"
  },
  {
   "property": "C85",
   "status": "proved",
   "theorems": [
    "EthAbi.C85_encode",
    "EthAbi.C85_packed",
    "EthAbi.C85_unique",
    "EthAbi.C85_packed_shorter"
   ],
   "note": "The sizes are counted by Takes in Spec/Lengths.lean from the values, without reference to the bytes written. A value that the function refuses may also have a count."
  },
  {
   "property": "C86",
   "status": "proved",
   "theorems": [
    "EthAbi.C86_settings",
    "EthAbi.C86_unknown",
    "EthAbi.C86_text",
    "EthAbi.C86_validated",
    "EthAbi.C86_replaced",
    "EthAbi.C86_order",
    "EthAbi.C86_subclass",
    "EthAbi.C86_library",
    "EthAbi.C86_packed",
    "EthAbi.C86_string",
    "EthAbi.C86_string_strict"
   ],
   "note": "Class attributes are plain values: descriptors without setters, __slots__ and own __setattr__ are not modelled."
  },
  {
   "property": "C87",
   "status": "proved",
   "theorems": [
    "EthAbi.C87_encode",
    "EthAbi.C87_packed",
    "EthAbi.C87_word",
    "EthAbi.C87_accepts"
   ],
   "note": "Spec/Differs.lean says what two arguments that differ in one place are. The theorems relate two runs of encode and two runs of encode of the value by itself."
  },
  {
   "property": "C88",
   "status": "proved",
   "theorems": [
    "EthAbi.C88_frame",
    "EthAbi.C88_seek",
    "EthAbi.C88_read",
    "EthAbi.C88_pop",
    "EthAbi.C88_push",
    "EthAbi.C88_library"
   ],
   "note": "The methods of io.BytesIO that write or close are not modelled. C88_library: the streams of all other theorems are these, for the calls that the library's decoders make."
  },
  {
   "property": "C89",
   "status": "proved",
   "theorems": [
    "EthAbi.C89_layout",
    "EthAbi.C89_concat",
    "EthAbi.C89_only",
    "EthAbi.C89_unique",
    "EthAbi.C89_packed_compound"
   ],
   "note": "Encodings of 2^256 bytes and more are excluded in C89_layout: their offsets do not fit in a word."
  },
  {
   "property": "C90",
   "status": "proved",
   "theorems": [
    "EthAbi.C90_encodable",
    "EthAbi.C90_registered",
    "EthAbi.C90_builtin",
    "EthAbi.C90_compound",
    "EthAbi.C90_needed"
   ],
   "note": "The combinators of hypothesis (lists, tuples) are modelled by their documented behaviour, as for C39."
  },
  {
   "property": "C91",
   "status": "proved",
   "theorems": [
    "EthAbi.C91_decode",
    "EthAbi.C91_unique",
    "EthAbi.C91_registered",
    "EthAbi.C91_builtin",
    "EthAbi.C91_compound"
   ],
   "note": "An equivalence on arbitrary data. A registered decoder that changes its own state or looks at the frames of the stream is not covered, nor one whose result depends on its attribute strict (the attribute of a registered object is shared between lookups, see C31)."
  },
  {
   "property": "C92",
   "status": "proved",
   "theorems": [
    "EthAbi.C92_ufixed",
    "EthAbi.C92_fixed",
    "EthAbi.C92_scale_places",
    "EthAbi.C92_ufixed_decode",
    "EthAbi.C92_fixed_decode",
    "EthAbi.C92_ufixed_default",
    "EthAbi.C92_fixed_default",
    "EthAbi.C92_default_matters"
   ],
   "note": "the arithmetic of decimal in an arbitrary context (eight rounding modes, traps, flags, subnormal numbers) and the with statements of the code, against the coders of Model/Encoding and Model/Decoding; the text of an exception does depend on the caller's context (capitals) and is not claimed"
  },
  {
   "property": "C93",
   "status": "proved",
   "theorems": [
    "EthAbi.C93_table",
    "EthAbi.C93_texts",
    "EthAbi.C93_one",
    "EthAbi.C93_encode",
    "EthAbi.C93_packed",
    "EthAbi.C93_surrogates",
    "EthAbi.C93_decode",
    "EthAbi.C93_not_text"
   ],
   "note": "Spec/Utf8.lean is the bit table, written without reference to the codec of the model. C93_table shows that the UTF-8 used in the specifications of all other properties (values at any depth) is the same, so that C01, C02 and the others speak of UTF-8 too. encode and encode_packed for texts of at most sys.maxsize characters; decode strict, for data of at most sys.maxsize bytes. Python's codec itself is not in /repo: it is modelled in Model/EthUtils.lean."
  },
  {
   "property": "C94",
   "status": "proved",
   "theorems": [
    "EthAbi.C94_language",
    "EthAbi.C94_tree",
    "EthAbi.C94_visitor",
    "EthAbi.C94_parse"
   ],
   "note": "The grammar is data, transcribed from the text in grammar.py; the interpreter and the visitor's dispatch are a model of parsimonious, which is not in /repo. C94_parse shows that the parse of all other properties is the same. The interpreter's bound on the depth of calls is shown to be enough (any bound from depth s on)."
  }
 ]
}