{"id": "C01", "title": "Round trip", "statement": "If encode(types, args) returns bytes b then decode(types, b) returns, and the value at each position is the canonical form of the argument (arrays as tuples, bytesM padded to M bytes, addresses as lower-case 0x strings, fixed-point numbers as the Decimal on the type's grid).", "quantifier": "every list of supported type strings of any nesting depth and every argument list that encode accepts", "why_tests_cant": "types nest without bound and values are unbounded; head/tail offsets interact with nesting in ways a finite sample does not cover", "anchors": ["eth_abi/codec.py:ABIEncoder.encode", "eth_abi/codec.py:ABIDecoder.decode", "eth_abi/encoding.py:TupleEncoder", "eth_abi/decoding.py:TupleDecoder"]}
{"id": "C02", "title": "Conformance to the ABI specification", "statement": "The bytes returned by encode(types, args) are exactly head(1)..head(n) tail(1)..tail(n) of the Solidity ABI specification's enc function, recursively, for the mathematical value each argument denotes.", "quantifier": "every supported type list and every accepted argument list", "why_tests_cant": "equality with an independent recursive specification has to hold for every nesting of arrays and tuples and every value", "anchors": ["eth_abi/encoding.py:TupleEncoder.encode", "eth_abi/encoding.py:BaseArrayEncoder.encode_elements", "eth_abi/encoding.py:DynamicArrayEncoder.encode"]}
{"id": "C03", "title": "Encoding length is a multiple of 32; static length is a function of the type", "statement": "Every successful encode returns a length divisible by 32, and for a list of static types the length does not depend on the values: it is 32 times the number of elementary slots.", "quantifier": "every type list and every accepted argument list", "why_tests_cant": "quantifies over all types and all values", "anchors": ["eth_abi/encoding.py:TupleEncoder.encode", "eth_abi/encoding.py:FixedSizeEncoder.encode", "eth_abi/utils/numeric.py:ceil32"]}
{"id": "C04", "title": "is_encodable predicts encode", "statement": "is_encodable(t, v) is True exactly when encode([t], [v]) returns bytes, and False exactly when it raises.", "quantifier": "every type string and every Python value", "why_tests_cant": "agreement of two different code paths over all types and values", "anchors": ["eth_abi/codec.py:ABIEncoder.is_encodable", "eth_abi/codec.py:ABIEncoder.encode"]}
{"id": "C05", "title": "Integer bounds are exact", "statement": "uintN accepts exactly the ints 0..2^N-1, intN exactly -2^(N-1)..2^(N-1)-1; bools and other types are refused with EncodingTypeError, ints outside with ValueOutOfBounds (with ValueError if the value is or holds an int of more than sys.get_int_max_str_digits() digits, which the error message cannot quote).", "quantifier": "every supported width N and every Python value", "why_tests_cant": "the domain is infinite; tests sample near some boundaries of some widths", "anchors": ["eth_abi/encoding.py:NumberEncoder.validate_value", "eth_abi/utils/numeric.py:compute_unsigned_integer_bounds", "eth_abi/utils/numeric.py:compute_signed_integer_bounds"]}
{"id": "C06", "title": "Two's-complement words", "statement": "The 32-byte word encode produces for intN (uintN) and value v is the big-endian representation of v mod 2^256, for every width N.", "quantifier": "every width and every value in range", "why_tests_cant": "2^256 values per width", "anchors": ["eth_abi/encoding.py:SignedIntegerEncoder.encode", "eth_abi/encoding.py:UnsignedIntegerEncoder"]}
{"id": "C07", "title": "Fixed-point values outside the grid are refused", "statement": "encode accepts v for ufixedMxN/fixedMxN only if v times 10^N is an integer in the M-bit range, so no digits are dropped silently.", "quantifier": "every M, N and every int, bool or Decimal value", "why_tests_cant": "the set of decimals is infinite; the sign and the magnitude of the residue matter", "anchors": ["eth_abi/encoding.py:BaseFixedEncoder.validate_value", "eth_abi/encoding.py:SignedFixedEncoder.encode", "eth_abi/encoding.py:UnsignedFixedEncoder"]}
{"id": "C08", "title": "Fixed-point round trip is numerically exact", "statement": "For every value v on the grid, decode(encode(v)) is a Decimal numerically equal to v.", "quantifier": "every M, N, every on-grid value, every representation (coefficient, exponent) of it", "why_tests_cant": "values and representations are unbounded", "anchors": ["eth_abi/encoding.py:SignedFixedEncoder.encode_fn", "eth_abi/decoding.py:SignedFixedDecoder.decoder_fn", "eth_abi/decoding.py:UnsignedFixedDecoder.decoder_fn"]}
{"id": "C09", "title": "bytesM padding and over-length", "statement": "For bytesM a value of at most M bytes is encoded as itself followed by zeros up to 32 bytes and a longer value raises ValueOutOfBounds; decoding gives the value right-padded with zeros to M bytes.", "quantifier": "every M in 1..32 and every bytes or bytearray value", "why_tests_cant": "all lengths and contents", "anchors": ["eth_abi/encoding.py:BytesEncoder", "eth_abi/decoding.py:BytesDecoder"]}
{"id": "C10", "title": "Address canonicalisation", "statement": "All accepted spellings of an address (bytes, hex in lower, upper or checksummed case, with or without 0x) encode to the same word: 12 zero bytes and the 20 address bytes; decode returns the lower-case 0x form, which encodes back to the same word.", "quantifier": "every accepted address value", "why_tests_cant": "2^160 addresses times spellings", "anchors": ["eth_abi/encoding.py:AddressEncoder", "eth_abi/decoding.py:AddressDecoder"]}
{"id": "C11", "title": "Trailing bytes are ignored", "statement": "decode(types, encode(types, args) + junk) equals decode(types, encode(types, args)).", "quantifier": "every type list, accepted argument list and suffix", "why_tests_cant": "all suffixes and types", "anchors": ["eth_abi/codec.py:ABIDecoder.decode"]}
{"id": "C12", "title": "Relaxing strict never changes a successful strict decode", "statement": "If decode(types, data) returns v with strict=True then it returns the same v with strict=False.", "quantifier": "every type list and every data", "why_tests_cant": "all data including non-canonical layouts", "anchors": ["eth_abi/decoding.py:ByteStringDecoder.read_data_from_stream", "eth_abi/registry.py:ABIRegistry._get_decoder_uncached"]}
{"id": "C13", "title": "strict=False applies to every dynamic element", "statement": "With strict=False the padding checks of bytes and string are skipped wherever they occur in the type, also inside arrays and tuples.", "quantifier": "every type and every data", "why_tests_cant": "the flag must reach every nesting depth", "anchors": ["eth_abi/registry.py:ABIRegistry._get_decoder_uncached", "eth_abi/codec.py:ABIDecoder.decode", "eth_abi/decoding.py:BaseArrayDecoder.from_type_str"]}
{"id": "C14", "title": "Static decoding is canonical", "statement": "For static types, if decode(types, data) returns v then re-encoding v gives back exactly the first bytes of data, so two data with different heads never decode to the same value.", "quantifier": "every list of static types and every data", "why_tests_cant": "all 32-byte words for every type", "anchors": ["eth_abi/decoding.py:FixedByteSizeDecoder", "eth_abi/decoding.py:SignedIntegerDecoder.validate_padding_bytes"]}
{"id": "C15", "title": "Decoded values are encodable", "statement": "If decode(types, data) returns v then encode(types, v) succeeds and decoding that gives v again.", "quantifier": "every type list and every data, canonical or not", "why_tests_cant": "adversarial data is unbounded", "anchors": ["eth_abi/codec.py:ABIDecoder.decode", "eth_abi/codec.py:ABIEncoder.encode"]}
{"id": "C16", "title": "decode failures are DecodingErrors", "statement": "On bytes data and supported types, every exception decode raises is a DecodingError.", "quantifier": "every supported type list and every data", "why_tests_cant": "any byte string may be given", "anchors": ["eth_abi/decoding.py", "eth_abi/exceptions.py:DecodingError"]}
{"id": "C17", "title": "encode failures are EncodingErrors", "statement": "On supported types and list arguments, every exception encode raises is an EncodingError.", "quantifier": "every supported type list and every argument list", "why_tests_cant": "any Python value may be given", "anchors": ["eth_abi/encoding.py", "eth_abi/exceptions.py:EncodingError"]}
{"id": "C18", "title": "Pointer validation", "statement": "decode returns only if every offset it follows points outside the head of its container and before the end of the data; otherwise InvalidPointer.", "quantifier": "every type and every data", "why_tests_cant": "adversarial offsets", "anchors": ["eth_abi/decoding.py:TupleDecoder.validate_pointers", "eth_abi/decoding.py:BaseArrayDecoder.validate_pointers"]}
{"id": "C19", "title": "Array work is bounded by the data", "statement": "If decode returns an array of k elements then 32*k is at most the length of the data: a length word cannot make the decoder return more elements than the data can hold.", "quantifier": "every type and every data", "why_tests_cant": "length words range to 2^256-1", "anchors": ["eth_abi/decoding.py:DynamicArrayDecoder.decode"]}
{"id": "C20", "title": "No proper prefix of an encoding decodes", "statement": "Removing any non-empty suffix from encode(types, args) makes strict decode raise.", "quantifier": "every non-empty type list, accepted argument list and truncation point", "why_tests_cant": "every truncation point of every encoding", "anchors": ["eth_abi/decoding.py:FixedByteSizeDecoder.read_data_from_stream", "eth_abi/decoding.py:ByteStringDecoder.read_data_from_stream"]}
{"id": "C21", "title": "parse accepts exactly the grammar", "statement": "grammar.parse(s) returns exactly for the strings derivable in the type grammar whose numerals Python's int() converts (sys.get_int_max_str_digits), and the result is the unique derivation; a derivable string with a longer numeral raises VisitationError, and every other string raises ParseError (or ValueError when it contains '()').", "quantifier": "every string", "why_tests_cant": "all strings", "anchors": ["eth_abi/grammar.py:grammar", "eth_abi/grammar.py:NodeVisitor"]}
{"id": "C22", "title": "to_type_str inverts parse", "statement": "parse(s).to_type_str() == s for every parsable s, and parse(t.to_type_str()) == t.", "quantifier": "every parsable string", "why_tests_cant": "nesting is unbounded", "anchors": ["eth_abi/grammar.py:BasicType.to_type_str", "eth_abi/grammar.py:TupleType.to_type_str"]}
{"id": "C23", "title": "normalize is idempotent and preserves parsability", "statement": "normalize(normalize(s)) == normalize(s); s parses iff normalize(s) parses; the result differs only by replacing whole alias words by their canonical type.", "quantifier": "every string (idempotence), every parsable string (parsability)", "why_tests_cant": "all strings, including non-ASCII neighbours of the alias", "anchors": ["eth_abi/grammar.py:normalize", "eth_abi/grammar.py:TYPE_ALIAS_RE"]}
{"id": "C24", "title": "Supported type strings", "statement": "is_encodable_type(s) is True exactly for the well-formed Solidity types (uintN, intN, address, bool, fixedMxN, ufixedMxN, bytesM, bytes, function, string, their aliases, and arrays and tuples of these), and never raises.", "quantifier": "every string", "why_tests_cant": "all strings", "anchors": ["eth_abi/codec.py:ABIEncoder.is_encodable_type", "eth_abi/grammar.py:BasicType.validate", "eth_abi/registry.py:registry"]}
{"id": "C25", "title": "One notion of dynamic type", "statement": "For every supported type string, the parsed type's is_dynamic, the encoder's and the decoder's placement of the value in head or tail all agree with the ABI specification's definition of dynamic types.", "quantifier": "every supported type string", "why_tests_cant": "three separate implementations must agree for every nesting", "anchors": ["eth_abi/grammar.py:BasicType.is_dynamic", "eth_abi/grammar.py:TupleType.is_dynamic", "eth_abi/encoding.py:SizedArrayEncoder", "eth_abi/decoding.py:SizedArrayDecoder"]}
{"id": "C26", "title": "Default registry is unambiguous and symmetric", "statement": "No type string matches two default registrations; a type string has an encoder iff it has a decoder.", "quantifier": "every string", "why_tests_cant": "all strings", "anchors": ["eth_abi/registry.py:registry"]}
{"id": "C27", "title": "A lookup is served by the unique matching registration", "statement": "get_encoder/get_decoder use a registration only if it is the only one whose matcher accepts the type string; two or more raise MultipleEntriesFound; registration order does not matter.", "quantifier": "every set of registrations, every order, every type string", "why_tests_cant": "arbitrary user registrations", "anchors": ["eth_abi/registry.py:PredicateMapping.find", "eth_abi/registry.py:BaseRegistry._get_registration"]}
{"id": "C28", "title": "Caching is transparent", "statement": "After any history of register, unregister, copy and lookup calls, a lookup gives the coder the current registrations determine; a stale cached coder is never used.", "quantifier": "every finite history of registry operations, including failing ones", "why_tests_cant": "histories are unbounded", "anchors": ["eth_abi/registry.py:_clear_encoder_cache", "eth_abi/registry.py:ABIRegistry"]}
{"id": "C29", "title": "Copies are isolated", "statement": "After copy(), any further operations on one registry leave every lookup on the other unchanged.", "quantifier": "every history on both registries", "why_tests_cant": "interleaved histories are unbounded", "anchors": ["eth_abi/registry.py:ABIRegistry.copy", "eth_abi/registry.py:PredicateMapping.copy"]}
{"id": "C30", "title": "unregister undoes register", "statement": "After register(m, e, label=l) and unregister_encoder(m) with an equal matcher, or unregister by the label, the registry behaves as before the registration; in particular the label can be used again.", "quantifier": "every registry state, matcher and label", "why_tests_cant": "arbitrary states", "anchors": ["eth_abi/registry.py:PredicateMapping.remove_by_equality", "eth_abi/registry.py:PredicateMapping.remove_by_label"]}
{"id": "C31", "title": "strict=False does not leak", "statement": "A decode with strict=False does not change the result of any later decode with strict=True.", "quantifier": "every registry and every history of decodes", "why_tests_cant": "histories and registered decoders are unbounded", "anchors": ["eth_abi/registry.py:ABIRegistry._get_decoder_uncached"]}
{"id": "C32", "title": "Failed registration changes nothing", "statement": "If register or unregister raises, the registry answers every lookup as before.", "quantifier": "every registry state and every argument", "why_tests_cant": "arbitrary states", "anchors": ["eth_abi/registry.py:ABIRegistry.register", "eth_abi/registry.py:ABIRegistry.unregister"]}
{"id": "C33", "title": "Concurrent lookups see the latest registrations eventually", "statement": "When register/unregister has returned, later lookups use the new registrations, whatever lookups ran concurrently in other threads.", "quantifier": "every interleaving of one mutation and any number of lookups", "why_tests_cant": "schedules", "anchors": ["eth_abi/registry.py:_clear_encoder_cache", "eth_abi/registry.py:_clear_decoder_cache"]}
{"id": "C34", "title": "Packed encoding is concatenation", "statement": "encode_packed(types, args) is the concatenation of the packed elements: integers in N/8 bytes, bool in 1, address in 20, bytesM in M, bytes and string raw, arrays and tuples the concatenation of their items.", "quantifier": "every supported type list and accepted argument list", "why_tests_cant": "all nestings and values", "anchors": ["eth_abi/packed.py", "eth_abi/encoding.py:PackedArrayEncoder", "eth_abi/registry.py:registry_packed"]}
{"id": "C35", "title": "Packed and standard encodability agree", "statement": "is_encodable_packed(t, v) gives the same answer as is_encodable(t, v), or both raise ValueError because v is or holds an int of more than sys.get_int_max_str_digits() digits, or both raise TypeError because v is or holds a complex or a Fraction where the type has a fixed-point number; and encode_packed accepts exactly the arguments encode accepts.", "quantifier": "every type string and value", "why_tests_cant": "two registries with separate encoder classes", "anchors": ["eth_abi/packed.py:is_encodable_packed", "eth_abi/abi.py:is_encodable"]}
{"id": "C36", "title": "A tuple type encodes its components", "statement": "encode(['(t1,...,tn)'], [v]) equals encode([t1,...,tn], v) if the tuple is static, and the word 32 followed by it if the tuple is dynamic; decode mirrors this.", "quantifier": "every tuple type and value", "why_tests_cant": "all nestings", "anchors": ["eth_abi/encoding.py:TupleEncoder", "eth_abi/codec.py:ABIEncoder.encode"]}
{"id": "C37", "title": "Padding and scaling helpers", "statement": "ceil32(x) is the least multiple of 32 that is at least x; zpad, zpad_right and fpad give length max(len, n) and keep the value as suffix or prefix; abbr never exceeds its limit; scale_places(n) divides a decimal of up to 999 digits by 10^n exactly, for positive and negative n, unless the exponent range of decimals is left (decimal.Overflow), and scale_places(-n) undoes it.", "quantifier": "every integer, every byte string and every finite decimal", "why_tests_cant": "all inputs", "anchors": ["eth_abi/utils/numeric.py:ceil32", "eth_abi/utils/padding.py", "eth_abi/utils/string.py:abbr", "eth_abi/utils/numeric.py:scale_places"]}
{"id": "C38", "title": "Stream frames are balanced", "statement": "Every decoder leaves the stream's data, frame stack and base offset as it found them; a static element advances the cursor exactly by its encoded size; the cursor never moves backwards over a decoded element and ends inside the data.", "quantifier": "every supported type and every data on which decoding succeeds", "why_tests_cant": "all nestings and offsets", "anchors": ["eth_abi/decoding.py:ContextFramesBytesIO", "eth_abi/decoding.py:HeadTailDecoder"]}
{"id": "C39", "title": "Strategies generate encodable values", "statement": "Every value that get_abi_strategy(t) can generate is encodable as t, for every type string the strategy registry supports.", "quantifier": "every supported type string and every generated value", "why_tests_cant": "all generated values", "anchors": ["eth_abi/tools/_strategies.py"]}
{"id": "C40", "title": "Callable coders work inside arrays", "statement": "If a callable encoder and decoder are registered for type string t, then t[k] and t[] can be encoded and decoded.", "quantifier": "every callable registration and array type over it", "why_tests_cant": "arbitrary user registrations", "anchors": ["eth_abi/encoding.py:BaseArrayEncoder.validate_value", "eth_abi/encoding.py:SizedArrayEncoder", "eth_abi/decoding.py:BaseArrayDecoder"]}
{"id": "C41", "title": "Aliases behave as the canonical type", "statement": "encode and decode with int, uint, fixed, ufixed, function or byte anywhere in a type string behave as with int256, uint256, fixed128x18, ufixed128x18, bytes24, bytes1.", "quantifier": "every type string and value", "why_tests_cant": "all nestings and values", "anchors": ["eth_abi/grammar.py:TYPE_ALIASES", "eth_abi/base.py:parse_type_str"]}
{"id": "C42", "title": "Decoded values are in the type's range", "statement": "Every value decode returns for uintN lies in 0..2^N-1, for intN in its range, bool is a bool, bytesM has M bytes, T[k] has k items, address is 0x and 40 lower-case hex digits.", "quantifier": "every type and every data, strict or not", "why_tests_cant": "adversarial data", "anchors": ["eth_abi/decoding.py"]}
{"id": "C43", "title": "Encoding is injective", "statement": "Two argument lists with the same encoding for the same types denote the same values.", "quantifier": "every type list and every two accepted argument lists", "why_tests_cant": "pairs of values of every type", "anchors": ["eth_abi/encoding.py"]}
{"id": "C44", "title": "Decoding cost is bounded by a polynomial of the data", "statement": "The number of elements decode visits is bounded by a fixed polynomial in the length of data and of the type string.", "quantifier": "every type and every data", "why_tests_cant": "adversarial data and deep nesting", "anchors": ["eth_abi/decoding.py:TupleDecoder.validate_pointers", "eth_abi/decoding.py:HeadTailDecoder.decode"]}
{"id": "C45", "title": "ABIType equality is type equality", "statement": "parse(s1) == parse(s2) iff s1 == s2, and distinct parsed types never compare equal.", "quantifier": "every two parsable strings", "why_tests_cant": "all pairs of strings", "anchors": ["eth_abi/grammar.py:ABIType.__eq__"]}
{"id": "C46", "title": "Parameter validation", "statement": "encode raises TypeError unless args is a list or tuple, decode raises TypeError unless data is bytes or bytearray, and encode with a number of args different from the number of types raises ValueOutOfBounds (ValueError if args holds an int of more than sys.get_int_max_str_digits() digits).", "quantifier": "every value of args and data", "why_tests_cant": "any Python value", "anchors": ["eth_abi/utils/validation.py", "eth_abi/codec.py"]}
{"id": "C47", "title": "Registered coders compose", "statement": "If an encoder and a decoder that belong together are registered for a type string, then this type can be used like a built-in one: as an argument, in tuples and, if the coders have the attribute is_dynamic, in arrays, in any nesting with other types, and decode returns what encode was given. Coders belong together if the decoder reads back each value that the encoder accepts, both agree on is_dynamic, and a static encoding has at least 32 bytes (32 for each element of array_size).", "quantifier": "every registry history, every pair of coders that belong together, every type string built from them with tuples and arrays, every accepted argument list, both values of strict", "why_tests_cant": "arbitrary user coders and nestings", "anchors": ["docs/registry.rst", "eth_abi/registry.py:ABIRegistry.register", "eth_abi/encoding.py:TupleEncoder", "eth_abi/encoding.py:BaseArrayEncoder", "eth_abi/decoding.py:TupleDecoder", "eth_abi/decoding.py:BaseArrayDecoder"]}
{"id": "C48", "title": "Handling malformed strings", "statement": "With StringDecoder(handle_string_errors=...) registered for a name, decode of any type in which this name occurs returns what decode returns for the type with bytes in its place, with these bytes read by bytes.decode('utf-8', errors=...). If the handler never raises, decode raises exactly when it does for bytes. Registered together with TextStringEncoder as in the documentation, the name encodes like string.", "quantifier": "every registry history without strict=False, every handler, every nesting of the name in tuples and arrays, all data", "why_tests_cant": "all malformed byte sequences, all nestings and all handlers", "anchors": ["docs/registry.rst:Handling Malformed Strings", "eth_abi/decoding.py:StringDecoder", "eth_abi/encoding.py:TextStringEncoder.from_type_str"]}
{"id": "C49", "title": "Threads that share a registry do not disturb each other", "statement": "Any number of threads may call encode, decode, is_encodable, is_encodable_type, get_encoder, get_decoder and copy on the same codec or registry at the same time, and do anything with other registries. As long as nobody registers or unregisters something in that registry, every call has the outcome that it has in a single thread; for decode this takes that no decoder object (as opposed to a decoder class or a function) is registered, because the strict attribute of such an object is shared, and then the outcome is the one for some value of that attribute.", "quantifier": "every reachable heap, any number of threads, all lists of calls, every schedule, switching threads between any two accesses to a dict or cache", "why_tests_cant": "schedules", "anchors": ["eth_abi/registry.py:PredicateMapping.find", "eth_abi/registry.py:ABIRegistry", "eth_abi/codec.py:ABIEncoder", "eth_abi/codec.py:ABIDecoder"]}
{"id": "C50", "title": "Registering while other threads use the registry", "statement": "A call on a registry that other threads change at the same time has the outcome that the registrations determine at some moment of the run.", "quantifier": "every reachable heap, any number of threads, all lists of calls, every schedule", "why_tests_cant": "schedules", "anchors": ["eth_abi/registry.py:PredicateMapping.find", "eth_abi/registry.py:PredicateMapping.add", "eth_abi/registry.py:ABIRegistry.has_encoder"]}
{"id": "C51", "title": "Every call finishes", "statement": "In every schedule in which a thread gets its turn again and again, each of its calls on codecs and registries returns or raises, whatever the other threads do, and its calls are made in their order.", "quantifier": "every heap, any number of threads, all lists of calls, every fair schedule", "why_tests_cant": "schedules without end", "anchors": ["eth_abi/registry.py:PredicateMapping.find", "eth_abi/registry.py:ABIRegistry", "eth_abi/codec.py"]}
{"id": "C52", "title": "Arrays in terms of tuples and of their elements", "statement": "Writing T[k] as the tuple (T,...,T), anywhere in the types, changes nothing: encode and encode_packed accept the same arguments and return the same bytes, decode accepts the same data and returns the same value. encode(['T[]'], [v]) with a list v of n values is the words 32 and n followed by encode(['T']*n, v), with the same exceptions, and decode undoes exactly that.", "quantifier": "all supported types and nestings, any choice of the arrays that are rewritten, all arguments, all data, strict or not", "why_tests_cant": "all types, values and data", "anchors": ["eth_abi/encoding.py:BaseArrayEncoder", "eth_abi/encoding.py:TupleEncoder", "eth_abi/decoding.py:SizedArrayDecoder", "eth_abi/decoding.py:DynamicArrayDecoder", "eth_abi/decoding.py:TupleDecoder.validate_pointers"]}
{"id": "C53", "title": "The form of a value does not matter", "statement": "encode, encode_packed, is_encodable and is_encodable_packed do the same, exceptions included (or both refuse, with exceptions that may differ, if a value holds an int of more than sys.get_int_max_str_digits() digits), with values that differ in form only: a list, a tuple and any other sequence (range, deque) of the same items inside the arguments, bytes and a bytearray of the same content, an int, a bool and Decimals of the same value where a fixed-point number is expected, and two spellings of one address. decode does the same with bytes and with a bytearray.", "quantifier": "all supported types and nestings, all arguments, all data; any mix of the differences at any depth", "why_tests_cant": "all values, and all combinations of the ways to write them", "anchors": ["eth_abi/encoding.py:BaseFixedEncoder", "eth_abi/encoding.py:AddressEncoder", "eth_abi/encoding.py:BaseArrayEncoder", "eth_abi/encoding.py:TupleEncoder", "eth_abi/encoding.py:ByteStringEncoder", "eth_abi/codec.py:ABIDecoder.decode"]}
{"id": "C54", "title": "Decoding some of the arguments", "statement": "Data that decode with a list of types decode with its first k types, to the first k of the values. For static types in two lists, exactly those data decode with both lists together that decode with the first list and whose rest, behind the fixed length of the first, decodes with the second; the value is both values together.", "quantifier": "all lists of types, all data, every k, strict or not", "why_tests_cant": "all types and data, including data no encoder made", "anchors": ["eth_abi/codec.py:ABIDecoder.decode", "eth_abi/decoding.py:TupleDecoder.decode", "eth_abi/decoding.py:TupleDecoder.validate_pointers"]}
{"id": "C55", "title": "Coder objects with sizes of one's own", "statement": "An encoder or decoder object of a fixed-size class (integers, booleans, addresses, fixed-point numbers, bytesM) can be constructed with a value size and a data size of the caller's choice. A keyword argument the class does not have raises AttributeError; missing sizes, a value size that is no whole number of bytes or exceeds the data size, and decimal places outside 1 to 80 raise ValueError; everything else gives an object. The encoder object encodes exactly the values of its type into that many bytes, the decoder object accepts exactly those bytes, advances the stream by the data size and changes nothing else, and the two are inverse to each other.", "quantifier": "all fixed-size classes, all keyword arguments, all values, all stream contents and positions", "why_tests_cant": "unbounded sizes; the registry itself only ever makes objects with 32 bytes of data (or the packed size), so the tests of the codec never meet other sizes", "anchors": ["eth_abi/base.py:BaseCoder.__init__", "eth_abi/encoding.py:FixedSizeEncoder", "eth_abi/encoding.py:AddressEncoder.validate", "eth_abi/decoding.py:FixedByteSizeDecoder", "eth_abi/decoding.py:SignedIntegerDecoder.validate_padding_bytes"]}
{"id": "C56", "title": "A registry is a list of labelled entries", "statement": "After any history of calls, the encoders of a registry, its decoders, and the strategies of a strategy registry are a list of entries, each with a matcher, perhaps a label, and a coder. register adds an entry and raises exactly if an entry has an equal matcher or the same label (ValueError) or the lookup is neither a string nor callable (TypeError); unregister removes the entry with the label or an equal matcher, and raises KeyError exactly if there is none; a call that raises changes nothing. register and unregister do the encoders and then the decoders. Lookups find the coder of the only entry that matches, and raise if none or two do.", "quantifier": "all histories of calls on any number of registries (creation, copies, registrations, lookups, codec calls), all matchers, labels and coders, all type strings", "why_tests_cant": "the code keeps two dicts that must stay consistent over every sequence of calls and copies", "anchors": ["eth_abi/registry.py:PredicateMapping", "eth_abi/registry.py:BaseRegistry", "eth_abi/registry.py:ABIRegistry", "eth_abi/tools/_strategies.py:StrategyRegistry"]}
{"id": "C57", "title": "is_encodable answers for encode, whatever is registered", "statement": "With any encoders registered: if encode(types, args) returns, is_encodable is True for each type and argument. If is_encodable(typ, arg) is False, encode([typ], [arg]) raises an EncodingError, or the exception of looking up an encoder for typ. If is_encodable raises, encode raises the same. For a registered callable, is_encodable is True exactly if the callable returns for this value and exactly if encode returns, and False exactly if they raise an EncodingError.", "quantifier": "all histories of calls, all registries and registered encoders (objects with or without validate_value), all type strings and values", "why_tests_cant": "the encoders are arbitrary code of the user; every value and history", "anchors": ["eth_abi/codec.py:ABIEncoder.is_encodable", "eth_abi/codec.py:ABIEncoder.encode", "eth_abi/encoding.py:TupleEncoder.validate_value"]}
{"id": "C58", "title": "The work of a successful decode is determined by the value", "statement": "If decode(types, data) returns v, the number of decoder calls it made depends only on the types and v, not on the layout of the data: one for each value and sequence, one more for each length, three more for each component of dynamic type, and a static component of a tuple is decoded twice. It lies between the number of parts of v and 5 * 2^(d+1) times that number, where d is how deep tuples are nested in the types (10 times that number without tuples).", "quantifier": "all supported type lists, all data, strict or not", "why_tests_cant": "all type nestings and all data, valid in any layout", "anchors": ["eth_abi/decoding.py:TupleDecoder.validate_pointers", "eth_abi/decoding.py:TupleDecoder.decode", "eth_abi/decoding.py:BaseArrayDecoder.validate_pointers", "eth_abi/decoding.py:HeadTailDecoder"]}
{"id": "C59", "title": "Coder objects with the other is_big_endian", "statement": "An encoder and a decoder object of a fixed-size class can be constructed with is_big_endian=False (True for bytesM); None raises ValueError. The decoder object then accepts exactly the usual encodings with the padding moved to the other side. The encoder object encodes exactly the values of its type (off-grid negative fixed-point values aside): booleans and addresses with the padding on the other side, unsigned numbers in as few bytes as they need followed by zeros, signed numbers as if the argument had not been given, bytes after zeros. With the same arguments the decoder returns what the encoder was given exactly if it is a boolean or an address, an unsigned number that is 0 or needs all bytes of its size, a signed number that is 0 or -1 or has no padding, or bytes of full length or of zeros; in particular an unsigned encoder of at least 16 bits gives 1 and 256 the same encoding.", "quantifier": "all fixed-size classes with the value sizes they are meant for (8 bits for bool, 160 for addresses, 8 to 256 for fixed-point numbers, any from 8 for the others), all data sizes, all values, all stream contents and positions", "why_tests_cant": "no object of the library is made with this argument, and whether a value survives depends on its magnitude and on the size of the object", "anchors": ["eth_abi/encoding.py:FixedSizeEncoder.encode", "eth_abi/encoding.py:SignedIntegerEncoder.encode", "eth_abi/encoding.py:SignedFixedEncoder.encode", "eth_abi/decoding.py:FixedByteSizeDecoder.split_data_and_padding", "eth_abi/base.py:BaseCoder.__init__"]}
{"id": "C60", "title": "What encode writes for arguments off the fixed-point grid", "statement": "encode accepts a list of arguments exactly if it takes each of them for something, and writes the encoding the ABI specification gives for what they are taken for; encode_packed likewise. Every argument is taken for the value it denotes, except numbers given for fixedMxN that are not multiples of 10^-N: a positive one is refused, a negative one in range is taken for the next multiple towards zero, but for -256 * 10^-N if that multiple is zero. decode returns what was taken, so Decimal('-1.239') as a fixed16x2 comes back as -1.23 and Decimal('-0.001') as -2.56; for fixed8xN the latter raises NonEmptyPaddingBytes.", "quantifier": "all lists of supported types of any nesting, all arguments in which no Decimal has more than 900 digits after the point, of any size a machine could hold", "why_tests_cant": "the fixed-point arguments are infinitely many, at any depth of a type, and the outcome depends on sign, size, digits and bit width", "anchors": ["eth_abi/encoding.py:BaseFixedEncoder.illegal_value_fn", "eth_abi/encoding.py:BaseFixedEncoder.validate_value", "eth_abi/encoding.py:SignedFixedEncoder.encode", "eth_abi/encoding.py:UnsignedFixedEncoder.encode_fn", "eth_abi/codec.py:ABIEncoder.encode"]}
{"id": "C61", "title": "Coder objects put together by hand from array, tuple and elementary classes", "statement": "Encoders made from TupleEncoder, SizedArrayEncoder, DynamicArrayEncoder, ByteStringEncoder, TextStringEncoder and the fixed-size classes with sizes of one's own, nested in any way, encode exactly the values of the type they are for, by the head/tail rule of the ABI with the chosen number of bytes for each elementary value. The decoders made in the same way return what was encoded, wherever it is in the stream, provided that in each tuple with a dynamic component the heads have at least 32 bytes for each word the decoder reckons (one per component, k for an array of k static elements). In a tuple where they have less, the decoder refuses every encoding with InvalidPointer. Without components or an element coder the constructors raise ValueError, and so does SizedArrayEncoder without array_size; SizedArrayDecoder without it is made and raises TypeError on every call.", "quantifier": "all nestings of these classes, with arrays of fixed length and tuples not empty, all sizes, all values, all streams the encoding is a part of", "why_tests_cant": "nestings, sizes and values are unbounded", "anchors": ["eth_abi/encoding.py:TupleEncoder", "eth_abi/encoding.py:BaseArrayEncoder", "eth_abi/encoding.py:SizedArrayEncoder", "eth_abi/encoding.py:DynamicArrayEncoder", "eth_abi/decoding.py:TupleDecoder", "eth_abi/decoding.py:TupleDecoder.validate_pointers", "eth_abi/decoding.py:BaseArrayDecoder", "eth_abi/decoding.py:SizedArrayDecoder", "eth_abi/decoding.py:DynamicArrayDecoder"]}
{"id": "C62", "title": "The work of encode is bounded by the size of the argument times the nesting of the types", "statement": "Count the calls of validate_value that encode(types, args) or encode_packed(types, args) makes (every call of an encoder begins with one). For supported types and any argument at all, accepted or refused, the count is at most the number of parts of the argument (each value, list and tuple counts one) times the depth of nested arrays and tuples in the types plus four. When the call returns, the count is a function of the types and the argument: each list or tuple is checked with everything in it and then its items are checked again when they are encoded. The factor is real: for n nested one-component tuples around a uint8 the count is exactly (n+2)(n+3)/2 for an argument of n+2 parts. is_encodable and is_encodable_packed check no part more than once, and each part exactly once when they return True.", "quantifier": "every list of supported type strings, every Python value as argument (accepted or refused), every nesting depth n; both the standard and the packed functions", "why_tests_cant": "A test measures the work for the arguments it tries; the bound is about all types, all nestings and all arguments, including those that are refused half way.", "anchors": ["eth_abi/encoding.py: TupleEncoder.validate_value, TupleEncoder.encode, BaseArrayEncoder.validate_value, BaseArrayEncoder.encode_elements, DynamicArrayEncoder.encode", "eth_abi/codec.py: ABIEncoder.encode, ABIEncoder.is_encodable"]}
{"id": "C63", "title": "How deep calls are nested is bounded by the types, never by the data or the argument", "statement": "Python refuses to nest calls too deep. Count the decoder calls that are on the stack at one time in decode(types, data, strict): for supported types and any data at all, accepted or refused, there are at most twice as many as arrays and tuples are nested in the types, plus four. The calls of encoders and of validate_value that are on the stack at one time in encode(types, args) or encode_packed(types, args) are at most as many as arrays and tuples are nested in the types, plus four, whatever the arguments and however deep these are nested themselves; in is_encodable and is_encodable_packed at most that nesting plus one. So a caller with fixed types cannot be driven into a RecursionError by data or arguments. The types do count: n nested one-component tuples nest n+2 decoder calls on any data, and at least n+3 calls in encode.", "quantifier": "every list of supported type strings, every byte string as data (accepted or refused), strict or not, every Python value as argument (accepted or refused), every nesting depth n; standard and packed functions", "why_tests_cant": "A test sees the depth for the inputs it tries; that no data and no argument can make the calls nest deeper is a claim about all of them.", "anchors": ["eth_abi/decoding.py: HeadTailDecoder.decode, TupleDecoder.validate_pointers, TupleDecoder.decode, SizedArrayDecoder.decode, DynamicArrayDecoder.decode", "eth_abi/encoding.py: TupleEncoder.validate_value, TupleEncoder.encode, BaseArrayEncoder.validate_value, BaseArrayEncoder.encode_elements, DynamicArrayEncoder.encode", "eth_abi/codec.py: ABIEncoder.encode, ABIEncoder.is_encodable, ABIDecoder.decode"]}
{"id": "C64", "title": "from_type_str of the library's classes makes the registry's coder or refuses", "statement": "Called by itself or registered for further names, from_type_str of a coder class makes, from any name of a type that the class is for (aliases included), the same coder that the registry has for this type, for the standard encoders, the packed encoders and the decoders. For the name of a type that the class is not for it raises ValueError, and for a string that is not the name of a type it raises one of ParseError, ValueError, VisitationError, ABITypeError and NoEntriesFound. The classes of elementary types look nothing up in the registry. The decorator parse_type_str(base, with_arrlist), for a word that the library gives no meaning, calls the decorated function exactly for the strings made of this word, any sub part, and array dimensions if and only if these are asked for, and passes the parts as they stand in the string; otherwise it raises, and a string of the grammar is always refused with ValueError.", "quantifier": "every class, every string, every type with every nesting, every word of letters as base", "why_tests_cant": "The strings and the types are infinitely many, and a class that takes too much is noticed only with the string it should have refused.", "anchors": ["eth_abi/base.py: parse_type_str, parse_tuple_type_str", "eth_abi/encoding.py: from_type_str of all classes", "eth_abi/decoding.py: from_type_str of all classes"]}
{"id": "C65", "title": "An ABITypeError points at the first invalid part of the type string", "statement": "validate() of a parsed type string raises exactly if one of the elementary types written in it breaks a rule, and then raises an ABITypeError whose text names the first such elementary type as written (array dimensions included), the column where it stands in the string counted from one, the whole string, and the rule it breaks; there is only one such text. The type of the items of an array raises the same as the array. The parsed type and each component, at any depth, keeps the position where its own text stands in the string. A type which is not parsed but made from BasicType and TupleType never raises ABITypeError: validate() returns if it is valid and raises AttributeError if not.", "quantifier": "every string that parse accepts, every component at every depth; every type made by hand", "why_tests_cant": "A position that is off for some nesting, or a later fault reported before an earlier one, shows only with the string in which they differ; the strings are infinitely many.", "anchors": ["eth_abi/grammar.py: NodeVisitor.visit_tuple_type, visit_basic_type, ABIType.invalidate, TupleType.validate, BasicType.validate, item_type"]}
{"id": "C66", "title": "encode_packed gives what Solidity's abi.encodePacked gives", "statement": "For the types that Solidity's non-standard packed mode has (value types, bytes, string, and arrays of value types), encode_packed gives the bytes that the Solidity specification prescribes: value types in their own width, bytes and string in place without length, elements of arrays as words of 32 bytes without length.", "quantifier": "every list of types of packed mode, every list of arguments", "why_tests_cant": "The library's tests compare with its own expectation; the agreement must hold for every type and every argument, and fails just for arrays with short elements.", "anchors": ["eth_abi/packed.py: encode_packed", "eth_abi/encoding.py: PackedArrayEncoder and the other packed encoders", "docs/encoding.rst: Non-Standard Packed Mode Encoding"]}
{"id": "C67", "title": "Which types encode_packed tells apart", "statement": "If the types have between them at most one part of variable length (a bytes, a string, or a T[] whose T has fixed length, not inside an array of more than one), two lists of arguments with the same packed encoding denote the same values. For all other types there are two lists of arguments that denote different values and have the same packed encoding. For types of fixed length the packed encoding has always the same length.", "quantifier": "every list of types with every nesting, every pair of argument lists", "why_tests_cant": "Uniqueness is about all pairs of arguments; signatures and hashes of packed data rely on it.", "anchors": ["eth_abi/packed.py: encode_packed", "eth_abi/encoding.py: packed encoders"]}
{"id": "C68", "title": "Encoding again what was decoded tells canonical data from other data", "statement": "Take data that decode accepts (strictly or not). They are, byte for byte, the ABI encoding of some values exactly if encode of the decoded values gives these data back; they begin with the ABI encoding of some values exactly if they begin with what encode gives for the decoded values. Of all data that decode to the same values at most one is such an encoding. So a caller who needs a unique representation can compare encode(types, decode(types, data)) with data, and no data pass this check wrongly or fail it wrongly.", "quantifier": "every list of supported types, every byte string below the length bound that decode accepts, both modes", "why_tests_cant": "Data that decode leniently (offsets out of order, bytes skipped, overlapping tails) are infinitely many for each type, and a check that passes one wrong input is unsound.", "anchors": ["eth_abi/codec.py: ABIEncoder.encode, ABIDecoder.decode"]}
{"id": "C69", "title": "The cache of parse is not seen, unless somebody assigns to its results", "statement": "grammar.parse gives, after every history of parsing and of making types, the same exception or the same type as if nothing were cached. It gives the very same object for a string for ever. That object goes on showing the type of its string after every history that does not assign to its attributes or to those of its components; objects made for different strings have no component in common, so changing one result never affects another string. (Full claim, false: parse always gives the type of its string. If a caller assigns to an attribute of a result, every later parse of that string, by anybody, gives the changed type.)", "quantifier": "every history of parse, construction and assignment; every string", "why_tests_cant": "A shared object shows its effect only after a history that changed it; the histories are infinitely many.", "anchors": ["eth_abi/grammar.py: NodeVisitor.__init__, _parse_uncached, parse, ABIType, BasicType, TupleType"]}
{"id": "C70", "title": "Wider number types are compatible", "statement": "Replace number types inside the types by wider ones, at any depth: uintN or intN by more bits, uintN by an intM with M > N, and the same for ufixed and fixed with the same number of decimals. Whatever encode gives for the narrow types it gives, byte for byte, for the wide ones. Whatever decode reads with the narrow types, from any data and in both modes, it reads with the wide ones. And decoding with the narrow types is decoding with the wide types and then checking that encode takes the values for the narrow types: there is no other difference.", "quantifier": "every list of supported types and every way to widen it, every argument, every byte string, both modes", "why_tests_cant": "Types of any nesting, all values and all data, also data that are not canonical.", "anchors": ["eth_abi/encoding.py: NumberEncoder, UnsignedIntegerEncoder, SignedIntegerEncoder, UnsignedFixedEncoder, SignedFixedEncoder", "eth_abi/decoding.py: FixedByteSizeDecoder.validate_padding_bytes, SignedIntegerDecoder, SignedFixedDecoder", "eth_abi/codec.py: encode, decode"]}
{"id": "C71", "title": "The layout of data and the types of its words are read independently", "statement": "Replace, at any depth, every type of one word (uint, int, bool, address, fixed, ufixed, bytesM) by bytes32 and string by bytes. Whatever decode reads with the original types it reads with these, from any data: the words and the UTF-8 bytes of the values. Conversely, if the words and bytes that it reads with these are those of values of the original types, it reads these values with the original types. So types of the same layout may be exchanged (bool for uint8, address for uint160, string for bytes, fixed for int): values with the same words are read from the same data and have the same encoding.", "quantifier": "all supported type lists, all data, strict or not, all values; for encode all arguments that denote values", "why_tests_cant": "It relates two runs on arbitrary, also non-canonical, data for every nested combination of types.", "anchors": ["eth_abi/codec.py: ABIEncoder.encode, ABIDecoder.decode", "eth_abi/decoding.py: TupleDecoder, SizedArrayDecoder, DynamicArrayDecoder, BooleanDecoder, AddressDecoder, BytesDecoder, StringDecoder, ByteStringDecoder, UnsignedIntegerDecoder, SignedIntegerDecoder, UnsignedFixedDecoder, SignedFixedDecoder", "eth_abi/encoding.py: TupleEncoder, SizedArrayEncoder, DynamicArrayEncoder"]}
{"id": "C72", "title": "Only lists and tuples of type strings are accepted as types", "statement": "encode, encode_packed and decode return a result only if `types` is a list or a tuple whose items are all strings that name supported types. Anything else (a single string, a generator, a dict, None) raises TypeError, whatever the other arguments are; a list with an item that is not a string (bytes, an int, a parsed type) raises TypeError if the strings before it are supported and the other argument is of the right kind, and a string with a lone surrogate raises ParseError, or ValueError if it contains `()`. is_encodable_type and is_encodable answer False, and never raise, for a type that is not such a string. grammar.parse raises TypeError exactly for what is not a string.", "quantifier": "all Python values of the model as `types`, `type` and items, all arguments and data, strict or not", "why_tests_cant": "The wrong arguments are infinitely many, and a wrong item may follow any list of good ones.", "anchors": ["eth_abi/codec.py: ABIEncoder.encode, ABIEncoder.is_encodable, ABIEncoder.is_encodable_type, ABIDecoder.decode", "eth_abi/utils/validation.py: validate_list_like_param, validate_bytes_param", "eth_abi/registry.py: BaseRegistry._get_registration, PredicateMapping.find, has_encoder", "eth_abi/grammar.py: parse"]}
{"id": "C73", "title": "Which exception a wrong argument leads to", "statement": "encode, encode_packed, is_encodable and is_encodable_packed report the first thing wrong with the arguments: EncodingTypeError for a value of the wrong Python type (and for any value that is no address where one is due), ValueOutOfBounds for a number out of range, a bytesM value that is too long, a tuple or fixed-size array with the wrong number of items, IllegalValue for NaN, infinities and positive Decimals between two multiples of 10^-N. Components of a tuple are looked at in order after their number, elements of an array in order before their number. So the exception for a list of arguments, a tuple or an array is that of its first item that is_encodable does not accept, whatever follows it; a TypeError comes only from a complex or a Fraction given for a fixed-point number, and ValueError takes the place of an EncodingError only where the part at fault holds an int that Python does not print.", "quantifier": "all supported types, all Python values and all argument lists (of a size that fits in memory), the standard and the packed codec", "why_tests_cant": "the order of the checks matters only for values with several faults, and the combinations of types, depths and faults are unbounded; the boundary between accepted and illegal decimals lies at numbers with a million decimal places", "anchors": ["eth_abi/encoding.py:TupleEncoder.validate_value", "eth_abi/encoding.py:BaseArrayEncoder.validate_value", "eth_abi/encoding.py:SizedArrayEncoder.validate_value", "eth_abi/encoding.py:NumberEncoder.validate_value", "eth_abi/encoding.py:BaseFixedEncoder.validate_value", "eth_abi/encoding.py:BytesEncoder.validate_value", "eth_abi/exceptions.py:EncodingTypeError", "eth_abi/exceptions.py:IllegalValue", "eth_abi/exceptions.py:ValueOutOfBounds", "eth_abi/codec.py:ABIEncoder.is_encodable"]}
{"id": "C74", "title": "Which errors of decode more data may cure", "statement": "If a strict decode raises an exception other than InsufficientDataBytes and InvalidPointer, it raises the same exception for the same data with any bytes appended. So if some data can be decoded, every beginning of it decodes to the same value or raises InsufficientDataBytes or InvalidPointer, and an encoding (of values on the fixed-point grid) with its end missing always raises one of these two. If all types are static, decode raises InsufficientDataBytes only for data shorter than the size of the types, never InvalidPointer, and a beginning, shorter than that, of data that can be decoded raises exactly InsufficientDataBytes.", "quantifier": "all supported type lists, all data, all bytes appended (up to the size a bytes object can have)", "why_tests_cant": "Every way to cut data and everything that may follow cannot be enumerated; a reader that waits for more data relies on the exception of every beginning.", "anchors": ["eth_abi/decoding.py: ContextFramesBytesIO, HeadTailDecoder.decode, TupleDecoder.validate_pointers, BaseArrayDecoder.validate_pointers, SingleDecoder.decode, ByteStringDecoder.read_data_from_stream", "eth_abi/codec.py: ABIDecoder.decode", "eth_abi/exceptions.py: InsufficientDataBytes, InvalidPointer, NonEmptyPaddingBytes"]}
{"id": "C75", "title": "An argument list is encoded as its arguments are encoded one by one", "statement": "encode accepts a list of arguments exactly if it accepts each of them alone (and the encoding has less than 2^256 bytes), and the result depends only on the encodings of the single arguments: heads, then tails, where the encoding of a static argument is its head, and that of a dynamic argument without its first word is its tail. So if two argument lists are accepted, one followed by the other is accepted and its encoding is as long as both together; if the types of the first list are static the encoding begins with that of the first list, and if all are static it is the concatenation. Every beginning and every end of an accepted argument list is accepted.", "quantifier": "all supported type lists, all lists and tuples of Python values", "why_tests_cant": "The argument lists are of any length and the offsets of each argument depend on all others.", "anchors": ["eth_abi/codec.py: ABIEncoder.encode", "eth_abi/encoding.py: TupleEncoder.encode, TupleEncoder.validate_value"]}
{"id": "C76", "title": "Encodings of unsigned static values are in the order of the values", "statement": "For types made of uintN, ufixedMxN, bool, address and bytesM by tuples and arrays of fixed size, the encodings of two argument lists, compared as Python compares bytes, are in the order of the values: numbers by size, addresses and bytesM as bytes, sequences by their first difference. For intN the encodings of two integers are in the order of the integers except that every negative integer comes after all others.", "quantifier": "all such type lists, all pairs of accepted arguments on the fixed-point grid", "why_tests_cant": "The order must hold for every pair of values of every width and nesting.", "anchors": ["eth_abi/encoding.py: UnsignedIntegerEncoder, UnsignedFixedEncoder, BooleanEncoder, AddressEncoder, BytesEncoder, SizedArrayEncoder, TupleEncoder", "eth_abi/utils/padding.py: zpad, zpad_right", "eth_abi/utils/numeric.py: int_to_big_endian"]}
{"id": "C77", "title": "Which exception wrong data lead to", "statement": "decode(types, data, strict) reports the first thing wrong with the data. A container (the argument list, a tuple, an array) is read in two rounds: first its heads from left to right, where static components are read and the offsets of dynamic ones are looked at, and then the dynamic components where the offsets point, from left to right. A word that the data ends before is InsufficientDataBytes; an offset before the end of the head, as the library counts it, or behind the data is InvalidPointer; a word that is not the encoding of a value of the type is NonEmptyPaddingBytes; a byte string is OverflowError if its length is more than 2^63-32, and in strict mode InsufficientDataBytes if it is cut and NonEmptyPaddingBytes if the padding is not zero; a string that is not UTF-8 is UnicodeDecodeError. decode raises exactly the exception found in this way and returns exactly the values that are read if there is none. An exception for static first arguments is the exception for the whole list.", "quantifier": "all supported type lists, all bytes, strict or not", "why_tests_cant": "every combination of faults in data of any length, for types of any nesting", "anchors": ["eth_abi/decoding.py:TupleDecoder.validate_pointers", "eth_abi/decoding.py:BaseArrayDecoder.validate_pointers", "eth_abi/decoding.py:HeadTailDecoder", "eth_abi/decoding.py:ByteStringDecoder", "eth_abi/decoding.py:StringDecoder", "eth_abi/decoding.py:FixedByteSizeDecoder"]}
{"id": "C78", "title": "What the exceptions of decode say", "statement": "When decode refuses data with one of the library's exceptions, the text of the exception says what is wrong: how many bytes were wanted and how many were there; in which kind of container, and at which position of the data, the first bad offset stands; which bytes beside a value are not as they should be; or which byte was given for a boolean. The text is determined by the first thing that is wrong (in the order of C77), two different things never have the same text, the counts and positions are those of the data, and the bytes it shows are bytes of the data. Bytes that the text calls not empty are not all zeros - which is false of the code for the signed types.", "quantifier": "all lists of supported types, all data of any length that Python can hold, strict or not", "why_tests_cant": "a position or count in a message is right or wrong for every place in every payload; tests look at the class of the exception, and at the text of a few.", "anchors": ["eth_abi/decoding.py: TupleDecoder.validate_pointers, BaseArrayDecoder.validate_pointers, FixedByteSizeDecoder.read_data_from_stream, FixedByteSizeDecoder.validate_padding_bytes, SignedIntegerDecoder.validate_padding_bytes, BaseFixedDecoder.validate_padding_bytes, BooleanDecoder.decoder_fn, ByteStringDecoder.read_data_from_stream"]}
{"id": "C79", "title": "Which bytes of the data a decoded value depends on", "statement": "A decoded value depends on no more bytes of the data than its own encoding has: if data decode to a value whose encoding has n bytes, then there are at most n positions such that all data with the same bytes at these positions (of the same length, or, in strict mode, of this length or longer) decode to the same value, whatever they hold elsewhere. So if the data are longer than the encoding of the decoded value, some byte of them can be changed at will without any effect.", "quantifier": "all lists of supported types, all data that decode, canonical or not, strict or not, and all other data that agree with them at these positions", "why_tests_cant": "it speaks about all other data, and about data in which offsets point anywhere; tests look at canonical encodings.", "anchors": ["eth_abi/decoding.py: ContextFramesBytesIO, HeadTailDecoder.decode, TupleDecoder.decode, BaseArrayDecoder.decode, ByteStringDecoder.read_data_from_stream", "eth_abi/codec.py: ABIDecoder.decode"]}
{"id": "C80", "title": "Which exception a type string without a coder leads to", "statement": "With the default registry, encode, encode_packed and decode raise, whatever the argument list or the data hold, the exception of the first type string that has no coder, and this exception is a function of the string: ValueError if the string is outside the grammar and contains \"()\", ParseError if it is outside otherwise, VisitationError if a number in it is too long for int; for a name alone, ABITypeError if the base is known and the suffix is wrong, ValueError for function with a suffix, NoEntriesFound for an unknown base and for byte; for an array or a tuple, ABITypeError if the suffix of any name inside is wrong, also of a name to the right of an unknown one, and otherwise the exception of the first name from the left without a coder. Every string that is not the name of a supported type has exactly one such exception.", "quantifier": "every type string, every list of type strings, every argument list and data", "why_tests_cant": "all strings, in all nestings, with the first of several mistakes deciding", "anchors": ["eth_abi/registry.py:ABIRegistry.get_encoder", "eth_abi/registry.py:PredicateMapping.find", "eth_abi/base.py:parse_type_str", "eth_abi/base.py:parse_tuple_type_str", "eth_abi/codec.py:ABIEncoder.encode", "eth_abi/codec.py:ABIDecoder.decode"]}
{"id": "C81", "title": "The text of an encoding exception names the first part at fault, and the limits it names are the true ones", "statement": "When encode or encode_packed raises an EncodingError for wrong arguments of supported types, its text quotes the first part of the arguments that is at fault (shortened to 79 characters), that part's Python type, the encoder class for the type of that part, and the reason: the number of items found and expected, the number of bits with the least and the greatest number, the residue with the number of decimal places allowed, the greatest number of bytes, or that a list was due. There is such a text exactly when an EncodingError is raised. The limits in it are true: exactly the integers in the range named (for fixed-point types, the multiples of the unit) are encodable, exactly the byte strings up to the size named, only the number of items named; and taking the residue away leaves a multiple of the unit.", "quantifier": "all lists of supported types, all argument lists of all Python values, both encode and encode_packed; for the limits, all integers, multiples of the unit, byte strings and sequences", "why_tests_cant": "Tests compare a few texts with expected strings; which nested part is quoted and whether the limits named agree with what is accepted must hold for every type and every value.", "anchors": ["eth_abi/encoding.py:BaseEncoder.invalidate_value", "eth_abi/encoding.py:TupleEncoder.validate_value", "eth_abi/encoding.py:NumberEncoder.validate_value", "eth_abi/encoding.py:BaseFixedEncoder.validate_value", "eth_abi/encoding.py:BytesEncoder.validate_value", "eth_abi/encoding.py:BaseArrayEncoder.validate_value", "eth_abi/encoding.py:SizedArrayEncoder.validate_value", "eth_abi/encoding.py:PackedArrayEncoder.validate_value", "eth_abi/utils/string.py:abbr"]}
{"id": "C82", "title": "Where a ParseError points", "statement": "If parse(s) raises a ParseError, str() of it names one place in s: the column k+1, up to five characters from there on, and s itself. What stands before the column is the beginning of some type string. The place is the end of the longest beginning of s that some type string begins with, except that an unfinished array size '[n' at its end is not counted, and neither is a last character without which it would be a type string and with which it is none. There is one more exception: if all of s is the beginning of a type string and s only lacks a ')' behind a whole type, a parsimonious that tries no repetition at the end of a string (0.10 does not) names the last place where it did try something: the last ')', the ']' of a '[]', or in a component that is a name with sizes the number behind the name, the first array size, or the name itself. In particular, if s begins with a type string, the column is the one after the longest type string it begins with. No such text exists for a type string or for a string with '()' in it.", "quantifier": "all strings, well-formed or not, of every length and every depth of nesting", "why_tests_cant": "The place depends on the whole grammar and on which of several nested failed rules the parser remembers; the test vectors name some forty columns, of infinitely many wrong strings.", "anchors": ["eth_abi/exceptions.py:ParseError.__str__", "eth_abi/grammar.py:NodeVisitor.parse", "eth_abi/grammar.py:grammar"]}
{"id": "C83", "title": "What the exceptions of a registry say", "statement": "When a type string has no coder, the text of the exception is determined by the string alone: the zero-sized-tuple text, the parse-error text with its column (C82), 'No matching entries for <name> in encoder/decoder registry' for the first name without a coder, 'Cannot create <class> for type ...' for function<N>, or 'For <word> type at column <p> in <string>' for the first wrong suffix - and the string quoted there is the one without abbreviations, so the column may not be a column of the string that was passed. Every such string except those with a too long number gets exactly one text, and encode, encode_packed and decode give the text of the first type string without a coder. A class that is asked for a coder of a type it is not for says so with the class, the string as given and the string without abbreviations. In any registry, a failed lookup names the string, the collection and, if several matchers match, these in order of registration; a refused registration names the matcher (and the label), a refused unregistration the matcher or the label.", "quantifier": "every type string, every list of type strings, each of the three default collections of coders; for the second part every registry and every set of matchers", "why_tests_cant": "all strings and all registries; the text depends on the order in which nested components are looked at", "anchors": ["eth_abi/registry.py:PredicateMapping.find", "eth_abi/registry.py:PredicateMapping.add", "eth_abi/registry.py:PredicateMapping.remove_by_equality", "eth_abi/registry.py:PredicateMapping.remove_by_label", "eth_abi/registry.py:BaseRegistry._get_registration", "eth_abi/registry.py:Predicate.__repr__", "eth_abi/base.py:parse_type_str", "eth_abi/base.py:parse_tuple_type_str", "eth_abi/grammar.py:ABIType.invalidate"]}
{"id": "C84", "title": "The attributes of a parsed type follow the type string", "statement": "If T parses, then T[] parses to an array type whose item_type is the parsed T and which is dynamic, and T[n] (n without leading zero, not longer than Python's int conversion allows) parses to an array type whose last dimension is n, whose item_type is the parsed T and which is dynamic exactly if T is. Conversely, a parsed type is an array exactly if its string ends with ']', and then the string is of one of these two forms; item_type of anything else raises ValueError. A string parses to a tuple without dimensions exactly if it is '(' + ','.join(ss) + ')' for one or more strings ss that parse, the components are what these parse to, and it is dynamic exactly if a component is. A string parses to a name without dimensions exactly if it is letters followed by nothing, N or MxN; it is dynamic exactly if the letters are 'string', or are 'bytes' without a suffix.", "quantifier": "every string, every parsed type, every number of dimensions and every depth of nesting", "why_tests_cant": "types nest and carry dimensions without bound, and the characterisations are equivalences over all strings", "anchors": ["eth_abi/grammar.py:parse", "eth_abi/grammar.py:ABIType.is_array", "eth_abi/grammar.py:ABIType._has_dynamic_arrlist", "eth_abi/grammar.py:TupleType.item_type", "eth_abi/grammar.py:TupleType.is_dynamic", "eth_abi/grammar.py:BasicType.item_type", "eth_abi/grammar.py:BasicType.is_dynamic"]}
{"id": "C85", "title": "How long an encoding is", "statement": "The length of what encode returns is known before it is called, from the types and the sizes of the argument alone: 32 bytes for each elementary value, 32 bytes and then its bytes filled up to a multiple of 32 for each bytes and string value (a string counted in UTF-8), 32 bytes for the number of items of each T[], and 32 bytes for the pointer to each argument, item or component of a dynamic type. For encode_packed it is the width of the type for an elementary value (n/8 for uintN, intN, fixedNxM and ufixedNxM, 20, 1, and M for bytesM), the length of each byte string, and nothing else. Hence two accepted arguments of the same shape have encodings of the same length, whatever the numbers and bytes in them are, and encode_packed never returns more bytes than encode.", "quantifier": "every list of supported type strings, every list or tuple of Python values that the function accepts (also numbers off the fixed-point grid), both functions", "why_tests_cant": "Tests compare a few encodings; the length law is about every nesting of types and every argument, and one wrongly padded or doubly counted kind of value shows up only in some nestings.", "anchors": ["eth_abi/codec.py:ABIEncoder.encode", "eth_abi/encoding.py:BaseEncoder", "eth_abi/encoding.py:TupleEncoder.encode", "eth_abi/encoding.py:BaseArrayEncoder.encode_elements", "eth_abi/encoding.py:DynamicArrayEncoder.encode", "eth_abi/encoding.py:PackedArrayEncoder.encode", "eth_abi/encoding.py:ByteStringEncoder.encode", "eth_abi/encoding.py:TextStringEncoder.encode"]}
{"id": "C86", "title": "The settings of a coder class", "statement": "A coder class, one of the library's or one that a user writes by subclassing, takes as keyword arguments exactly the names of its class attributes, own or inherited. If cls(**kwargs) returns, each attribute of the object is what was given, or else what the first class in the method resolution order has. A keyword that is no class attribute raises AttributeError, whose text names the first such keyword and the class. Otherwise the method validate decides, it sees all settings of the object, and what it raises is what the constructor raises; a keyword validate replaces that check. The order of the keywords does not matter. A subclass takes the keywords of its base class and its own, and its own attributes are the defaults. The numeric settings of the fixed-size encoder and decoder classes and their defaults follow from their class statements, and are the same for the encoder and the decoder of a type. The one exception is StringDecoder, whose constructor takes `handle_string_errors` and nothing else.", "quantifier": "every class that inherits BaseCoder.__init__ (any attributes, any chain of base classes, any validate), every dict of keyword arguments, every order of it", "why_tests_cant": "Tests construct a few of the library's classes; users write their own classes with any attributes and rely on the rule for all of them.", "anchors": ["eth_abi/base.py:BaseCoder.__init__", "eth_abi/base.py:BaseCoder.validate", "eth_abi/encoding.py:FixedSizeEncoder", "eth_abi/encoding.py:Fixed32ByteSizeEncoder", "eth_abi/decoding.py:FixedByteSizeDecoder", "docs/registry.rst"]}
{"id": "C87", "title": "A change in one place of the argument changes one place of the encoding", "statement": "Take two arguments for the same types that are the same except for one value of an elementary type, anywhere inside arrays and tuples: an integer, a fixed-point number, an address, a boolean, a bytesM, or a bytes or string of the same length. If encode accepts both, the two encodings have the same length and agree everywhere except in one stretch. This stretch is, in each of them, the last bytes of what encode gives for this value by itself; for the types of one word it is one word, and it is the whole of that. The same holds for encode_packed, where the stretch is exactly what encode_packed gives for the value by itself. And if encode accepts one of the arguments and the new value by itself, it accepts the changed argument.", "quantifier": "every non-empty list of supported types, every two arguments that differ in one elementary value at any depth (containers may be lists, tuples or other sequences), every elementary type; for the last sentence, encodings shorter than 2^256 bytes", "why_tests_cant": "The depth and the place of the change and the values around it are unbounded.", "anchors": ["eth_abi/codec.py: ABIEncoder.encode", "eth_abi/encoding.py: TupleEncoder.encode", "eth_abi/encoding.py: BaseArrayEncoder.encode_elements", "eth_abi/encoding.py: DynamicArrayEncoder.encode", "eth_abi/encoding.py: PackedArrayEncoder.encode"]}
{"id": "C88", "title": "The stream that decoders read from", "statement": "A decoder, also a function or class of the user's own, gets a ContextFramesBytesIO and may call its methods in any order. push_frame(k) opens a frame of offset k and pop_frame() closes the innermost one. A frame that is opened and closed, whatever is done in between (reading, seeking, calls that raise, other frames that are closed there), leaves no trace: the cursor is where it was. seek_in_frame(p) goes to the place p behind the sum of the offsets of the open frames, and read(n) gives the bytes of the data there; it raises ValueError or OverflowError if this is no position, and then nothing changes. pop_frame() raises IndexError exactly if no frame is open. push_frame(k) that raises because the sum is no position has opened the frame nevertheless.", "quantifier": "all data, every finite sequence of calls of tell, read, seek (with any whence), seek_in_frame, push_frame and pop_frame with any integers as arguments, whatever each of them raises", "why_tests_cant": "The sequences of calls, the depth of frames and the offsets are unbounded.", "anchors": ["eth_abi/decoding.py: ContextFramesBytesIO"]}
{"id": "C89", "title": "Types built from registered encoders are laid out as the ABI prescribes", "statement": "Whatever encoders a user registered for their own type strings, `encode` for type strings made from these and from the built-in types with `[k]`, `[]` and tuples, in any nesting, accepts exactly the values in which every array has the right number of items, every tuple the right number of components, and every leaf is accepted by the registered encoder. What it returns is the head-and-tail layout of the ABI of what the leaf encoders return, where a type counts as dynamic as the `is_dynamic` of its leaves says, and `T[]` begins with the number of items. A leaf whose `validate_value` is missing or raises AttributeError may be an argument or a component of a tuple, but no item of an array. In a registry made from the packed one, `T[k]` and `T[]` are the layout of their items without the number of items and never count as dynamic; where no argument counts as dynamic, the result is the concatenation of the encodings of the arguments.", "quantifier": "every history of calls, every registry and every set of registrations, encoders with arbitrary behaviour, every nesting of arrays and tuples, every list of arguments", "why_tests_cant": "The encoders are arbitrary functions, the nesting is unbounded and the registrations may have been changed in any order before the call.", "anchors": ["eth_abi/encoding.py:TupleEncoder", "eth_abi/encoding.py:BaseArrayEncoder", "eth_abi/encoding.py:SizedArrayEncoder", "eth_abi/encoding.py:DynamicArrayEncoder", "eth_abi/registry.py:ABIRegistry.get_encoder", "eth_abi/codec.py:ABIEncoder.encode", "eth_abi/encoding.py:PackedArrayEncoder"]}
{"id": "C90", "title": "Strategies registered by users fit the encoders registered by users, in any nesting", "statement": "If, for each leaf of a type string, whatever the strategy registered in a StrategyRegistry generates is accepted by the encoder registered in an ABIRegistry, then `get_strategy` finds a strategy for the whole type string, however arrays and tuples are nested in it, and `is_encodable` is true of everything this strategy generates. The library's own elementary types meet the condition in every pair of registries that still have the default registrations for them.", "quantifier": "every history of calls on ABI registries, every set of registrations of a strategy registry, arbitrary strategies and encoders, every nesting, every draw", "why_tests_cant": "Strategies generate unboundedly many values and tests draw a few; the registered strategies and encoders are arbitrary.", "anchors": ["eth_abi/tools/_strategies.py:StrategyRegistry.get_strategy", "eth_abi/tools/_strategies.py:get_array_strategy", "eth_abi/tools/_strategies.py:get_tuple_strategy", "eth_abi/tools/_strategies.py:StrategyRegistry.register_strategy", "eth_abi/codec.py:ABIEncoder.is_encodable"]}
{"id": "C91", "title": "Types built from registered decoders read what the layout prescribes", "statement": "Register decoders that read a value where the stream stands and change nothing but its position. Then for every type string built from them and from the library's types with arrays and tuples, in any nesting, decode returns a value exactly if the data hold it: static components stand one after the other, each beginning where the one before it ends; a dynamic component is where its offset, counted from the beginning of the tuple or of the items of the array, points, which must be behind the heads of the array, or behind 32 bytes for each component of the tuple (32 times its array_size, if it is a static decoder with this attribute), and before the end of the data; an array T[] begins with the number of its items. The argument strict reaches the decoders of the arguments themselves only.", "quantifier": "all histories of calls, all registries, all registered decoders that read by some relation (static or dynamic, of any size, with or without array_size), all type strings built from them, all data, strict or not", "why_tests_cant": "Tests register one or two decoders and decode what the matching encoder made; the claim is an equivalence for every decoder, every nesting and arbitrary data, including overlapping and unordered tails.", "anchors": ["eth_abi/decoding.py: TupleDecoder, BaseArrayDecoder, SizedArrayDecoder, DynamicArrayDecoder, HeadTailDecoder, ContextFramesBytesIO", "eth_abi/registry.py: ABIRegistry.get_decoder, register_decoder", "eth_abi/codec.py: ABIDecoder.decode", "docs/registry.rst"]}
{"id": "C92", "title": "The caller's decimal context", "statement": "Encoding and decoding fixed-point numbers neither depends on nor changes the decimal context of the calling thread. Whatever its precision, rounding, range of exponents, traps and flags are, the same bytes, values and exception classes result, and afterwards the context is what it was, flags included; the same holds for scale_places. The context of the package itself takes what is not given from decimal.DefaultContext at the import: for numbers of at most 900 places after the point its rounding, traps and flags do not matter either, as long as its exponents reach from -900 to 99. For longer numbers they do: Decimal('-1.99...9') with 1000 nines is encoded as -2.0 for fixed8x1, as -1.9 if the default rounding was ROUND_DOWN at the import, and not at all if Inexact was trapped.", "quantifier": "every value, every size and number of places, every context of the caller, every default context at the time of the import", "why_tests_cant": "contexts, values and places are unbounded in number", "anchors": ["eth_abi/utils/numeric.py:abi_decimal_context", "eth_abi/utils/numeric.py:compute_unsigned_fixed_bounds", "eth_abi/utils/numeric.py:compute_signed_fixed_bounds", "eth_abi/utils/numeric.py:scale_places", "eth_abi/encoding.py:BaseFixedEncoder.validate_value", "eth_abi/encoding.py:UnsignedFixedEncoder.encode_fn", "eth_abi/encoding.py:SignedFixedEncoder.encode_fn", "eth_abi/decoding.py:UnsignedFixedDecoder.decoder_fn", "eth_abi/decoding.py:SignedFixedDecoder.decoder_fn"]}
{"id": "C93", "title": "Text is UTF-8", "statement": "encode(['string'], [s]) returns the offset 32, the number of bytes of the UTF-8 of s, and these bytes filled up with zeros to a multiple of 32; encode_packed(['string'], [s]) returns these bytes alone. UTF-8 is the table of RFC 3629: one to four bytes for each character, as few as possible, none for surrogates. UnicodeEncodeError is raised exactly for texts with a surrogate. decode(['string'], data) returns the one text whose UTF-8 stands where the offset points, and raises UnicodeDecodeError exactly if bytes stand there that are the UTF-8 of no text (overlong forms, surrogates, numbers beyond U+10FFFF, stray or missing continuation bytes).", "quantifier": "all Python strings (sequences of code points up to U+10FFFF, surrogates included), all data", "why_tests_cant": "There are infinitely many texts, and byte sequences that are almost UTF-8; tests use ASCII and a few others.", "anchors": ["eth_abi/encoding.py:TextStringEncoder", "eth_abi/encoding.py:PackedTextStringEncoder", "eth_abi/decoding.py:StringDecoder"]}
{"id": "C94", "title": "Ordered choice and greed lose nothing", "statement": "The grammar in grammar.py is matched with ordered choice and greedy repetition, without going back. Nevertheless parse(s) finds a parse tree for every string s that can be derived from the grammar in any way, and for no other. Every node of the tree has as its text the part of s at its leaves. Visiting the tree gives the type that is derived, and the visitor never fails to unpack a node: the only exception is a VisitationError for a numeral that int() refuses.", "quantifier": "all strings, all depths of nesting, both versions of repetition at the end of the string", "why_tests_cant": "An alternative that is tried too early or a repetition that takes too much shows only on particular strings (as fixed128x18 if digits came before two_size), and there are infinitely many; tests show a few that are parsed.", "anchors": ["eth_abi/grammar.py:grammar", "eth_abi/grammar.py:NodeVisitor", "eth_abi/grammar.py:parse"]}
