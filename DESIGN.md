# A Lean 4 model of eth-abi

The model covers the code of `eth_abi/` (the pinned commit in `/repo`) except most texts of error messages and
`repr`s.  It is a shallow embedding: every Python function or class becomes a Lean function with the
same branches in the same order, and an exception is a value (`Except Exc`).  The theorems are about
these functions, for all type strings, values, data, registrations, histories and schedules, with no
bound on sizes.

## 1. Layout

| directory | contents |
| --- | --- |
| `lean/Verif/Model/` | the code, function by function, each definition citing file and lines |
| `lean/Verif/Spec/`  | the vocabulary of the statements, written from the ABI specification, the grammar and the documentation; it does not refer to encoders, decoders or parsers of the model |
| `lean/Verif/Lemmas/` | proofs about the model; no property is stated here |
| `lean/Verif/Props/` | the property theorems `Cnn_…`, each followed by `example`s: concrete cases that meet its hypotheses |
| `properties.jsonl` | the properties in English |
| `MANIFEST.json` | for each property the theorems that establish it |
| `seeded/LOG.jsonl` | wrong programs tried against the theorems (section 7) |

A theorem named `…_partial` proves less than the property; one named `…_false` proves that the
property as stated does not hold of the code, with a concrete witness (section 5).

### How the pieces of the statement fit together

* `Spec/Abi.lean` has ABI types (`Ty`), values (`Val`) and `enc`, the encoding function of the
  Solidity "Contract ABI Specification"; `Val.Of t x` says that `x` is a value of type `t`;
  `denote t v` is the value that the
  Python value `v` stands for as a `t`, if any, and `toPy t x` is the Python value `decode` should give.
* `Spec/Grammar.lean` has the type grammar as a set of derivations (`Derives`) and `Spells lax s t`:
  the string `s` names the ABI type `t`.  `Supported s t` adds what the library accepts.
* `Spec/Read.lean` has `Reads d t p x`: the data `d` holds the value `x` of type `t` at position `p`
  when offsets are followed.  It is not the inverse of `enc`: data need not be canonical.
* `Spec/Leaves.lean`, `Spec/Strings.lean`, `Spec/Values.lean`, `Spec/Api.lean`: elementary values,
  numerals and aliases, packed mode, conditions on arguments, lists of types.
* `Spec/Registry.lean`, `Spec/Custom.lean`, `Spec/Concurrent.lean`, `Spec/Threads.lean`, `Spec/Strategies.lean`,
  `Spec/Cost.lean`: registries without caches or addresses; pairs of coders that belong together;
  exclusive and overlapping calls of threads; which values a strategy should cover; sizes.
* `Spec/Alike.lean`, `Spec/Arrays.lean`, `Spec/Direct.lean`, `Spec/Taken.lean`, `Spec/Wider.lean`, `Spec/Recast.lean`,
  `Spec/Packed.lean`, `Spec/Located.lean`, `Spec/ParseCache.lean`,
  `Spec/AnyTypes.lean`: arguments that differ
  only in form, arrays written as tuples, coders made by hand, what an argument is taken for, wider types,
  packed mode in Solidity, positions of errors, what type objects show,
  type arguments of any kind.

## 2. The model

| module | models |
| --- | --- |
| `Model/Py.lean` | Python values, exceptions, byte strings (no file of `/repo`) |
| `Model/Numeric.lean` | `utils/numeric.py`, `utils/padding.py`, `utils/string.py`, and the part of `decimal` they use (precision 999, half-even rounding, subnormals, traps) |
| `Model/EthUtils.lean` | the functions of `eth_utils`, `int.to_bytes` and the UTF-8 codec that the code calls |
| `Model/Grammar.lean` | `grammar.py`: the PEG, `ABIType`, `to_type_str`, `item_type`, `is_dynamic`, `validate`, `normalize` |
| `Model/Peg.lean` | `grammar.py` again: the grammar as data, its interpreter, parse trees and `NodeVisitor` |
| `Model/PegFailures.lean` | the failures recorded while the grammar as data is interpreted, and `e.pos` of the `ParseError` |
| `Model/Located.lean` | `grammar.py` again, with the attribute `node` and the texts of `ABITypeError` |
| `Model/ParseCache.lean` | `grammar.py` again: the cache of `parse` and the objects it hands out |
| `Model/Base.lean` | `base.py`: the decorators `parse_type_str`, `parse_tuple_type_str` |
| `Model/Encoding.lean` | `encoding.py`: every encoder class, standard and packed |
| `Model/Decoding.lean` | `decoding.py`: `ContextFramesBytesIO` and every decoder class |
| `Model/DecimalContext.lean` | the fixed-point lines of `encoding.py`, `decoding.py` and `utils/numeric.py` once more, with the decimal context of the caller |
| `Model/Registry.lean` | `registry.py`: `PredicateMapping`, predicates, `BaseRegistry`, lookups, the two default registries |
| `Model/Codec.lean` | `codec.py`, `abi.py`, `packed.py`, `utils/validation.py` |
| `Model/AnyTypes.lean` | `codec.py`, the lookups of `registry.py` and `parse` again, for type arguments that need not be strings |
| `Model/World.lean` | `registry.py` and `codec.py` again, as operations on a heap: caches, copies, shared decoder objects, the registrations made at import |
| `Model/Concurrent.lean` | lookups and changes on one registry by several threads, in steps |
| `Model/Threads.lean` | `registry.py` and `codec.py` as programs of several threads on one heap of registries, a step being one access to a dict or cache |
| `Model/Strategies.lean` | `tools/_strategies.py` |
| `Model/Cost.lean` | `decoding.py` with a counter of decoder calls |
| `Model/EncCost.lean` | `encoding.py` with a counter of value checks |
| `Model/Direct.lean` | coders made from their classes with sizes and byte order as arguments |
| `Model/Parts.lean` | array and tuple coders made from any component coders |
| `Model/Classes.lean` | `from_type_str` of every class, with the registry's lookups as a parameter |

**Coders.**  A coder is a record of what other code can see of it (`is_dynamic`, `validate_value`,
`__call__`, the fields a decoder's container reads).  A user's coder is *any* such record, so
theorems about user registrations quantify over all user coders, not only over those of the library.
A `from_type_str` class method is a `Plan`: a tree that finishes with a result or asks the registry for
the coder of another type string.

**Two levels of registries.**  `Model/Registry.lean` has lookups as functions of the registrations.
`Model/World.lean` has the heap: dicts and `functools.cache` tables are cells with addresses, and a
registry object holds addresses.  That copies are independent, that the caches are right and that the
module-level `default_registry` ends up with the registrations of `Model/Registry.lean` are theorems
(C28, C29, `C28_default_*`), not assumptions.

**Recursion.**  Functions that recurse through the registry or the parser have fuel.  For the parser
and for lookups of library types the given fuel is proved to be enough (C21, C24: no supported type ends
in `recursionError`); for user plans that ask without end, running out of fuel is Python's
`RecursionError`.

## 3. Trusted base

* Lean's kernel, and the axioms `propext`, `Classical.choice` and `Quot.sound`.  Section 8 has the
  axioms of every property theorem.  There is no other axiom, no `sorry`, no `native_decide`, no
  `bv_decide`, no `implemented_by`, no `unsafe`.  Examples on literals use `decide` in the kernel.
* The statements: `Spec/` and the statements in `Props/` say what the English property says.
* The model is the code.  Points where it is simpler are written at the definitions and collected in
  section 4.
  `Verif/Suite/` evaluates the model, in the kernel, on the test vectors of the project (read as text from
  `tests/core`: the vectors of `common/unit.py`, the tests of `encode`, `decode`, packed mode, `is_encodable`, the grammar,
  the registry, the custom registrations and the utilities).  These are tests of the model, not
  proofs; the model agrees with all of them but the two cases `()` and `(int,(),())` of
  `tests/core/grammar.py`.  The code refuses these (grammar.py:128-130, and `tests/core/abi_tests` wants it to); pytest does not
  collect that file because of its name.
* External code is as the definitions say that stand for it:
  * `eth_utils` (`is_boolean`, `is_integer`, `is_number`, `is_bytes`, `is_text`, `is_list_like`,
    `is_address`, `to_canonical_address`, `to_normalized_address`, `to_checksum_address`,
    `int_to_big_endian`, `big_endian_to_int`): `Model/EthUtils.lean`;
  * `decimal` with `Context(prec=999)`: `Model/Numeric.lean`; in any context: `Model/DecimalContext.lean`;
  * `str.encode("utf8")` and `bytes.decode("utf8")` (other error handlers of `StringDecoder` are an
    arbitrary function, `stringDecoderWith`); `bytes.rjust`, `bytes.ljust`, `io.BytesIO`;
  * `parsimonious` (`Model/Peg.lean`): a PEG tries alternatives in order and `parse` needs the whole string; an
    exception in a visitor method becomes `VisitationError`;
  * `re.sub` with `\b(?:…)\b`: `normalize`;
  * `dict`: insertion order, equality of keys by `__eq__` and `__hash__`;
  * `functools.cache`: the key distinguishes positional, keyword and absent arguments; exceptions are
    not cached;
  * `hypothesis.strategies`: each combinator can draw what its documentation says
    (`Model/Strategies.lean`).
* Left open: the class `Ext` has the digits of Keccak-256 (EIP-55), the Unicode table of `\w`,
  `sys.get_int_max_str_digits()`, and whether parsimonious tries repetitions at the end of a string
  (only C82 depends on that).  Every theorem holds for every instance.

## 4. Not modelled, and simplifications

* Texts of error messages and their `repr`s, except the texts of `validate` (C65), of `ParseError` (C82), of the exceptions of a registry (C83) and of `decode` (C78) and `encode` (C81), where the code tests
  them (`"No matching"` in `_get_registration`) and that `repr` of an integer of too many digits fails (`invalidateValue`); exception attributes; logging; type annotations; `__version__`.
* Python values outside `PyVal`: numbers and strings of user-defined classes, and sequences whose items change between two
  iterations.  `PyVal.seq` is every other `collections.abc.Sequence` (`range`, `deque`, `memoryview`, `UserList`); its
  `repr` is taken to show its items.  A `float` and a `complex` have no payload: no encoder accepts one.  The sign of a decimal zero is not kept.
* A type string is a list of Unicode scalar values.  A `str` with a lone surrogate never parses and
  behaves as any other unparsable string.  `types` is a list or tuple of strings, except
  in `Model/AnyTypes`, where it is any Python value (C72).
* Keyword arguments of `BaseCoder.__init__` other than the sizes and `is_big_endian` (`Model/Direct`, C55, C59)
  and the components of arrays and tuples (`Model/Parts`, C61): arguments that replace a method or
  `is_dynamic`; and class attributes a subclass forgot to set (`validate` of abstract classes).
* `copy.copy` and `copy.deepcopy` of a registry: both call `copy` (registry.py:39-48).
* Memory and the recursion limit: a `bytes` object is shorter than 2^63 (`sys.maxsize`); the length
  words that `io.BytesIO.read` cannot take raise `OverflowError` (modelled); running out of memory is
  not modelled.
* User matchers and coders are functions of their argument (and, for decoders, of the stream and the
  `strict` attributes of registered objects); they do not change a registry.
* A `ValueError` raised by a user matcher is re-raised without the test of its message; `Mapping.getRegistration` tests only the type string for the words `No matching` (C83_test: the whole message gives the same, unless the `repr` of a matcher contains them).
* Threads: the table of `functools.cache` is accessed in single steps (it is implemented in C).  In
  `Model/Concurrent.lean` (C33) one read of the registrations and one change of them is one step, and the
  model is of one side (encoders or decoders) of one registry; its counterexamples use less than the code
  allows.  In `Model/Threads.lean` (C49–C51) a step is one access to a dict; a matcher runs in the step
  that takes it from the dict, and a coder that has been looked up runs in one step.
* The cache of `grammar.parse` is only in `Model/ParseCache.lean` (C69).  Everywhere else `parse` is a pure
  function: nobody assigns to attributes of `ABIType` objects.
* Cost: C44 counts calls of decoder objects and reads of an offset; one such call does a bounded number
  of stream operations besides its nested calls.

## 5. Where the code does not do what the property says

For each of these the negation is a theorem with a concrete witness, and the property is proved under
the weakest condition that was found.

| finding | theorem | place in `/repo/eth_abi` |
| --- | --- | --- |
| A negative fixed-point number with too many digits is accepted and encodes to another number (or to a word that `decode` refuses) | `C07_fixed_false`, `C01_roundTrip_false`, `C01_other_value_false`, `C02_conformance_false`, `C43_injective_false` | encoding.py:340-344, 407-425 |
| A tiny positive decimal (exponent below -1000997) underflows to zero and is accepted | `C07_ufixed_false` | encoding.py:340-344 |
| A `str` with a lone surrogate is "encodable" but `encode` raises `UnicodeEncodeError` | `C04_isEncodable_false`, `C17_errors_false` | encoding.py:543-551 |
| A refused integer of more than `sys.get_int_max_str_digits()` digits (4300), also inside a list, cannot be quoted in the error message: `is_encodable('uint8', 10**4300)` raises `ValueError` instead of returning `False`, `encode` raises `ValueError` instead of an `EncodingError` | `C04_raises_false`, `C17_digits_false`, `C53_digits_false` | encoding.py:89-94, utils/string.py:11 |
| `is_encodable('fixed128x18', 1j)` and `is_encodable('fixed128x18', Fraction(1, 2))` raise `TypeError` instead of returning `False`, and `encode` raises it instead of an `EncodingError`: the value passes `is_number` and is then compared with, or divided by, a `Decimal` | `C04_odd_false`, `C17_odd_false` | encoding.py:261-275,339-350 |
| `strict=False` is not passed to `bytes` and `string` inside arrays and tuples | `C13_relaxed_false` | registry.py:474-483, decoding.py:233,288 |
| `decode` raises `OverflowError` on a huge length word and `UnicodeDecodeError` on invalid text, neither a `DecodingError` | `C16_overflow_false`, `C16_unicode_false` | decoding.py:595-613, 640-641 |
| The head length used for checking offsets counts one word per nested static tuple: an offset into the head is accepted | `C18_pointers_false` | decoding.py:191-222 |
| An offset into the head is refused beside `uint8[2]` and followed beside `(uint8,uint8)` | `C52_decode_false` | decoding.py:191-222 |
| The type string `byte` is refused; a size after `bool` is ignored | `C24_byte_false`, `C24_bool_false`, `C41_byte_false` | registry.py:190-253, grammar.py:338-396 |
| Two matching registrations raise `ParseError` if the type string contains `No matching` and does not parse | `C27_multiple_false` | registry.py:328-339 |
| A registered decoder *object* is shared by copies and by strict and non-strict lookups: one call changes the result of others | `C29_decode_false`, `C31_false` | registry.py:474-499 |
| The same object between threads: a strict decode returns although it raises in every sequential order, since another thread's lookup sets `strict` between its lookup and its run | `C49_shared_false` | registry.py:474-483 |
| Unregistering by an equal matcher leaves its label in use | `C30_matcher_false`, `C56_label_false` | registry.py:107-131 |
| `register` and `unregister` change the encoders and then fail on the decoders | `C32_register_false`, `C32_unregister_false` | registry.py:403-453 |
| The cache is cleared before the change: a lookup in between leaves a stale entry for good | `C33_false`, `C33_encoder_false`, `C33_decoder_false` | registry.py:280-295 |
| The strategy registry gives strategies for types that do not exist (`uint7`), and none for `bool8` | `C39_false`, `C39_bool8` | tools/_strategies.py:56-78 |
| Arrays of a type with callable coders cannot be encoded or decoded | `C40_encode_false`, `C40_decode_false` | encoding.py:582-609, decoding.py:271-284 |
| Decoding nested static tuples takes time exponential in the depth; offsets that meet give a value exponentially larger than the data | `C44_nested_false`, `C44_shared_false`, `C44_false` | decoding.py:191-228 |
| A user's static coder with fewer than 32 bytes breaks the decoding of dynamic elements beside it | `C47_short_false` | decoding.py:191-222 |
| `TextStringEncoder` registered under another name, as docs/registry.rst does, never encodes (`parse_type_str("string")` rejects the name) | `C48_encode_false` | encoding.py:555-561, base.py:11-74 |
| A registration in one thread while another looks something up: `RuntimeError` (the dict changed size during iteration) from `encode`, `False` from `is_encodable` of a supported value | `C50_false`, `C50_encode_false` | registry.py:81-85, 458-472 |
| `BooleanEncoder(value_bit_size=16)` encodes; `BooleanDecoder(value_bit_size=16)` can be constructed and refuses every input | `C55_bool_16` | `BooleanDecoder.decoder_fn` (decoding.py:433-442) |
| `AddressDecoder` can be constructed for other sizes than 160 bits (the encoder cannot), and then refuses every input | `C55_address_152` | `AddressDecoder` (decoding.py:449-456), cf. encoding.py:459-463 |
| With `is_big_endian=False` an unsigned encoder encodes 1 and 256 alike: it pads the shortest form on the right | `C59_uint_not_injective`, `C59_round_trip` | `FixedSizeEncoder.encode` (encoding.py:195-206) |
| `SignedIntegerEncoder` and `SignedFixedEncoder` ignore `is_big_endian`, their decoders do not | `C59_round_trip` | `SignedIntegerEncoder.encode` (encoding.py:307-316) |
| A negative number off the grid is encoded as the next multiple towards zero; if that is zero, as -256 | `C60_number`, `C60_number_decoded` | `SignedFixedEncoder.encode` (encoding.py:407-425) |
| A `TupleDecoder` with components of fewer than 32 bytes beside a dynamic one refuses every encoding of the `TupleEncoder` with the same components: the check of pointers reckons 32 bytes for each | `C61_short` | `TupleDecoder.validate_pointers` (decoding.py:191-222) |
| An array of no dynamic elements in a tuple is encoded; decoding raises `InvalidPointer` (type strings with `[0]` do not parse; only put together by hand) | `C61_zero` | `TupleDecoder.validate_pointers` (decoding.py:191-222) |
| `SizedArrayDecoder` without `array_size` is made, and raises `TypeError` on every call (`SizedArrayEncoder` raises `ValueError`) | `C61_refused` | `BaseArrayDecoder.validate` (decoding.py:280-284) |
| Nested values are validated once per level: n nested tuples take (n+2)(n+3)/2 validations for n+2 parts | `C62_quadratic` | encoding.py:111-153,582-609 |
| `ByteStringEncoder.from_type_str("bytes5", registry)` makes the coder of `bytes`, and `TupleEncoder.from_type_str("(int256)[]", registry)` the coder of `(int256)`: sub part and array dimensions are not looked at; `BytesEncoder.from_type_str("bytes", registry)` raises `TypeError` (`None * 8`) instead of `ValueError`. The same for the packed encoders and the decoders. | `C64_overlooked` | eth_abi/encoding.py:155-161,493-504,525-527; eth_abi/decoding.py:230-236,516-518,618-620; eth_abi/base.py:77-108 |
| `BasicType("uint", 7).validate()` raises `AttributeError` (`'NoneType' object has no attribute 'text'`), not the documented `ABITypeError`: the text of the error is made from the parser's node, and a type made by hand has none. | `C65_hand_made` | eth_abi/grammar.py:180-199 |
| `encode_packed(['int8[]'], [[1, 2]])` is two bytes; Solidity's `abi.encodePacked` pads the elements of arrays and gives 64 bytes. The example in the documentation shows the short form next to a link to the specification that prescribes the long one. | `C66_conforms_false`, `C66_exact` | eth_abi/encoding.py:627-646; docs/encoding.rst:66-90 |
| `parse` caches and hands out mutable objects: after `parse('uint256').sub = 8`, `parse('uint256')` is `uint8` for everybody in the process | `C69_transparent_false` | `grammar.py:47-48` |
| The text for a negative `intN`/`fixedMxN` value with zeros in front of it is "Padding bytes were not empty: b'\\x00…'" although the bytes shown are all zeros | `C78_zeros` | decoding.py:497-499,574-576 |
| The column a `ParseError` names is not always where the string goes wrong: for `(int[5)` it is column 5 (the `[`), though what is missing is a `]` in column 7; for `fixed128x0` it is column 9, though the `x` is fine and the `0` is not.  For `(bool,uint256[3][4]`, where a `)` is missing at the end, parsimonious 0.10 leads to column 11 (the `2` of `256`), not to the end of the string: it tries no repetition there. | `C82_text` and the examples beside it | `exceptions.py` `ParseError.__str__`, parsimonious |
| The column in the text of an `ABITypeError` of `encode`/`decode` counts in the string without abbreviations: for `(int,uint7)` it is column 9 of `(int256,uint7)` | example at `C83_text` | `eth_abi/base.py:parse_type_str` |
| `push_frame` that raises (an offset before the start of the data, or too large) leaves its frame open: everything is relative to it until a `pop_frame()` | `C88_push` | decoding.py:97-100 |
| `StringDecoder(strict=False)` raises `TypeError`: its own `__init__` takes `handle_string_errors` only, although `strict` is an attribute of the class, which every other decoder takes | `C86_string_strict` | decoding.py:623-626 |
| What `decimal.DefaultContext` was at the import changes how negative numbers of more than 999 digits are encoded (only because negative residues are not refused) | `C92_default_matters` | `utils/numeric.py:8`, `encoding.py:352` |

## 6. Properties: what is modelled and how it is proved

Every property is expressible in the model; none is `not_applicable`.

* **C01, C08, C11, C20, C43** (round trip, trailing data, prefixes, injectivity).  `encode` gives
  `enc` of the denoted value (C02); by induction on the type, the decoder started at any position of a
  buffer that holds `enc x` there, followed by anything, returns `x` (`Lemmas/PosDec`, `Lemmas/DecOf`).
  C20: the strict prefixes of the same layout fail at the element they cut.  C43 from C01.
* **C02, C03, C06, C09, C10, C36** (conformance).  By induction on the type over the encoder objects that
  the registry builds (`Lemmas/Encode`, `Lemmas/EncOf`), with the converse: everything that denotes a
  value is accepted.
* **C04, C05, C17, C35, C46** (what is accepted, errors).  The outcome of `validate_value` is computed for
  every type by induction (`Lemmas/Accept`, `Lemmas/Outcome`, `Lemmas/Errors`).  `Printable v` (`Spec/Values`):
  Python prints the integers in `v`, so that an error message can quote it (`Lemmas/Printable`).  `HoldsOdd t v`: `v` has a `complex` or a `Fraction` where `t` has a fixed-point number.
* **C07** (grid).  Arithmetic of the decimal fragment: exact products below 999 digits, half-even rounding,
  underflow (`Lemmas/Decimal`).
* **C12, C13, C14, C15, C16, C18, C19, C42** (decoding of arbitrary data).  `decode` returns `x` iff the data
  `Reads` `x` (`Lemmas/Reads`, `Lemmas/ReadsFacts`), by induction on the type over the decoder objects; the
  properties follow from facts about `Reads`, C16 from the list of errors per decoder.
* **C21, C22, C23, C45** (grammar).  The parser is sound and complete for `Derives`, which is unambiguous
  (`Lemmas/Grammar`); `normalize` by induction over the words of a string (`Lemmas/Normalize`).
* **C24, C25, C26, C41** (types).  The registry search on a parsed type by cases on its base; lookups by
  induction on the number of brackets (`Lemmas/Lookup`, `Lemmas/LookupNorm`).
* **C27, C30, C32** (registrations).  Facts about `PredicateMapping` as a list with distinct keys, an
  invariant of every history (`Lemmas/Mapping`, `Lemmas/Registered`).
* **C28, C29, C31** (caches, copies, `strict`).  An invariant of the heap, preserved by every call: each cache
  entry is what the registrations give without caches; addresses are not shared except of decoder objects
  (`Lemmas/Heap`, `Lemmas/Shadow`, `Lemmas/World`).  `Lemmas/Imported` runs the module body of
  `registry.py` in the heap.
* **C33** (threads).  Small steps; an invariant over all schedules (`Lemmas/Concurrent`); stale entries by an
  explicit schedule, for every registry.
* **C34** (packed).  As C02, with the packed registry and the packed specification.
* **C37** (helpers).  Arithmetic.
* **C38** (stream discipline).  By induction on the type, for any stream (`Lemmas/Frames`); for user decoders
  compositionally.
* **C39** (strategies).  By induction on the derivation of the type string (`Lemmas/Strategies`), with the
  converse that every value (up to the strategies' size limits) can be drawn.
* **C40, C47** (user coders).  Composition lemmas for arbitrary coder records (`Lemmas/Compose`,
  `Lemmas/Built`, `Lemmas/Callable`).
* **C48** (error handlers for strings).  `bytes.decode` with a handler is any function from bytes to a
  string or an exception.  `Spec/Text.lean` relates two type strings, one with the name where the other
  has `bytes`; `Lemmas/Text` is a simulation between the two decoder objects that shows that both read
  the same, and leave the stream in the same state, up to what is made of the bytes.
* **C49–C51** (threads, step by step).  A call is a program whose steps are single accesses to dicts and
  caches (`Model/Threads`).  For a fixed registry, every program is either away from it, a lookup that keeps
  an invariant of caches and registrations, or a change whose steps depend on that registry only
  (`Lemmas/Threads`, `ThreadLookups`, `ThreadChanges`); an invariant of systems over all schedules
  (`ThreadSystem`); run alone, programs do what `Model/World` does (`ThreadAlone`); C51 by induction on the
  program and the list of calls (`ThreadFinish`).
* **C52** (arrays as tuples).  A relation between encoder objects (same acceptance, same bytes) and one between
  readings (`Lemmas/Unroll`, `Lemmas/UnrollRead`), by induction on the rewriting of the type; `T[]` by the shift
  lemmas of C36.
* **C53** (form).  `Spec.Alike` says, per type, which Python values differ in form only.  Each encoder object validates
  and encodes related values alike, by mutual induction on that relation.  For fixed-point numbers: the arithmetic of
  `decimal` in the context used (multiplication, remainder, comparison, conversion to `int`, with rounding to 999 digits
  and the traps) depends on the values of its operands only (`Lemmas/DecimalValue`).
* **C54** (some of the arguments).  From the exact reading theorem: `Reads` of a list of components splits; the least
  offset the code accepts grows with the list of types, so it is no obstacle for fewer types; static components can be
  read after the data before them is dropped.
* **C55** (objects with sizes of one's own).  `Model/Direct` models the keyword arguments of the constructors and the
  checks of `validate`; the decoders are those of `Model/Decoding` with the number 32 replaced by `data_byte_size`.  The
  lemmas on elementary encoders hold for any number of bytes; those on decoders are proved anew for any number.
* **C56** (a registry is a list of entries).  `Spec/Entries` defines entries, `register` and `unregister` on lists
  of them and the effect of every call on all registries, without the dicts of the code.  Refinement: the dict of
  matchers and the dict of labels are the two projections of the list, by induction over histories (`Holds`,
  `HoldsAll`).  The outcome of each call is the outcome on the list, lookups go by the list through C27.
  `StrategyRegistry` is the same with one list.
* **C57** (`is_encodable` with registered encoders).  Both methods validate with `validate_value` and fall back to the
  call on an `AttributeError`; the theorems say what follows for the outcomes of the two calls in any reachable
  state.  C03 says more for the built-in encoders.
* **C58** (work and value).  The decoders with counts of C44; `Spec/Cost` has the count as a recursive function of type
  and value (`calls`), proved equal to the count of a call that returns by induction on the type; the bounds are
  arithmetic on that function.
* **C59** (the other `is_big_endian`).  The model of C55 with the argument.  The decoder that looks at the other end is the
  usual one on the word with its ends exchanged, so its specification follows from C55; the encoder pads the same bytes on
  the other side.  Whether the two words agree is a statement about bytes: `a ++ p…p = p…p ++ a` only if `a` is all `p`,
  and a number followed by different numbers of zero bytes is a different number unless it is 0.
* **C60** (off the grid).  `Spec.taken` says what each argument is taken for: `Spec.denote`, except for negative numbers
  given for `fixedMxN`.  With at most 900 places no rounding happens in the 999-digit context, so the scaled number is the
  exact quotient cut off towards zero; zero has the base encoding `00`, which is padded with `ff` because the number is
  negative, and that is the word of -256.  The types are done by induction as in C02, with `taken` for `denote`.
* **C61** (objects put together by hand).  `Model/Parts` has the constructor expressions and their values; `Spec/Parts`
  the forms: the type of the values, the encoding, the number of bytes of a static form, and the room for the heads.  By
  induction on the form: the encoder meets the specification (the lemmas of C02 need of the components only that they do), the
  lengths are right, and the decoder reads back what the encoder wrote (the lemmas of C40, freed of the multiple of 32).
  `C61_short`: up to the first dynamic component the pointer check reads the components back; that pointer is the number of
  bytes of the heads, and too small.
* **C62** (work of encode). `Model/EncCost.lean` pairs each encoder object with the number of `validate_value` calls of its `validate_value` and of its call, taking all results from `Model/Encoding.lean`. Proved by induction on the type: `checks ≤ parts` (equality on acceptance), `calls + 1 ≤ (nesting + 3) * parts`, and the exact count of accepted values; `C62_quadratic` shows that the factor occurs.
* **C63** (nesting of calls). `Model/Cost.lean` and `Model/EncCost.lean` also carry, for each coder object, the largest number of calls on the stack at one time (maxima where the counts of C44 and C62 add). Proved by induction on the type: each bound holds for every stream and every value, so no invariant of the data is needed. `C63_decode_deep` and `C63_encode_deep` show that the growth with the types is real.
* **C64** (`from_type_str`). `Model/Classes.lean` has the function of each class with the lookups as a parameter; `Spec/Classes.lean` says which class is for which types (`IsFor`). Proved with the decomposition of the registry's lookups (`Kit`, `class_plan`): for each class and each string, what it makes (`made`) is the coder of one type or one exception. The claim is false for the names in `Overlooked`; `C64_overlooked` gives what the classes do with these.
* **C65** (positions and texts). `Model/Located.lean` repeats the parser with the attribute `node` and `validate` with its texts; `Spec/Located.lean` says where words stand in a string (`WordAt`), which rules there are (`Breaks`) and what the first wrong word is. Proved by computing the nodes from the type alone (`locate`) by induction on the parser, and the words of the string from the derivation (`leaves_words`): the leaves of the type, in order, are exactly the words of the string. `C65_verdict` ties this `validate` to the one of the rest of the model.
* **C66** (Solidity's packed mode). `Spec/Packed.lean` has `solPacked` from the Solidity specification. The packed form of the library (C34) is compared with it by lengths: element by element it is never longer, and as long only if the element has 32 bytes. False of the code for arrays with short elements; `C66_exact` is an equivalence.
* **C67** (packed collisions). Types of fixed length by induction on the type (`fixedLength`), then one part of variable length by lengths. The converse constructs, for every type with a part of variable length, values that pack to zero bytes of lengths c, c+d, c+2d, … (`zeros`); two such parts next to each other collide (`collide`).
* **C68** (`Props/Canonical.lean`). From `decode_reads` (what decode accepts, against `Spec/Read.lean`) and `encode_spec`; the values decoded are in the domain of encode and on the grid, so encode gives the specified bytes.
* **C69** (`Model/ParseCache.lean`, `Spec/ParseCache.lean`, `Lemmas/ParseCache.lean`, `Props/ParseCache.lean`). Types as objects on a heap, the table of `functools.cache` as a list; histories are lists of operations. Invariant: every cached object shows the parsed type and its parts are in a range of addresses of its own.
* **C70** (`Spec/Wider.lean`, `Lemmas/Wider.lean`, `Props/Wider.lean`). `Wider` is an inductive relation on ABI types; by induction on it the layout, `enc`, `toPy` and `taken` are the same and `Reads` differs by `Val.Of` only.
* **C71** (types of the same layout). `Spec/Recast.lean` replaces one-word types by `bytes32` and `string` by `bytes`, and values by their words. By induction on the type, `Reads` for a type is `Reads` for the bare type together with the word being one of a value of the type; with the decoding theorem (`decode_reads`) this carries over to `decode`, and with `encode_of` to `encode`. `C71_leaves` lists which values have the same words.
* **C72** (type arguments of any kind). `Model/AnyTypes.lean` has the codec functions, the lookups and `parse` on any Python value: every predicate of the default registries parses its argument (or is not equal to it), so that what `parse` raises decides. Induction on the list of predicates; the first item that is no string is found by induction on the list of types.
* **C73** (which exception). `Spec.fault` is written from the documentation of the exceptions (exceptions.py:10-40): for elementary types in terms of the exact rational value, for composites as the first wrong item. One induction over the type shows that `validate_value` of the encoder reports exactly that fault; the arithmetic of the remainder check is done exactly, down to the underflow at 10^-1000997 (`decRem_pos`), which also yields `C07_exact`, the exact set of accepted fixed-point numbers.
* **C74** (errors that more data may cure). On the positional decoder `posDec` (proved equal to the code's decoders) the relation `Grow` between the run on `d` and on `d ++ more` (results stay; errors stay unless they are `InsufficientDataBytes` or `InvalidPointer`) is shown to be preserved by bind and so by every decoder, by induction on the type. For static types a second induction bounds where `InsufficientDataBytes` may come from.
* **C75** (arguments one by one). `piece` in `Spec/Pieces.lean` is what a single encoding contributes and `layout` is the head-tail layout of the ABI specification; nothing in the statements refers to encoder objects. `tupleEncode` is unfolded into the calls of the component encoders, each of which is the single-argument `encode` (`single_iff`).
* **C76** (order). `Spec/Order.lean` orders mathematical values; by induction on the type two values of it compare as their encodings do (`Compared`, a three-way statement, so no separate injectivity is needed), since static encodings of one type have one length. `C76_integers` follows from C05 and C06.
* **C77** (which exception wrong data lead to).  `Spec/Breaks.lean` defines, next to `Reads`, the relation `Broken`: what is wrong (a `Trouble`, which has its exception) at a position, with the two rounds over a container, without reference to a decoder.  Proved for decoding by positions (`posDec`) by induction on the type, and carried over to the decoder objects by `decode_eq`.
* **C78** (texts of the exceptions). `Model/Messages.lean` has every decoder again with the text it raises; the states come from the decoders of `Model/Decoding.lean`. `Spec/Messages.lean` gives the text for each `Trouble` of `Spec/Breaks.lean`. By induction on the type, the text of the decoder object is that of the trouble (`SaysGood`, `Lemmas/Messages.lean`); `repr` of bytes and decimal numerals are shown to be injective, so that texts can be read back (`Lemmas/Texts.lean`).
* **C79** (bytes looked at). `Foot` in `Lemmas/Looked.lean`: a statement about data holds for all data that agree at some n positions. Induction on the type over `Reads` (`Spec/Read.lean`), adding up the positions; the sum is the length of `enc`.
* **C80** (exceptions for type strings). The lookups are those of the registry model (Model/Registry, Model/Base). `Spec.Declined` says from the names in the string, left to right, which exception belongs to it; the proof is an induction over the fuel of the lookup, with the validation of the whole type before the nested lookups, and `C80_lookup` is an equivalence, so that the exception is determined.
* **C81** (texts of the exceptions of `encode`). `Model/Complaints.lean` runs the validation of every encoder class again with the arguments of `invalidate_value` kept, and the texts built from them. `Spec/Complaints.lean` has `faultAt` (the fault of C73 with the type it belongs to), the class names, and the relation `Because` between a fault and the reason given. Proved by induction on the type, through the same lookup framework as C73 and C78; that the limits named are true follows from C73.
* **C82** (where a ParseError points).  `Model/Pointing.lean` follows the parser once more, expression by expression, and keeps the failure that parsimonious keeps: the one furthest to the right, a named rule being preferred to a part of one only where `match_core` does so.  `Spec/Pointing.lean` says in terms of `Derives` alone what the place is.  The proof goes by an automaton with a counter for open parentheses (`readOn` in `Lemmas/Pointing.lean`): a string is the beginning of a type string exactly if the automaton reads all of it (`viable_iff`), and the place recorded by the parser is computed from where the automaton stops (`record_all`).  A parsimonious that tries no repetition at the end of the string (`Ext.triesAtEnd = false`, as in 0.10) records nothing there; then the place is the last one that was tried, `LastTry` in the specification.  That there is only one is shown by an automaton that carries a mark along (`Runs`, `lastTry_run`), and `C82_missing` says when there is one: exactly if the string would be right with a `)` behind it.  `C82_grammar` ties this to the grammar as data: `Model/PegFailures.lean` records a failure wherever an expression of `Model/Peg.lean` does not match, knowing nothing of this grammar; `Lemmas/PegFailures.lean` shows rule by rule, and by strong induction on the length of the string, that the list of failures is the one of `Model/Pointing.lean`.  `C82_remembered` removes the simplification that results are not remembered: failures that were there before do not move the place.
* **C83** (texts of a registry). `Model/Lookups.lean` follows `find`, `add`, `remove_*`, `_get_registration`, `parse_type_str` and `parse_tuple_type_str` once more, giving the text that goes with each exception; whether a nested lookup raises is taken from `Model/Registry.lean`. The specification `Explained` says which text belongs to a string from its derivation in the grammar, with `FirstWrong` of C65 and `PointsAt` of C82. Proved by induction on the type, with the outcome of a lookup (C80) as induction hypothesis.
* **C84** (attributes of parsed types). `parse` is the model of C21; the attributes are those of the parse result. Adding a dimension is an operation on derivations (`derives_addDim`, `derives_last`), so each statement is about strings: what a string with one more pair of brackets, in parentheses, or of letters and digits parses to, and what `is_array`, `item_type`, `is_dynamic` and `components` are then.
* **C85** (length of encodings). `Spec/Lengths.lean` counts the bytes of a value from its type and shape (`Takes`, an inductive relation that never looks at an encoder). Induction over the type, for the standard and the packed encoder at once: each encoder object that returns, returns as many bytes as counted; the layout of heads and tails is as long as the slots of its elements. A second induction shows that the count is unique and that the packed count is at most the standard one.
* **C86** (settings of classes). `Model/Settings.lean`: classes as lists of attribute dictionaries in method resolution order, objects with a dictionary of their own, the loop of `BaseCoder.__init__`, and the class statements of the fixed-size coders. Induction over the keyword arguments: the dictionary of the object holds what was given. `C86_library` ties the class statements to the attribute tables of `Model/Direct.lean` (a finite check: seven classes, four settings). `C86_string` is the constructor of `StringDecoder`, which has its own `__init__`.
* **C87** (a change in one place). `Spec/Differs.lean` defines, by recursion through containers, that two arguments differ in one elementary value, and how many bytes this place takes. Proved by induction on that relation: a container's heads do not depend on the contents of an item but on its length, so the offsets of all items stay as they are, and the item's bytes stay where they are. For acceptance, validation of a container is validation of its items, and the length, hence the largest offset, is unchanged.
* **C88** (streams). `Model/Frames.lean` has the methods of the stream for all integer arguments, with the state also after a call that raised. Invariant: the total offset is the sum of the open frames, cursor and return positions fit. `Spec.openFrames` reads the open frames off the history of calls; `Spec.Closed` says that each push has its pop. By induction on both.
* **C89** (`Spec/Composed.lean`, `Props/Composed.lean`). `EncodesAs g item s v (d, b)` is the specification: a relation between a type string, a value and its encoding, with one rule for leaves (whatever the registered encoder does) and one each for `T[k]`, `T[]` and tuples, whose bytes are the ABI's `layout` of the parts. `C89_layout`: arguments that have encodings are accepted and `encode` returns their layout. `C89_only`: for types built by these rules, nothing else is accepted. `C89_unique`: the relation is a function. Leaves are strings served by a registered object or names without dimensions, so an array can not pass as a leaf. The rules `packedSized` and `packedDynamic` are those of registries made from the packed one (`C89_packed_compound`); `C89_concat` is the case in which nothing is dynamic.
* **C90** (`Spec/Sampled.lean`, `Props/Sampled.lean`). `Sampled g m item s` builds a type string from leaves at which the strategy and the encoder fit, with the library's array and tuple classes in the one registry and its array and tuple factories in the other. Induction over it: the strategy that the factories make draws lists and tuples whose parts are accepted, so `validate_value` of the composed encoder accepts them. `C90_builtin`: the library's elementary types are such leaves. `C90_needed`: one draw that is rejected spoils the array.
* **C91** (types built from registered decoders). `Spec/Readers.lean` has no streams and no frames: a `Reader` is a relation between the data, a position, a value and the position where it ends. `ReadsBy` says that a decoder object reads by such a relation; `TupleReads`, `SizedReads`, `DynamicReads` are the readers of the compound types, and `ReadAs` lists the type strings that have one. The proof shows that `TupleDecoder` and the array decoders, made from decoders that read by relations, read by the compound relations (the check of the pointers and the decoding run over the same stream, so one induction goes through both), and that the lookups give these decoders.
* **C92** (the caller's decimal context). `Model/DecimalContext` has the arithmetic of `decimal` as computations that read the current context and set flags in it, `localcontext` as a switch of contexts, and the lines of the fixed-point coders that use them, function by function. `finalize` was compared with Python's `Context.plus` on 300000 random numbers and contexts (result and flags). Proved: run in any context of the caller, these end as the coders of `Model/Encoding` and `Model/Decoding` do, which know one context only, and leave the caller's context as it was. For numbers of at most 900 places nothing is ever rounded, so the default context from which the package made its own does not matter; `C92_default_matters` is a longer number for which it does. Not modelled: `capitals`, `clamp`, results that are not finite.
* **C93** (text is UTF-8).  Found missing by a wrong program: with the bytes of the characters in reverse order the theorems on round trips failed, but C02 did not, as its specification used the codec of the model.  `Spec/Utf8.lean` is the table of RFC 3629 as an inductive relation on bits; `Lemmas/Utf8Table.lean` shows that the model's encoder computes it and that it is functional; the decoder is its inverse by `Lemmas/Utf8.lean`.
* **C94** (ordered choice and greed lose nothing).  `Model/Peg.lean` is a deep embedding: the grammar of grammar.py:14-38 as data, an interpreter for literals, regular expressions, sequences, ordered choice and quantifiers that builds the tree, and the visitor of grammar.py:41-108 on the tree.  `Lemmas/Peg.lean` shows rule by rule, and by strong induction on the length of the string, that the interpreter followed by the visitor does what the one-pass parser of `Model/Grammar.lean` does; C21 then gives the statements about `Derives`.  `Lemmas/PegTree.lean`: the texts, by induction on the depth, for any grammar.
* **C44** (work).  The decoders with a counter (`Model/Cost`), tied to the decoders by `C44_counted`; upper bound
  by induction on the type, lower bounds by explicit families (`Lemmas/Cost`, `Lemmas/Blowup`).

### Outcome per property

| property | status | theorems | missing or exact form |
| --- | --- | --- | --- |
| C01 Round trip | partial | `C01_roundTrip_partial`, `C01_outcome`, `C01_roundTrip_false`, `C01_other_value_false` | Proved for all arguments whose fixed-point numbers are on the grid; false in general because off-grid negative fixed values are accepted: C01_roundTrip_false has one that decode refuses, C01_other_value_false one that decodes to another number. For all accepted arguments, decode returns or raises NonEmptyPaddingBytes, and strict makes no difference (C01_outcome). |
| C02 Conformance to the ABI specification | partial | `C02_conformance_partial`, `C02_conformance_complete`, `C02_conformance_false` | Proved for all on-grid arguments, with the converse; false in general for off-grid negative fixed values. |
| C03 Encoding length is a multiple of 32; static length is a function of the type | proved | `C03_multiple_of_32`, `C03_static_length`, `encode_length` |  |
| C04 is_encodable predicts encode | partial | `C04_isEncodable_partial`, `C04_encode_isEncodable`, `C04_gap`, `C04_isEncodable_false`, `C04_raises_false`, `C04_odd_false`, `C04_fraction` | Exact up to lone surrogates, where is_encodable says yes and encode raises UnicodeEncodeError (C04_isEncodable_false, C04_gap), and integers of too many digits, for which is_encodable may raise ValueError (C04_raises_false), and complex numbers and Fractions for a fixed-point type, for which it raises TypeError (C04_odd_false). |
| C05 Integer bounds are exact | proved | `C05_uint`, `C05_int` |  |
| C06 Two's-complement words | proved | `C06_twosComplement` |  |
| C07 Fixed-point values outside the grid are refused | partial | `C07_ufixed_partial`, `C07_fixed_partial`, `C07_negative`, `C07_fixed_false`, `C07_ufixed_false`, `C07_exact` | False of the code: negative numbers are never refused for extra digits, and tiny decimals underflow to zero. Proved: bounds for all numbers; grid for non-negative numbers with exponent at least -1000997; C07_exact gives the exact set of accepted numbers. |
| C08 Fixed-point round trip is numerically exact | proved | `C08_fixed_roundTrip` |  |
| C09 bytesM padding and over-length | proved | `C09_bytesM` |  |
| C10 Address canonicalisation | proved | `C10_address`, `C10_same`, `C10_accepts`, `C10_mixed`, `C10_refuses` |  |
| C11 Trailing bytes are ignored | proved | `C11_encoded`, `C11_trailing` | C11_encoded is for everything encode returns, strict or not, including the encodings that decode refuses (C01); C11_trailing is for all data that decode. |
| C12 Relaxing strict never changes a successful strict decode | proved | `C12_relax` |  |
| C13 strict=False applies to every dynamic element | partial | `C13_relaxed_partial`, `C13_relaxed_sound`, `C13_relaxed_false` | False of the code for bytes and string inside arrays and tuples: nested lookups use the default strict=True. The counterexample is proved, and the claim is proved for all types where bytes and string are outermost. |
| C14 Static decoding is canonical | proved | `C14_static_canonical`, `C14_static_injective` |  |
| C15 Decoded values are encodable | proved | `C15_reencode` |  |
| C16 decode failures are DecodingErrors | partial | `C16_errors_partial`, `C16_errors_plain`, `C16_overflow_false`, `C16_unicode_false` | False of the code: OverflowError for huge length words and UnicodeDecodeError for invalid text escape. Everything else is proved to be a DecodingError, both exceptions occur only if the data hold such a length or such text, and types without bytes and string raise nothing else. |
| C17 encode failures are EncodingErrors | partial | `C17_errors_partial`, `C17_errors_false`, `C17_digits_false`, `C17_odd_false` | False for lone surrogates (UnicodeEncodeError), for integers of too many digits (ValueError) and for a complex or a Fraction given for a fixed-point type (TypeError). |
| C18 Pointer validation | partial | `C18_pointers_partial`, `C18_pointers_flat`, `C18_pointers_refused`, `C18_pointers_false` | False of the code when a tuple has a static component that is itself a tuple or an array of composite elements: an offset into the head is accepted. Proved in full when static components are flat, and with a weaker bound (one word per component) in general. |
| C19 Array work is bounded by the data | proved | `C19_bounded` | Every sequence at any depth. |
| C20 No proper prefix of an encoding decodes | proved | `C20_no_prefix` |  |
| C21 parse accepts exactly the grammar | proved | `C21_parse`, `C21_unique`, `C21_rejects`, `C21_too_long` | Including Python's limit on the digits int() converts, which the claim mentions. |
| C22 to_type_str inverts parse | proved | `C22_to_type_str`, `C22_parse` |  |
| C23 normalize is idempotent and preserves parsability | proved | `C23_idempotent`, `C23_parses`, `C23_words` | For arbitrary strings, not only type strings. |
| C24 Supported type strings | partial | `C24_total`, `C24_accepts`, `C24_supported_partial`, `C24_byte_false`, `C24_bool_false` | False of the code for a bare byte (refused) and for bool followed by a size (accepted); both are proved. C24_accepts is the exact set; C24_supported_partial is the claim for all other strings. |
| C25 One notion of dynamic type | proved | `C25_dynamic`, `C25_placement` |  |
| C26 Default registry is unambiguous and symmetric | proved | `C26_unambiguous`, `C26_symmetric`, `C26_no_conflict` |  |
| C27 A lookup is served by the unique matching registration | partial | `C27_encoder_unique`, `C27_encoder_served`, `C27_decoder_unique`, `C27_decoder_served`, `C27_multiple_partial`, `C27_multiple_false`, `C27_none`, `C27_encoder_order`, `C27_decoder_order`, `C27_matchers` | A lookup returns a coder iff exactly one registration matches and it is that one; order is irrelevant. MultipleEntriesFound is not raised (ParseError is) for unparsable type strings containing 'No matching': C27_multiple_false. |
| C28 Caching is transparent | proved | `C28_getEncoder`, `C28_getDecoder`, `C28_encode`, `C28_hasEncoder`, `C28_isEncodable`, `C28_decode`, `C28_changes`, `C28_default_encode`, `C28_default_decode`, `C28_default_isEncodable`, `C28_default_isEncodableType`, `C28_packed_encode`, `C28_packed_isEncodable` | For every history of calls on heap objects with caches, every outcome is the one the current registrations determine without caches (a cached entry can only spare a RecursionError). |
| C29 Copies are isolated | partial | `C29_isolated`, `C29_changes`, `C29_copy`, `C29_decode_partial`, `C29_decode_false` | Lookups and encoding are isolated. decode is isolated unless a decoder object (not a class or callable) is registered, which a copy shares: C29_decode_false. |
| C30 unregister undoes register | partial | `C30_label`, `C30_matcher_partial`, `C30_matcher_false` | By label everything is restored. By an equal but not identical matcher lookups are restored, but the label stays in use: C30_matcher_false. |
| C31 strict=False does not leak | partial | `C31_partial`, `C31_later_partial`, `C31_objects_partial`, `C31_default`, `C31_false` | Holds for registries without decoder objects, in particular the default one; C31_false is a registered ByteStringDecoder object. |
| C32 Failed registration changes nothing | partial | `C32_one_side`, `C32_partial`, `C32_default`, `C32_register_false`, `C32_unregister_false` | register_encoder/_decoder and unregister_* are atomic; register/unregister are for registries whose two sides are always changed together, and not otherwise. |
| C33 Concurrent lookups see the latest registrations eventually | partial | `C33_false`, `C33_encoder_false`, `C33_decoder_false`, `C33_encoder_partial`, `C33_decoder_partial`, `C33_encoder_recovers`, `C33_decoder_recovers`, `C33_assembled_partial`, `C33_encoder_alone`, `C33_decoder_alone` | False of the code for every registry, type string and change: the cache is cleared before the change, so a lookup in between leaves a stale entry that later lookups return. Proved instead: all lookups are right in every schedule in which no call overlaps a change; one more exclusive change repairs a stale cache; and in every schedule lookups return only coders made from registrations that were present at some time. |
| C34 Packed encoding is concatenation | proved | `C34_packed`, `C34_complete`, `C34_concat`, `C34_sized`, `C34_dyn`, `C34_tuple`, `C34_fixed` | C34_packed gives the exact bytes for every accepted argument on the fixed-point grid; C34_concat, C34_sized, C34_dyn, C34_tuple and C34_fixed give concatenation and widths for every accepted argument. |
| C35 Packed and standard encodability agree | proved | `C35_isEncodable`, `C35_encode` |  |
| C36 A tuple type encodes its components | proved | `C36_encode`, `C36_decode_static`, `C36_decode_dynamic` |  |
| C37 Padding and scaling helpers | proved | `C37_ceil32`, `C37_zpad`, `C37_zpad_right`, `C37_fpad`, `C37_pad32`, `C37_zpad_value`, `C37_fpad_value`, `C37_lengths`, `C37_abbr`, `C37_abbr_cases`, `C37_scale_places`, `C37_scale_places_overflow`, `C37_scale_back` | Every integer, also negative lengths and limits; abbr is a function of repr(value). scale_places for every positive or negative number of places. (Its docstring says that it moves the decimal point to the right; it moves it to the left.) |
| C38 Stream frames are balanced | proved | `C38_frames`, `C38_static`, `C38_compose` | Default decoders on any stream; C38_compose extends it to tuples and arrays of the user's own decoders. |
| C39 Strategies generate encodable values | partial | `C39_strategies_partial`, `C39_defined`, `C39_covers`, `C39_false`, `C39_bool8` | Proved for every type string the codec supports, with exactness (every value of the type can be drawn). Missing: the strategy registry also accepts strings the codec rejects (uint7); C39_false is the counterexample. |
| C40 Callable coders work inside arrays | partial | `C40_encode_false`, `C40_decode_false`, `C40_arguments_partial`, `C40_single_partial` | The property is false of every callable: t[k] has no coder and t[] encodes only the empty list (AttributeError), for every history, registry and type string. Proved instead: callables encode exactly as arguments and in tuples (and round-trip there, C47); missing: arrays of callables, which the code does not support. |
| C41 Aliases behave as the canonical type | partial | `C41_aliases_partial`, `C41_is_encodable_partial`, `C41_byte_false` | False of the code for an argument of the bare type byte, which is proved; otherwise proved as exact equality of outcomes, exceptions included. |
| C42 Decoded values are in the type's range | proved | `C42_range` |  |
| C43 Encoding is injective | partial | `C43_injective_partial`, `C43_injective_false`, `C43_exact` | False off the grid (C43_injective_false). C43_exact says for all accepted arguments, on the grid or not, when two encodings are the same: exactly if the arguments are taken for the same (Spec.taken of C60). |
| C44 Decoding cost is bounded by a polynomial of the data | partial | `C44_bound_partial`, `C44_no_arrays`, `C44_counted`, `C44_nested_false`, `C44_shared_false`, `C44_false` | False as stated: decode makes at least 2^d decoder calls for ((...(uint256)...)) on one word (C44_nested_false), returns a value with 2^d parts from 64+96d bytes when offsets meet (C44_shared_false), and no polynomial in the lengths of the type strings and the data bounds the calls (C44_false). Proved: for fixed types a polynomial in the length of the data, of degree the nesting of arrays, bounds the calls. |
| C45 ABIType equality is type equality | proved | `C45_equality` |  |
| C46 Parameter validation | proved | `C46_args`, `C46_data`, `C46_count` |  |
| C47 Registered coders compose | proved | `C47_roundTrip`, `C47_registered`, `C47_builtin`, `C47_compound`, `C47_short_false` | For coders that belong together (Spec.ReadsBack), in any nesting; C47_short_false shows that the size condition of ReadsBack is needed. |
| C48 Handling malformed strings | partial | `C48_decode`, `C48_total`, `C48_raises`, `C48_encode_false`, `C48_encode_object` | Decoding is proved for every handler, every nesting and every history without strict=False. The last sentence is false: the class TextStringEncoder registered under any other name than string never encodes (C48_encode_false); the object TextStringEncoder() does (C48_encode_object). |
| C49 Threads that share a registry do not disturb each other | proved | `C49_undisturbed`, `C49_default`, `C49_packed`, `C49_alone`, `C49_shared_false` | Steps are single accesses to dicts and caches. C49_alone ties the step-by-step model to the sequential one. C49_shared_false: the condition on decoder objects is needed; with one registered, a strict decode may return what it refuses in every sequential order. |
| C50 Registering while other threads use the registry | partial | `C50_false`, `C50_encode_false`, `C50_partial` | False of the code: a registration during the iteration in find makes it raise RuntimeError, so encode raises and is_encodable('bool', True) returns False. Proved instead: if no other thread is in a call on the registry while it is being changed, calls take effect one after the other in the order of their return. Missing: calls that overlap a change, for which the property fails. |
| C51 Every call finishes | proved | `C51_finishes` | Every endless schedule that is fair to the thread. |
| C52 Arrays in terms of tuples and of their elements | partial | `C52_encode`, `C52_encode_packed`, `C52_decode`, `C52_decode_partial`, `C52_decode_single`, `C52_decode_false`, `C52_dynamic_encode`, `C52_dynamic_decode` | Encoding and T[] in full. decode: from the array form to the tuple form for all data, back for data whose offsets point behind their heads. The rest is false: with a static array beside dynamic types, an offset into the head is refused with the array form and followed with the tuple form (C52_decode_false). |
| C53 The form of a value does not matter | proved | `C53_encode`, `C53_encode_packed`, `C53_is_encodable`, `C53_printable`, `C53_decode`, `C53_digits_false` | For every pair of values related by Spec.Alike, whether they are accepted or refused. Exceptions are compared by class. |
| C54 Decoding some of the arguments | proved | `C54_leading`, `C54_encoded`, `C54_static` | In full, for data that fit in memory (Fits). |
| C55 Coder objects with sizes of one's own | partial | `C55_construct`, `C55_encode`, `C55_decode`, `C55_round_trip`, `C55_bool_16`, `C55_address_152` | In full for the value sizes a class is meant for (BitsOk: 8 bits for bool, 160 for addresses, 8 to 256 for fixed-point numbers, any from 8 for the others) and, as in C07, for fixed-point values on the grid; C55_bool_16 and C55_address_152 show that it is false for others: a boolean encoder of 16 bits encodes what the decoder of 16 bits refuses, and an address decoder, unlike the encoder, can be made for other sizes than 160 bits and then refuses everything. |
| C56 A registry is a list of labelled entries | partial | `C56_outcomes_partial`, `C56_encoders_partial`, `C56_decoders_partial`, `C56_by_label`, `C56_strategies_partial`, `C56_label_false` | In full for histories in which a labelled entry is unregistered by its label or with the matcher object itself (in particular if nothing is unregistered by matcher: C56_by_label). With an equal matcher that is another object the entry goes and its label stays (C56_label_false), so the statement as it stands is false of the code. |
| C57 is_encodable answers for encode, whatever is registered | proved | `C57_encoded`, `C57_refused`, `C57_raised`, `C57_callable` | Encoders are functions of the value (they do not change state between the two calls); the lookup does not reach the recursion limit. |
| C58 The work of a successful decode is determined by the value | proved | `C58_exact`, `C58_bounds`, `C58_linear` | Complements C44: a decode that returns costs no more than its value, up to the factor for nested tuples (which is needed: C44_nested_false); the value itself can be exponentially larger than the data (C44_shared_false). |
| C59 Coder objects with the other is_big_endian | proved | `C59_decode`, `C59_encode`, `C59_round_trip`, `C59_uint_not_injective`, `C55_construct` | The argument does not do what its name says: C59_round_trip gives the exact set of values that survive, C59_uint_not_injective two values with the same encoding. |
| C60 What encode writes for arguments off the fixed-point grid | proved | `C60_encode`, `C60_encode_packed`, `C60_decode`, `C60_number`, `C60_number_decoded` | Completes C01, C02, C07: what happens where their claims are false. The bound of 900 places is needed: an example shows a number with 1005 places that is rounded to 999 digits first. |
| C61 Coder objects put together by hand from array, tuple and elementary classes | proved | `C61_encode`, `C61_round_trip`, `C61_whole`, `C61_short`, `C61_refused` | Arrays of fixed length 0 are left out; C61_zero shows one with dynamic elements that is encoded and cannot be decoded. |
| C62 The work of encode is bounded by the size of the argument times the nesting of the types | proved | `C62_bound`, `C62_exact`, `C62_exact_packed`, `C62_is_encodable`, `C62_is_encodable_packed`, `C62_quadratic` | Calls of validate_value are counted on the same path as the encoders of the model (Model/EncCost.lean takes every intermediate result from Model/Encoding.lean). The time of a single call, copying of bytes and the construction of coder objects are not counted. |
| C63 How deep calls are nested is bounded by the types, never by the data or the argument | proved | `C63_decode`, `C63_encode`, `C63_is_encodable`, `C63_decode_deep`, `C63_encode_deep` | Calls of decoder objects, encoder objects and validate_value are counted, on the same path as the model (Model/Cost.lean, Model/EncCost.lean); each of them is a fixed number of Python frames. The recursion of the grammar and of the registry while the type string is looked up, which depends on the types alone, is not counted. |
| C64 from_type_str of the library's classes makes the registry's coder or refuses | partial | `C64_makes`, `C64_refuses_partial`, `C64_overlooked`, `C64_no_type`, `C64_alone`, `C64_own_class`, `C64_own_refuses` | That a class refuses the names it is not for is false of the code in three cases, and proved for all others (C64_refuses_partial); C64_overlooked says what happens in these: ByteStringEncoder and ByteStringDecoder take bytes5 for bytes, TupleEncoder and TupleDecoder take (int256)[] for (int256), and BytesEncoder and BytesDecoder raise TypeError for bytes. |
| C65 An ABITypeError points at the first invalid part of the type string | proved | `C65_parse`, `C65_invalid`, `C65_valid`, `C65_one`, `C65_verdict`, `C65_nodes`, `C65_items`, `C65_hand_made` | The docstring of ABIType.validate promises ABITypeError for every invalid type; for types made by hand the code raises AttributeError (C65_hand_made). |
| C66 encode_packed gives what Solidity's abi.encodePacked gives | partial | `C66_conforms_partial`, `C66_exact`, `C66_conforms_false` | False of the code: elements of arrays are not padded to 32 bytes. C66_exact says when the bytes agree: if and only if every argument for an array with elements shorter than 32 bytes is empty. (Off-grid fixed-point arguments, see C01, are left out.) |
| C67 Which types encode_packed tells apart | partial | `C67_injective_partial`, `C67_collision`, `C67_length` | An equivalence: unique for OneVariableAll types, with collisions for all others. Missing: off-grid fixed-point arguments, for which already C43 is false. The collisions need an encoding that fits into a bytes object (bound on the fixed array lengths). |
| C68 Encoding again what was decoded tells canonical data from other data | proved | `C68_canonical`, `C68_prefix`, `C68_one` |  |
| C69 The cache of parse is not seen, unless somebody assigns to its results | partial | `C69_transparent_partial`, `C69_same_object`, `C69_isolated`, `C69_disjoint`, `C69_one_type`, `C69_transparent_false` | The full claim is false: the cache hands out the same mutable object. Partial: histories without assignments to the result. The library itself never assigns to these attributes. |
| C70 Wider number types are compatible | proved | `C70_encode`, `C70_decode`, `C70_narrow` | encode: arguments of weight below 2^249 and Decimals with at most 900 places, as in C60. |
| C71 The layout of data and the types of its words are read independently | proved | `C71_decode`, `C71_bare`, `C71_recast`, `C71_encode`, `C71_leaves` | An equivalence for decode, on any data and for both values of strict. |
| C72 Only lists and tuples of type strings are accepted as types | proved | `C72_strings`, `C72_no_list`, `C72_no_string`, `C72_only_strings`, `C72_questions`, `C72_parse` | C72_strings ties the functions that take any value to those of the other theorems. |
| C73 Which exception a wrong argument leads to | proved | `C73_isEncodable`, `C73_encode`, `C73_first`, `C73_element`, `C73_component`, `C73_count`, `C73_part` | fault t v (Spec/Fault.lean) is the part at fault and the kind of fault; validation is shown to report it for every value, so the four functions are determined completely (up to the bytes). C73_first, C73_element, C73_component and C73_count say the same without it, in terms of encode and is_encodable alone. |
| C74 Which errors of decode more data may cure | proved | `C74_final`, `C74_beginning`, `C74_cut`, `C74_static`, `C74_static_cut` | Strict decoding; with strict=False a cut string may raise UnicodeDecodeError (an example shows it). |
| C75 An argument list is encoded as its arguments are encoded one by one | proved | `C75_apart`, `C75_together`, `C75_append`, `C75_parts` | All arguments, also those off the fixed-point grid. |
| C76 Encodings of unsigned static values are in the order of the values | proved | `C76_order`, `C76_integers` | Dynamic types have offsets and lengths first and are not ordered this way. |
| C77 Which exception wrong data lead to | proved | `C77_refuses`, `C77_accepts`, `C77_either`, `C77_beginning` | Both directions: the outcome of decode on supported types is determined completely (Spec/Breaks.lean, Spec/Read.lean). |
| C78 What the exceptions of decode say | partial | `C78_says`, `C78_when`, `C78_tells`, `C78_repr`, `C78_means`, `C78_padding_partial`, `C78_zeros` | Everything is proved as stated except that the bytes which a text calls not empty are not all zeros: this is false for intN and fixedMxN (C78_zeros) and is proved for lists of types without them (C78_padding_partial). |
| C79 Which bytes of the data a decoded value depends on | proved | `C79_depends`, `C79_free` | The positions are existential; their number is bounded by the length of the encoding of the value. |
| C80 Which exception a type string without a coder leads to | proved | `C80_lookup`, `C80_one`, `C80_calls` | Spec/Declined gives the exception from the derivation of the string in the grammar of C21, the abbreviations of C23 and the rules of C65; C80_lookup is an equivalence for get_encoder of both registries and get_decoder. Registries changed by the user are not covered (C57 has those). |
| C81 The text of an encoding exception names the first part at fault, and the limits it names are the true ones | proved | `C81_fault`, `C81_says`, `C81_when`, `C81_text`, `C81_range` | How Python prints values, their types and decimals is a parameter (Printing). Texts of exceptions raised after validation (lone surrogates, lengths from 2^256 on) are not the library's, or unreachable under the weight bound of C81_when. |
| C82 Where a ParseError points | proved | `C82_text`, `C82_place`, `C82_before`, `C82_after`, `C82_missing`, `C82_name`, `C82_grammar`, `C82_grammar_ok`, `C82_remembered` | C82_grammar: the same place comes of recording failures while the grammar as data (C94) is interpreted, expression by expression. C82_remembered: that parsimonious remembers results, and so does not record some failures a second time, makes no difference. C82_text: the text as a function of the place, for all strings. PointsAt is stated with the grammar of the specification (Derives) only. How parsimonious 0.10 remembers the failure that got furthest (Expression.match_core, ParseError.column) is modelled from knowledge of the library, as it is not in /repo. Whether a repetition (e?, e*, e+) is tried at the end of the string is a parameter of the model (Ext.triesAtEnd) and everything is proved for both: parsimonious 0.10 does not try it. With triesAtEnd = true the modelled columns agree with all those in tests/core/grammar.py, a file that pytest does not collect and that was written for an older parsimonious. |
| C83 What the exceptions of a registry say | proved | `C83_text`, `C83_every`, `C83_one`, `C83_calls`, `C83_class`, `C83_tupleClass`, `C83_find`, `C83_register`, `C83_unregister`, `C83_test`, `C83_matcher`, `C83_matcher_one` | What Python prints for a str (repr) is a parameter; it is assumed that letters and digits are printed between apostrophes. The text of VisitationError belongs to parsimonious and is not modelled. C83_test: the lookup used elsewhere in the model, which tests only the type string for 'No matching', agrees with the code's test of the whole text unless the repr of a matcher contains these words. |
| C84 The attributes of a parsed type follow the type string | proved | `C84_dynamicArray`, `C84_sizedArray`, `C84_items`, `C84_tuple`, `C84_name` | the attributes are said by recursion over the string, for every string that parses, whether or not it passes validate |
| C85 How long an encoding is | proved | `C85_encode`, `C85_packed`, `C85_unique`, `C85_packed_shorter` | The sizes are counted by Takes in Spec/Lengths.lean from the values, without reference to the bytes written. A value that the function refuses may also have a count. |
| C86 The settings of a coder class | proved | `C86_settings`, `C86_unknown`, `C86_text`, `C86_validated`, `C86_replaced`, `C86_order`, `C86_subclass`, `C86_library`, `C86_packed`, `C86_string`, `C86_string_strict` | Class attributes are plain values: descriptors without setters, __slots__ and own __setattr__ are not modelled. |
| C87 A change in one place of the argument changes one place of the encoding | proved | `C87_encode`, `C87_packed`, `C87_word`, `C87_accepts` | Spec/Differs.lean says what two arguments that differ in one place are. The theorems relate two runs of encode and two runs of encode of the value by itself. |
| C88 The stream that decoders read from | proved | `C88_frame`, `C88_seek`, `C88_read`, `C88_pop`, `C88_push`, `C88_library` | The methods of io.BytesIO that write or close are not modelled. C88_library: the streams of all other theorems are these, for the calls that the library's decoders make. |
| C89 Types built from registered encoders are laid out as the ABI prescribes | proved | `C89_layout`, `C89_concat`, `C89_only`, `C89_unique`, `C89_packed_compound` | Encodings of 2^256 bytes and more are excluded in C89_layout: their offsets do not fit in a word. |
| C90 Strategies registered by users fit the encoders registered by users, in any nesting | proved | `C90_encodable`, `C90_registered`, `C90_builtin`, `C90_compound`, `C90_needed` | The combinators of hypothesis (lists, tuples) are modelled by their documented behaviour, as for C39. |
| C91 Types built from registered decoders read what the layout prescribes | proved | `C91_decode`, `C91_unique`, `C91_registered`, `C91_builtin`, `C91_compound` | An equivalence on arbitrary data. A registered decoder that changes its own state or looks at the frames of the stream is not covered, nor one whose result depends on its attribute strict (the attribute of a registered object is shared between lookups, see C31). |
| C92 The caller's decimal context | proved | `C92_ufixed`, `C92_fixed`, `C92_scale_places`, `C92_ufixed_decode`, `C92_fixed_decode`, `C92_ufixed_default`, `C92_fixed_default`, `C92_default_matters` | the arithmetic of decimal in an arbitrary context (eight rounding modes, traps, flags, subnormal numbers) and the with statements of the code, against the coders of Model/Encoding and Model/Decoding; the text of an exception does depend on the caller's context (capitals) and is not claimed |
| C93 Text is UTF-8 | proved | `C93_table`, `C93_texts`, `C93_one`, `C93_encode`, `C93_packed`, `C93_surrogates`, `C93_decode`, `C93_not_text` | Spec/Utf8.lean is the bit table, written without reference to the codec of the model. C93_table shows that the UTF-8 used in the specifications of all other properties (values at any depth) is the same, so that C01, C02 and the others speak of UTF-8 too. encode and encode_packed for texts of at most sys.maxsize characters; decode strict, for data of at most sys.maxsize bytes. Python's codec itself is not in /repo: it is modelled in Model/EthUtils.lean. |
| C94 Ordered choice and greed lose nothing | proved | `C94_language`, `C94_tree`, `C94_visitor`, `C94_parse` | The grammar is data, transcribed from the text in grammar.py; the interpreter and the visitor's dispatch are a model of parsimonious, which is not in /repo. C94_parse shows that the parse of all other properties is the same. The interpreter's bound on the depth of calls is shown to be enough (any bound from depth s on). |

## 7. Wrong programs

`seeded/LOG.jsonl` has one line per attempt: a definition of the model was edited in a scratch copy as
a realistic bug would change the program, and the project was rebuilt.  `failed_first` are the
declarations whose proofs no longer go through; `theorems_failed` are the property theorems that
depend on one of them; `observable` is a closed instance of the API's behaviour that differs between
the two programs (checked in both).  Where a claim that the edit breaks had no failing theorem, the
theorem was tightened or a new one added (`tightened`), and the edit tried again.

## 8. Axioms of the property theorems

From `#print axioms`, all names in the namespace `EthAbi`.

* `propext`, `Classical.choice`, `Quot.sound`: C01_other_value_false, C01_outcome, C01_roundTrip_false, C01_roundTrip_partial, C02_conformance_complete, C02_conformance_false, C02_conformance_partial, C03_multiple_of_32, C03_static_length, C04_encode_isEncodable, C04_fraction, C04_gap, C04_isEncodable_false, C04_isEncodable_partial, C04_odd_false, C04_raises_false, C05_int, C05_uint, C06_twosComplement, C07_exact, C07_fixed_false, C07_fixed_partial, C07_negative, C07_ufixed_false, C07_ufixed_partial, C08_fixed_roundTrip, C09_bytesM, C10_accepts, C10_address, C10_mixed, C10_refuses, C10_same, C11_encoded, C11_trailing, C12_relax, C13_relaxed_false, C13_relaxed_partial, C13_relaxed_sound, C14_static_canonical, C14_static_injective, C15_reencode, C16_errors_partial, C16_errors_plain, C16_overflow_false, C16_unicode_false, C17_digits_false, C17_errors_false, C17_errors_partial, C17_odd_false, C18_pointers_false, C18_pointers_flat, C18_pointers_partial, C18_pointers_refused, C19_bounded, C20_no_prefix, C21_parse, C21_rejects, C21_too_long, C21_unique, C22_parse, C22_to_type_str, C23_parses, C23_words, C24_accepts, C24_bool_false, C24_byte_false, C24_supported_partial, C24_total, C25_dynamic, C25_placement, C26_no_conflict, C26_symmetric, C27_decoder_order, C27_decoder_served, C27_decoder_unique, C27_encoder_order, C27_encoder_served, C27_encoder_unique, C27_multiple_partial, C27_none, C28_changes, C28_decode, C28_default_decode, C28_default_encode, C28_default_isEncodable, C28_default_isEncodableType, C28_encode, C28_getDecoder, C28_getEncoder, C28_hasEncoder, C28_isEncodable, C28_packed_encode, C28_packed_isEncodable, C29_changes, C29_copy, C29_decode_partial, C29_isolated, C30_label, C30_matcher_partial, C31_default, C31_later_partial, C31_objects_partial, C31_partial, C32_one_side, C32_partial, C33_assembled_partial, C33_decoder_partial, C33_decoder_recovers, C33_encoder_partial, C33_encoder_recovers, C34_complete, C34_concat, C34_dyn, C34_fixed, C34_packed, C34_sized, C34_tuple, C35_encode, C35_isEncodable, C36_decode_dynamic, C36_decode_static, C36_encode, C37_scale_back, C37_scale_places, C37_scale_places_overflow, C38_compose, C38_frames, C38_static, C39_bool8, C39_covers, C39_defined, C39_false, C39_strategies_partial, C40_arguments_partial, C40_decode_false, C40_encode_false, C40_single_partial, C41_aliases_partial, C41_byte_false, C41_is_encodable_partial, C42_range, C43_exact, C43_injective_false, C43_injective_partial, C44_bound_partial, C44_counted, C44_false, C44_nested_false, C44_no_arrays, C44_shared_false, C45_equality, C46_count, C47_builtin, C47_compound, C47_registered, C47_roundTrip, C48_decode, C48_encode_false, C48_encode_object, C48_raises, C48_total, C49_alone, C49_default, C49_packed, C49_undisturbed, C50_partial, C51_finishes, C52_decode, C52_decode_partial, C52_decode_single, C52_dynamic_decode, C52_dynamic_encode, C52_encode, C52_encode_packed, C53_digits_false, C53_encode, C53_encode_packed, C53_is_encodable, C53_printable, C54_encoded, C54_leading, C54_static, C55_construct, C55_decode, C55_encode, C55_round_trip, C56_decoders_partial, C56_encoders_partial, C56_outcomes_partial, C56_strategies_partial, C57_callable, C57_encoded, C57_raised, C57_refused, C58_bounds, C58_exact, C58_linear, C59_decode, C59_encode, C59_round_trip, C59_uint_not_injective, C60_decode, C60_encode, C60_encode_packed, C60_number, C60_number_decoded, C61_encode, C61_refused, C61_round_trip, C61_short, C61_whole, C62_bound, C62_exact, C62_exact_packed, C62_is_encodable, C62_is_encodable_packed, C62_quadratic, C63_decode, C63_decode_deep, C63_encode, C63_encode_deep, C63_is_encodable, C64_makes, C64_no_type, C64_overlooked, C64_own_class, C64_own_refuses, C64_refuses_partial, C65_hand_made, C65_invalid, C65_nodes, C65_one, C65_parse, C65_valid, C65_verdict, C66_conforms_false, C66_conforms_partial, C66_exact, C67_collision, C67_injective_partial, C67_length, C68_canonical, C68_one, C68_prefix, C69_isolated, C69_same_object, C69_transparent_false, C69_transparent_partial, C70_decode, C70_encode, C70_narrow, C71_bare, C71_decode, C71_encode, C71_leaves, C71_recast, C72_no_string, C72_only_strings, C73_component, C73_count, C73_element, C73_encode, C73_first, C73_isEncodable, C73_part, C74_beginning, C74_cut, C74_final, C74_static, C74_static_cut, C75_apart, C75_append, C75_parts, C75_together, C76_integers, C76_order, C77_accepts, C77_beginning, C77_either, C77_refuses, C78_means, C78_padding_partial, C78_repr, C78_says, C78_tells, C78_when, C79_depends, C79_free, C80_calls, C80_lookup, C80_one, C81_fault, C81_range, C81_says, C81_text, C81_when, C82_after, C82_grammar, C82_grammar_ok, C82_missing, C82_place, C82_remembered, C82_text, C83_calls, C83_class, C83_every, C83_find, C83_one, C83_text, C83_tupleClass, C83_unregister, C84_dynamicArray, C84_items, C84_name, C84_sizedArray, C84_tuple, C85_encode, C85_packed, C85_packed_shorter, C86_order, C86_replaced, C86_settings, C86_string, C86_string_strict, C86_unknown, C86_validated, C87_accepts, C87_encode, C87_packed, C87_word, C88_frame, C88_library, C88_pop, C88_push, C88_read, C88_seek, C89_concat, C89_layout, C89_only, C89_packed_compound, C89_unique, C90_builtin, C90_compound, C90_encodable, C90_needed, C90_registered, C91_builtin, C91_compound, C91_decode, C91_registered, C91_unique, C92_fixed, C92_fixed_decode, C92_fixed_default, C92_scale_places, C92_ufixed, C92_ufixed_decode, C92_ufixed_default, C93_decode, C93_encode, C93_not_text, C93_one, C93_packed, C93_surrogates, C93_table, C93_texts, C94_language, C94_parse, C94_visitor, encode_length.

* `propext`, `Quot.sound`: C23_idempotent, C26_unambiguous, C27_multiple_false, C29_decode_false, C30_matcher_false, C31_false, C32_default, C32_register_false, C32_unregister_false, C33_decoder_alone, C33_decoder_false, C33_encoder_alone, C33_encoder_false, C33_false, C37_abbr, C37_abbr_cases, C37_ceil32, C37_fpad, C37_fpad_value, C37_lengths, C37_pad32, C37_zpad, C37_zpad_right, C37_zpad_value, C46_args, C46_data, C47_short_false, C49_shared_false, C50_encode_false, C50_false, C52_decode_false, C53_decode, C55_address_152, C55_bool_16, C56_label_false, C64_alone, C69_disjoint, C72_no_list, C72_parse, C72_questions, C72_strings, C78_zeros, C83_matcher_one, C83_register, C83_test, C85_unique, C86_subclass, C92_default_matters, C94_tree.

* `propext`: C27_matchers, C56_by_label, C65_items, C69_one_type, C82_before, C82_name, C83_matcher, C86_library, C86_packed.

* none: C86_text.
