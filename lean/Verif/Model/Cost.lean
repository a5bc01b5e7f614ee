import Verif.Model.Codec

/-!
# Counting the decoder calls of `decode`

The decoders of `Model/Decoding.lean` again, each with the number of calls `decoder(stream)` that a
call of it makes, itself included (`decode_uint_256(stream)` is such a call), and with the largest number of
such calls that are on the stack at one time.  Nothing is decoded here a second time: the next state of the
stream is always taken from the functions of `Model/Decoding.lean`, so the count follows the same path; an
exception ends it.
-/
namespace EthAbi

/-- A decoder object, the number of decoder calls that a call of it makes, and how deep they are nested.  The calls
counted are those of `__call__`, /repo/eth_abi/decoding.py:133-134. -/
structure Counted where
  dec : Decoder
  steps : Flags → Stream → Nat
  deep : Flags → Stream → Nat

namespace Counted

/-- The calls made after a step that may raise.  The calls counted are those of `__call__`,
/repo/eth_abi/decoding.py:133-134. -/
def after {α : Type} (r : PyM α) (f : α → Nat) : Nat :=
  match r with
  | .ok a => f a
  | .error _ => 0

/-- A decoder that makes a fixed number of calls: itself, or itself and `decode_uint_256` within.  The calls counted
are those of `__call__`, /repo/eth_abi/decoding.py:133-134. -/
def const (n : Nat) (d : Decoder) : Counted := ⟨d, fun _ _ => n, fun _ _ => n⟩

/-- `HeadTailDecoder`: itself, the offset, the tail: /repo/eth_abi/decoding.py:155-169. -/
def headTail (c : Counted) : Counted where
  dec := EthAbi.headTail c.dec
  steps fl st := 2 + after (decodeUint256 st) fun (p, st) => after (st.pushFrame p) fun st => c.steps fl st
  deep fl st :=
    1 + max 1 (after (decodeUint256 st) fun (p, st) => after (st.pushFrame p) fun st => c.deep fl st)

/-- The wrapping in the constructor of `TupleDecoder`: /repo/eth_abi/decoding.py:178-181. -/
def wrapDyn (c : Counted) : Counted := if c.dec.dyn then headTail c else c

/-- The loop of `TupleDecoder.validate_pointers`, which calls the decoders of static components:
/repo/eth_abi/decoding.py:201-220. -/
def checkSteps (fl : Flags) (currentLocation endOfOffsets : Nat) : List Counted → Stream → Nat
  | [], _ => 0
  | c :: cs, st =>
    (if c.dec.isHeadTail then 1 else c.steps fl st) +
      after (tupleCheckLoop fl currentLocation endOfOffsets [c.dec] st) fun st =>
        checkSteps fl currentLocation endOfOffsets cs st

/-- The nesting of the calls of that loop: /repo/eth_abi/decoding.py:201-220. -/
def checkDepth (fl : Flags) (currentLocation endOfOffsets : Nat) : List Counted → Stream → Nat
  | [], _ => 0
  | c :: cs, st =>
    max (if c.dec.isHeadTail then 1 else c.deep fl st)
      (after (tupleCheckLoop fl currentLocation endOfOffsets [c.dec] st) fun st =>
        checkDepth fl currentLocation endOfOffsets cs st)

/-- `for decoder in self.decoders: yield decoder(stream)`: /repo/eth_abi/decoding.py:227-228. -/
def eachSteps (fl : Flags) : List Counted → Stream → Nat
  | [], _ => 0
  | c :: cs, st => c.steps fl st + after (c.dec.call fl st) fun (_, st) => eachSteps fl cs st

/-- The nesting of these calls: /repo/eth_abi/decoding.py:227-228. -/
def eachDepth (fl : Flags) : List Counted → Stream → Nat
  | [], _ => 0
  | c :: cs, st => max (c.deep fl st) (after (c.dec.call fl st) fun (_, st) => eachDepth fl cs st)

/-- `TupleDecoder.decode` on the wrapped decoders: /repo/eth_abi/decoding.py:224-228. -/
def tupleSteps (fl : Flags) (cs : List Counted) (st : Stream) : Nat :=
  1 + checkSteps fl st.pos (st.pos + 32 * lenOfHead (cs.map (·.dec))) cs st +
    after (tupleValidatePointers fl (cs.map (·.dec)) st) fun st => eachSteps fl cs st

/-- The nesting of the calls of `TupleDecoder.decode`: /repo/eth_abi/decoding.py:224-228. -/
def tupleDepth (fl : Flags) (cs : List Counted) (st : Stream) : Nat :=
  1 + max (checkDepth fl st.pos (st.pos + 32 * lenOfHead (cs.map (·.dec))) cs st)
    (after (tupleValidatePointers fl (cs.map (·.dec)) st) fun st => eachDepth fl cs st)

/-- `TupleDecoder`: /repo/eth_abi/decoding.py:172-236. -/
def tuple (cs : List Counted) : Counted where
  dec := mkTupleD (cs.map (·.dec))
  steps fl st := tupleSteps fl (cs.map wrapDyn) st
  deep fl st := tupleDepth fl (cs.map wrapDyn) st

/-- The loop of `BaseArrayDecoder.validate_pointers`: /repo/eth_abi/decoding.py:309-322. -/
def ptrSteps (currentLocation endOfOffsets : Nat) : Nat → Stream → Nat
  | 0, _ => 0
  | n + 1, st =>
    1 + after (arrayCheckLoop currentLocation endOfOffsets 1 st) fun st =>
      ptrSteps currentLocation endOfOffsets n st

/-- `for _ in range(array_size): yield self.item_decoder(stream)`:
/repo/eth_abi/decoding.py:340-341,356-357. -/
def nSteps (fl : Flags) (item : Counted) : Nat → Stream → Nat
  | 0, _ => 0
  | n + 1, st => item.steps fl st + after (item.dec.call fl st) fun (_, st) => nSteps fl item n st

/-- `validate_pointers` and the items of an array: /repo/eth_abi/decoding.py:338-341,354-357. -/
def arraySteps (fl : Flags) (item : Counted) (arraySize : Nat) (st : Stream) : Nat :=
  (if item.dec.isHeadTail then ptrSteps st.pos (st.pos + 32 * arraySize) arraySize st else 0) +
    after (arrayValidatePointers item.dec arraySize st) fun st => nSteps fl item arraySize st

/-- The nesting of the calls for the items: /repo/eth_abi/decoding.py:340-341,356-357. -/
def nDepth (fl : Flags) (item : Counted) : Nat → Stream → Nat
  | 0, _ => 0
  | n + 1, st => max (item.deep fl st) (after (item.dec.call fl st) fun (_, st) => nDepth fl item n st)

/-- The nesting of the calls in `validate_pointers` (one `decode_uint_256` after the other) and for the items:
/repo/eth_abi/decoding.py:309-322,338-341,354-357. -/
def arrayDepth (fl : Flags) (item : Counted) (arraySize : Nat) (st : Stream) : Nat :=
  max (if item.dec.isHeadTail then min 1 arraySize else 0)
    (after (arrayValidatePointers item.dec arraySize st) fun st => nDepth fl item arraySize st)

/-- `SizedArrayDecoder` and `DynamicArrayDecoder`: /repo/eth_abi/decoding.py:326-358. -/
def array (dim : Option Nat) (c : Counted) : PyM Counted := do
  let d ← mkArrayD dim c.dec
  let item := wrapDyn c
  return { dec := d
           steps := fun fl st =>
             match dim with
             | some k => 1 + arraySteps fl item k st
             | none =>
               2 + after (decodeUint256 st) fun (k, st) => after (st.pushFrame 32) fun st =>
                 arraySteps fl item k st
           deep := fun fl st =>
             match dim with
             | some k => 1 + arrayDepth fl item k st
             | none =>
               1 + max 1 (after (decodeUint256 st) fun (k, st) => after (st.pushFrame 32) fun st =>
                 arrayDepth fl item k st) }

end Counted

/-- A decoder class whose objects make a fixed number of calls.
/repo/eth_abi/decoding.py:133-134,251-259,632-637. -/
def countedOf (n : Nat) (d : PyM Decoder) : PyM Counted := do
  let d ← d
  return .const n d

/-- The classes registered as decoders in `registry`, with counts: /repo/eth_abi/registry.py:504-575.
`bytes` and `string` read their length with `decode_uint_256`. -/
def countedDecoders [Ext] : List (Reg Counted) :=
  [ .cls (basicPlan t!"uint" (intPlan fun n => countedOf 1 (mkUIntD n))),
    .cls (basicPlan t!"int" (intPlan fun n => countedOf 1 (mkSIntD n))),
    .cls (basicPlan t!"address" fun _ => .ok (.const 1 addressDecoder)),
    .cls (basicPlan t!"bool" fun _ => .ok (.const 1 boolDecoder)),
    .cls (basicPlan t!"ufixed" (fixedPlan fun m n => countedOf 1 (mkUFixedD m n))),
    .cls (basicPlan t!"fixed" (fixedPlan fun m n => countedOf 1 (mkSFixedD m n))),
    .cls (basicPlan t!"bytes" (intPlan fun n => countedOf 1 (mkBytesMD (n * 8)))),
    .cls (basicPlan t!"bytes" fun _ => .ok (.const 2 (byteStringDecoder (.own true)))),
    .cls (basicPlan t!"bytes" (intPlan fun n => countedOf 1 (mkBytesMD (n * 8)))),
    .cls (basicPlan t!"string" fun _ => .ok (.const 2 (stringDecoder (.own true)))),
    .cls (arrayPlan Counted.array),
    .cls (tuplePlan Counted.tuple) ]

/-- `decoder.strict = strict`: /repo/eth_abi/registry.py:477-481. -/
def Counted.setStrict (c : Counted) (strict : Bool) : Counted := { c with dec := c.dec.setStrict strict }

/-- `get_decoder` as `getDecoderFuel` models it, on the decoders with counts:
/repo/eth_abi/registry.py:474-483. -/
def getCountedFuel [Ext] (m : Mapping (Reg Counted)) : Nat → TypeStr → Bool → PyM Counted
  | 0, _, _ => .error .recursionError
  | fuel + 1, s, strict =>
    match m.getRegistration s with
    | .ok (.cls plan) => do
      let d ← (plan s).exec (fun s' => getCountedFuel m fuel s' true)
      return d.setStrict strict
    | .ok (.obj d) => .ok (d.setStrict strict)
    | .error e => .error e

/-- The number of decoder calls that `decode(types, data, strict)` makes:
/repo/eth_abi/codec.py:130-163. -/
def decodeSteps [Ext] (types : List TypeStr) (data : Bytes) (strict : Bool := true) : Nat :=
  Counted.after (mapPyM (fun s => getCountedFuel (mappingOf 0 defaultPreds countedDecoders) (s.length + 1) s strict)
    types) fun cs => (Counted.tuple cs).steps (fun _ => true) (Stream.init data)

/-- The largest number of decoder calls on the stack at one time in `decode(types, data, strict)`:
/repo/eth_abi/codec.py:130-163. -/
def decodeDepth [Ext] (types : List TypeStr) (data : Bytes) (strict : Bool := true) : Nat :=
  Counted.after (mapPyM (fun s => getCountedFuel (mappingOf 0 defaultPreds countedDecoders) (s.length + 1) s strict)
    types) fun cs => (Counted.tuple cs).deep (fun _ => true) (Stream.init data)

end EthAbi
