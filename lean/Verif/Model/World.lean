import Verif.Model.Codec

/-!
# Registries as mutable objects: `ABIRegistry` with its caches, copies and shared decoder objects

A `World` is the part of Python's heap that `eth_abi/registry.py` reads and writes.  Every dict and
every `functools.cache` table is a cell with an address; a registry object holds addresses.  Two
registries are independent only if they hold different addresses: that is proved, not assumed.

Simplifications: user matchers, user classes and user callables do not themselves change a registry,
and a `from_type_str` class method returns an object of its own (as every class in /repo does) or a
registered one.
-/
namespace EthAbi

/-- How `strict` is passed to `get_decoder`; the three forms are different keys of
`functools.cache` (/repo/eth_abi/registry.py:347). -/
inductive StrictArg where
  | absent
  | pos (b : Bool)
  | kw (b : Bool)
  deriving DecidableEq, Repr

/-- The value of the parameter: /repo/eth_abi/registry.py:474. -/
def StrictArg.value : StrictArg → Bool
  | .absent => true
  | .pos b => b
  | .kw b => b

/-- The table of `functools.cache(self._get_encoder_uncached)`, newest entry first.
/repo/eth_abi/registry.py:346. -/
abbrev EncCache := List (TypeStr × Encoder)

/-- The table of `functools.cache(self._get_decoder_uncached)`, newest entry first.
/repo/eth_abi/registry.py:347. -/
abbrev DecCache := List ((TypeStr × StrictArg) × Decoder)

/-- A `PredicateMapping` object: the addresses of `_values` and `_labeled_predicates`
(/repo/eth_abi/registry.py:58-61). -/
structure MapObj where
  values : Nat
  labels : Nat

/-- An `ABIRegistry` object: its mappings and the addresses of the tables of its two caches
(/repo/eth_abi/registry.py:343-347). -/
structure RegObj where
  encoders : MapObj
  decoders : MapObj
  encCache : Nat
  decCache : Nat

/-- The heap.  `regs` are the registry objects in the order of their creation, `next` is the first
free address, `flags` are the `strict` attributes of the registered decoder objects.  The objects of
/repo/eth_abi/registry.py:58-61,343-347. -/
structure World where
  next : Nat
  encVals : Nat → List (Pred × Reg Encoder)
  decVals : Nat → List (Pred × Reg Decoder)
  labels : Nat → List (List Char × Pred)
  encCaches : Nat → EncCache
  decCaches : Nat → DecCache
  regs : List RegObj
  flags : Flags

/-- Write a cell.  /repo/eth_abi/registry.py:343-347. -/
def setCell {α : Type} (f : Nat → α) (a : Nat) (v : α) : Nat → α := fun i => if i = a then v else f i

/-- The heap before `registry = ABIRegistry()`: /repo/eth_abi/registry.py:502. -/
def World.empty : World where
  next := 0
  encVals _ := []
  decVals _ := []
  labels _ := []
  encCaches _ := []
  decCaches _ := []
  regs := []
  flags _ := true

/-! ## Lookups through the caches -/

/-- Carry out a plan with a lookup function that has a state.  For /repo/eth_abi/base.py:140-146. -/
def Plan.execS {C σ : Type} (look : TypeStr → σ → PyM C × σ) : Plan C → σ → PyM C × σ
  | .ret r, st => (r, st)
  | .ask s k, st =>
    match look s st with
    | (.ok c, st) => (k c).execS look st
    | (.error e, st) => (.error e, st)

/-- `get_encoder(type_str)`: /repo/eth_abi/registry.py:346,349-355,455-456.  On a hit the table
answers; on a miss the function runs and its result (not an exception) is stored.  The fuel is the
depth of nested lookups that the recursion limit leaves. -/
def cachedEncoder [Ext] (m : Mapping (Reg Encoder)) : Nat → TypeStr → EncCache → PyM Encoder × EncCache
  | 0, _, c => (.error .recursionError, c)
  | fuel + 1, s, c =>
    match c.lookup s with
    | some e => (.ok e, c)
    | none =>
      match m.getRegistration s with
      | .ok (.cls plan) =>
        match (plan s).execS (cachedEncoder m fuel) c with
        | (.ok e, c) => (.ok e, (s, e) :: c)
        | (.error x, c) => (.error x, c)
      | .ok (.obj e) => (.ok e, (s, e) :: c)
      | .error x => (.error x, c)

/-- `decoder.strict = strict` on an object that was registered: /repo/eth_abi/registry.py:477-481. -/
def writeStrict (d : Decoder) (strict : Bool) (fl : Flags) : Flags :=
  if d.dyn then
    match d.strict with
    | .own _ => fl
    | .shared i => setCell fl i strict
  else fl

/-- `get_decoder(type_str, strict)`: /repo/eth_abi/registry.py:347,349-355,474-483.  Nested lookups
do not pass `strict` (/repo/eth_abi/decoding.py:233,288). -/
def cachedDecoder [Ext] (m : Mapping (Reg Decoder)) : Nat → TypeStr → StrictArg → DecCache × Flags →
    PyM Decoder × DecCache × Flags
  | 0, _, _, st => (.error .recursionError, st)
  | fuel + 1, s, a, (c, fl) =>
    match c.lookup (s, a) with
    | some d => (.ok d, c, fl)
    | none =>
      match m.getRegistration s with
      | .ok (.cls plan) =>
        match (plan s).execS (fun s' => cachedDecoder m fuel s' .absent) (c, fl) with
        | (.ok d, c, fl) =>
          (.ok (d.setStrict a.value), ((s, a), d.setStrict a.value) :: c, writeStrict d a.value fl)
        | (.error x, st) => (.error x, st)
      | .ok (.obj d) =>
        (.ok (d.setStrict a.value), ((s, a), d.setStrict a.value) :: c, writeStrict d a.value fl)
      | .error x => (.error x, c, fl)

/-- `[f(x) for x in xs]` when `f` may raise and has a state.  /repo/eth_abi/codec.py:72,157. -/
def mapS {α β σ : Type} (f : α → σ → PyM β × σ) : List α → σ → PyM (List β) × σ
  | [], st => (.ok [], st)
  | x :: xs, st =>
    match f x st with
    | (.error e, st) => (.error e, st)
    | (.ok y, st) =>
      match mapS f xs st with
      | (.error e, st) => (.error e, st)
      | (.ok ys, st) => (.ok (y :: ys), st)

/-! ## Methods of a registry object -/

namespace World

/-- The contents of `self._encoders`.  /repo/eth_abi/registry.py:343-347. -/
def encMapping (w : World) (o : RegObj) : Mapping (Reg Encoder) :=
  ⟨w.encVals o.encoders.values, w.labels o.encoders.labels⟩

/-- The contents of `self._decoders`.  /repo/eth_abi/registry.py:343-347. -/
def decMapping (w : World) (o : RegObj) : Mapping (Reg Decoder) :=
  ⟨w.decVals o.decoders.values, w.labels o.decoders.labels⟩

/-- Store the contents of `self._encoders`.  /repo/eth_abi/registry.py:343-347. -/
def setEncMapping (w : World) (o : RegObj) (m : Mapping (Reg Encoder)) : World :=
  { w with encVals := setCell w.encVals o.encoders.values m.values
           labels := setCell w.labels o.encoders.labels m.labels }

/-- Store the contents of `self._decoders`.  /repo/eth_abi/registry.py:343-347. -/
def setDecMapping (w : World) (o : RegObj) (m : Mapping (Reg Decoder)) : World :=
  { w with decVals := setCell w.decVals o.decoders.values m.values
           labels := setCell w.labels o.decoders.labels m.labels }

/-- `self.get_encoder.cache_clear()`: /repo/eth_abi/registry.py:283. -/
def clearEnc (w : World) (o : RegObj) : World :=
  { w with encCaches := setCell w.encCaches o.encCache [] }

/-- `self.get_decoder.cache_clear()`: /repo/eth_abi/registry.py:292. -/
def clearDec (w : World) (o : RegObj) : World :=
  { w with decCaches := setCell w.decCaches o.decCache [] }

/-- A method of registry object number `r`.  (A program cannot name an object that does not exist;
the first case does not occur.)  The methods of /repo/eth_abi/registry.py:280-500. -/
def onReg {α : Type} (w : World) (r : Nat) (f : RegObj → PyM α × World) : PyM α × World :=
  match w.regs[r]? with
  | none => (.error .attributeError, w)
  | some o => f o

/-- `ABIRegistry()`: /repo/eth_abi/registry.py:343-347. -/
def new (w : World) : World :=
  let a := w.next
  { w with
    next := a + 6
    encVals := setCell w.encVals a []
    labels := setCell (setCell w.labels (a + 1) []) (a + 3) []
    decVals := setCell w.decVals (a + 2) []
    encCaches := setCell w.encCaches (a + 4) []
    decCaches := setCell w.decCaches (a + 5) []
    regs := w.regs ++ [⟨⟨a, a + 1⟩, ⟨a + 2, a + 3⟩, a + 4, a + 5⟩] }

/-- `self.copy()`: /repo/eth_abi/registry.py:485-499 with `PredicateMapping.copy` (153-159):
`type(self)()`, and then new mappings with copies of the dicts.  The caches of the new object are
new and empty. -/
def copy (w : World) (r : Nat) : World :=
  match w.regs[r]? with
  | none => w
  | some o =>
    let a := w.next
    { w with
      next := a + 6
      encVals := setCell w.encVals a (w.encVals o.encoders.values)
      labels := setCell (setCell w.labels (a + 1) (w.labels o.encoders.labels))
        (a + 3) (w.labels o.decoders.labels)
      decVals := setCell w.decVals (a + 2) (w.decVals o.decoders.values)
      encCaches := setCell w.encCaches (a + 4) []
      decCaches := setCell w.decCaches (a + 5) []
      regs := w.regs ++ [⟨⟨a, a + 1⟩, ⟨a + 2, a + 3⟩, a + 4, a + 5⟩] }

/-- `register_encoder`: /repo/eth_abi/registry.py:357-367. -/
def registerEncoder (w : World) (r : Nat) (l : LookupArg) (e : Reg Encoder)
    (label : Option (List Char)) : PyM Unit × World :=
  w.onReg r fun o =>
    let w := w.clearEnc o
    let (res, m) := (w.encMapping o).register l e label
    (res, w.setEncMapping o m)

/-- `unregister_encoder`: /repo/eth_abi/registry.py:369-378. -/
def unregisterEncoder (w : World) (r : Nat) (l : LookupArg) : PyM Unit × World :=
  w.onReg r fun o =>
    let w := w.clearEnc o
    let (res, m) := (w.encMapping o).unregister l
    (res, w.setEncMapping o m)

/-- `register_decoder`: /repo/eth_abi/registry.py:380-390. -/
def registerDecoder (w : World) (r : Nat) (l : LookupArg) (d : Reg Decoder)
    (label : Option (List Char)) : PyM Unit × World :=
  w.onReg r fun o =>
    let w := w.clearDec o
    let (res, m) := (w.decMapping o).register l d label
    (res, w.setDecMapping o m)

/-- `unregister_decoder`: /repo/eth_abi/registry.py:392-401. -/
def unregisterDecoder (w : World) (r : Nat) (l : LookupArg) : PyM Unit × World :=
  w.onReg r fun o =>
    let w := w.clearDec o
    let (res, m) := (w.decMapping o).unregister l
    (res, w.setDecMapping o m)

/-- `register`: /repo/eth_abi/registry.py:403-445. -/
def register (w : World) (r : Nat) (l : LookupArg) (e : Reg Encoder) (d : Reg Decoder)
    (label : Option (List Char)) : PyM Unit × World :=
  match w.registerEncoder r l e label with
  | (.ok _, w) => w.registerDecoder r l d label
  | (.error x, w) => (.error x, w)

/-- `unregister`: /repo/eth_abi/registry.py:447-453. -/
def unregister (w : World) (r : Nat) (l : LookupArg) : PyM Unit × World :=
  match w.unregisterEncoder r l with
  | (.ok _, w) => w.unregisterDecoder r l
  | (.error x, w) => (.error x, w)

/-- `get_encoder`: /repo/eth_abi/registry.py:346. -/
def getEncoder [Ext] (fuel : Nat) (w : World) (r : Nat) (s : TypeStr) : PyM Encoder × World :=
  w.onReg r fun o =>
    let (res, c) := cachedEncoder (w.encMapping o) fuel s (w.encCaches o.encCache)
    (res, { w with encCaches := setCell w.encCaches o.encCache c })

/-- `get_decoder`: /repo/eth_abi/registry.py:347. -/
def getDecoder [Ext] (fuel : Nat) (w : World) (r : Nat) (s : TypeStr) (a : StrictArg) :
    PyM Decoder × World :=
  w.onReg r fun o =>
    let (res, c, fl) :=
      cachedDecoder (w.decMapping o) fuel s a (w.decCaches o.decCache, w.flags)
    (res, { w with decCaches := setCell w.decCaches o.decCache c, flags := fl })

/-- `has_encoder`: /repo/eth_abi/registry.py:458-472. -/
def hasEncoder [Ext] (fuel : Nat) (w : World) (r : Nat) (s : TypeStr) : PyM Bool × World :=
  match w.getEncoder fuel r s with
  | (.ok _, w) => (.ok true, w)
  | (.error .multipleEntriesFound, w) => (.error .multipleEntriesFound, w)
  | (.error _, w) => (.ok false, w)

/-! ## Methods of a codec over a registry object -/

/-- `ABIEncoder.encode`: /repo/eth_abi/codec.py:55-76. -/
def encode [Ext] (fuel : Nat) (w : World) (r : Nat) (types : List TypeStr) (args : PyVal) :
    PyM Bytes × World :=
  match validateListLikeParam args with
  | .error x => (.error x, w)
  | .ok _ =>
    match mapS (fun s w => w.getEncoder fuel r s) types w with
    | (.error x, w) => (.error x, w)
    | (.ok encoders, w) => ((mkTuple encoders).call args, w)

/-- What `ABIEncoder.is_encodable` does with the encoder: /repo/eth_abi/codec.py:96-106. -/
def encodableWith (encoder : Encoder) (arg : PyVal) : PyM Bool :=
  match encoder.validateValue arg with
  | .ok _ => .ok true
  | .error .attributeError =>
    match encoder.call arg with
    | .ok _ => .ok true
    | .error e => if e.isEncodingError then .ok false else .error e
  | .error e => if e.isEncodingError then .ok false else .error e

/-- `ABIEncoder.is_encodable`: /repo/eth_abi/codec.py:78-106. -/
def isEncodable [Ext] (fuel : Nat) (w : World) (r : Nat) (typ : TypeStr) (arg : PyVal) :
    PyM Bool × World :=
  match w.hasEncoder fuel r typ with
  | (.error x, w) => (.error x, w)
  | (.ok false, w) => (.ok false, w)
  | (.ok true, w) =>
    match w.getEncoder fuel r typ with
    | (.error x, w) => (.error x, w)
    | (.ok encoder, w) => (encodableWith encoder arg, w)

/-- `ABIDecoder.decode`: /repo/eth_abi/codec.py:130-163.  The decoders read the `strict` attributes
of registered objects when they run, after all lookups. -/
def decode [Ext] (fuel : Nat) (w : World) (r : Nat) (types : List TypeStr) (data : PyVal)
    (strict : Bool) : PyM PyVal × World :=
  match validateBytesParam data with
  | .error x => (.error x, w)
  | .ok b =>
    match mapS (fun s w => w.getDecoder fuel r s (.kw strict)) types w with
    | (.error x, w) => (.error x, w)
    | (.ok decoders, w) =>
      match (mkTupleD decoders).call w.flags (Stream.init b) with
      | .ok (v, _) => (.ok v, w)
      | .error x => (.error x, w)

end World

/-! ## Histories -/

/-- A call on registry number `r`, or the creation of a registry.  The methods of
/repo/eth_abi/registry.py:280-500. -/
inductive Op where
  | new
  | copy (r : Nat)
  | registerEncoder (r : Nat) (l : LookupArg) (e : Reg Encoder) (label : Option (List Char))
  | unregisterEncoder (r : Nat) (l : LookupArg)
  | registerDecoder (r : Nat) (l : LookupArg) (d : Reg Decoder) (label : Option (List Char))
  | unregisterDecoder (r : Nat) (l : LookupArg)
  | register (r : Nat) (l : LookupArg) (e : Reg Encoder) (d : Reg Decoder)
      (label : Option (List Char))
  | unregister (r : Nat) (l : LookupArg)
  | getEncoder (r : Nat) (s : TypeStr)
  | getDecoder (r : Nat) (s : TypeStr) (a : StrictArg)
  | hasEncoder (r : Nat) (s : TypeStr)
  | encode (r : Nat) (types : List TypeStr) (args : PyVal)
  | isEncodable (r : Nat) (s : TypeStr) (v : PyVal)
  | decode (r : Nat) (types : List TypeStr) (data : PyVal) (strict : Bool)

/-- The effect of a call (which may return or raise) made with `fuel` nested lookups left.  The methods of
/repo/eth_abi/registry.py:280-500. -/
def World.step [Ext] (w : World) (fuel : Nat) : Op → World
  | .new => w.new
  | .copy r => w.copy r
  | .registerEncoder r l e label => (w.registerEncoder r l e label).2
  | .unregisterEncoder r l => (w.unregisterEncoder r l).2
  | .registerDecoder r l d label => (w.registerDecoder r l d label).2
  | .unregisterDecoder r l => (w.unregisterDecoder r l).2
  | .register r l e d label => (w.register r l e d label).2
  | .unregister r l => (w.unregister r l).2
  | .getEncoder r s => (w.getEncoder fuel r s).2
  | .getDecoder r s a => (w.getDecoder fuel r s a).2
  | .hasEncoder r s => (w.hasEncoder fuel r s).2
  | .encode r types args => (w.encode fuel r types args).2
  | .isEncodable r s v => (w.isEncodable fuel r s v).2
  | .decode r types data strict => (w.decode fuel r types data strict).2

/-- A history: calls with the fuel of each.  The methods of /repo/eth_abi/registry.py:280-500. -/
abbrev History := List (Nat × Op)

/-- The heap after a history.  The methods of /repo/eth_abi/registry.py:280-500. -/
def World.run [Ext] (w : World) : History → World
  | [] => w
  | (fuel, op) :: h => (w.step fuel op).run h

/-! ## The heap after `import eth_abi` -/

/-- The calls `registry.register(...)`: /repo/eth_abi/registry.py:504-575; matcher object number `i`
has identity `i`. -/
def registerCalls (r : Nat) : Nat → List (List Char × PredKind) → List (Reg Encoder) →
    List (Reg Decoder) → List Op
  | i, (l, k) :: ps, e :: es, d :: ds =>
    .register r (.pred ⟨i, k⟩) e d (some l) :: registerCalls r (i + 1) ps es ds
  | _, _, _, _ => []

/-- The calls `registry_packed.register_encoder(...)`: /repo/eth_abi/registry.py:579-638. -/
def registerEncoderCalls (r : Nat) : Nat → List (List Char × PredKind) → List (Reg Encoder) → List Op
  | i, (l, k) :: ps, e :: es =>
    .registerEncoder r (.pred ⟨i, k⟩) e (some l) :: registerEncoderCalls r (i + 1) ps es
  | _, _, _ => []

/-- What the module body of registry.py does: /repo/eth_abi/registry.py:502-638. -/
def importCalls [Ext] : List Op :=
  .new :: registerCalls 0 0 defaultPreds defaultEncoders defaultDecoders ++
    .new :: registerEncoderCalls 1 100 defaultPreds packedEncoders

/-- The heap after `import eth_abi`: object 0 is `registry`, object 1 is `registry_packed`.
/repo/eth_abi/registry.py:502-638. -/
def World.imported [Ext] : World := World.empty.run (importCalls.map fun op => (0, op))

end EthAbi
