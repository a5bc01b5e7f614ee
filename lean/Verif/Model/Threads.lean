import Verif.Model.World

/-!
# Threads that share codecs and registries, step by step

`Model/World.lean` runs one call after the other.  Here any number of threads make such calls on the
same heap, and a schedule says whose turn it is.  A call is a program of steps; between two steps any
other thread may run.  A step is one access to a dict or to a cache table: one `next` of the iterator
over the registrations in `PredicateMapping.find`, one membership test, one insertion, one deletion,
one read or write of a cache (`functools.cache` is implemented in C), one assignment to `strict`.

Simplifications: a matcher is called in the same step as the `next` that gives it (matchers do not
change registries), the search for a label in `remove_by_equality` is one step with its deletion, and
a coder that has been looked up runs in one step.
-/
namespace EthAbi.Thr

/-- The heap.  `stamps a` counts the changes to the dict at address `a`; `odd i` is where an iterator
at position `i` goes on in a dict that was changed but has as many entries as at its beginning (it
depends on the tables of CPython's dicts; every theorem holds for all `odd`).
/repo/eth_abi/registry.py:58-61,343-347 (the state). -/
structure Heap where
  world : World
  stamps : Nat → Nat
  odd : Nat → Option Nat

/-- The rest of a call: it has its outcome, or makes a step `f` and goes on with what it saw.  No code of its
own: the calls are those of /repo/eth_abi/registry.py:51-158,280-500. -/
inductive Prog (R : Type) where
  | ret (r : R)
  | act (f : Heap → Heap) (next : Heap → Prog R)

namespace Prog

/-- One program after the other.  No code of its own: the calls are those of
/repo/eth_abi/registry.py:51-158,280-500. -/
def bind {R S : Type} : Prog R → (R → Prog S) → Prog S
  | .ret r, k => k r
  | .act f next, k => .act f fun h => (next h).bind k

/-- A step that only reads.  No code of its own: the calls are those of /repo/eth_abi/registry.py:51-158,280-500. -/
def read {R : Type} (next : Heap → Prog R) : Prog R := .act id next

/-- A step that only writes.  No code of its own: the calls are those of
/repo/eth_abi/registry.py:51-158,280-500. -/
def write {R : Type} (f : Heap → Heap) (next : Prog R) : Prog R := .act f fun _ => next

/-- Go on unless an exception was raised.  No code of its own: the calls are those of
/repo/eth_abi/registry.py:51-158,280-500. -/
def andThen {α β : Type} (p : Prog (PyM α)) (k : α → Prog (PyM β)) : Prog (PyM β) :=
  p.bind fun
    | .ok a => k a
    | .error x => .ret (.error x)

end Prog

/-! ## The dicts of a registry -/

/-- The dicts `_values` and `_labeled_predicates` of a `PredicateMapping`
(/repo/eth_abi/registry.py:58-61) in the heap. -/
structure Cells (V : Type) where
  addr : Nat
  vals : Heap → List (Pred × V)
  setVals : List (Pred × V) → Heap → Heap
  labels : Heap → List (List Char × Pred)
  setLabels : List (List Char × Pred) → Heap → Heap

/-- One more change to the dict at address `a`.  No code of its own: the calls are those of
/repo/eth_abi/registry.py:51-158,280-500. -/
def bump (h : Heap) (a : Nat) : Nat → Nat := setCell h.stamps a (h.stamps a + 1)

/-- `self._encoders`: /repo/eth_abi/registry.py:344. -/
def encCells (o : RegObj) : Cells (Reg Encoder) where
  addr := o.encoders.values
  vals h := h.world.encVals o.encoders.values
  setVals vs h := { h with world := { h.world with encVals := setCell h.world.encVals o.encoders.values vs }
                           stamps := bump h o.encoders.values }
  labels h := h.world.labels o.encoders.labels
  setLabels ls h := { h with world := { h.world with labels := setCell h.world.labels o.encoders.labels ls } }

/-- `self._decoders`: /repo/eth_abi/registry.py:345. -/
def decCells (o : RegObj) : Cells (Reg Decoder) where
  addr := o.decoders.values
  vals h := h.world.decVals o.decoders.values
  setVals vs h := { h with world := { h.world with decVals := setCell h.world.decVals o.decoders.values vs }
                           stamps := bump h o.decoders.values }
  labels h := h.world.labels o.decoders.labels
  setLabels ls h := { h with world := { h.world with labels := setCell h.world.labels o.decoders.labels ls } }

/-- `next` of an iterator over a dict with entries `vals` that was created when the dict had `size`
entries, at position `i`.  An iterator does not go on in a dict whose size has changed.  Used in
/repo/eth_abi/registry.py:81-85,125. -/
def nextItem {V : Type} (h : Heap) (addr : Nat) (vals : List V) (stamp size i : Nat) : PyM (Option V) :=
  if h.stamps addr = stamp then .ok vals[i]?
  else if vals.length ≠ size then .error .runtimeError
  else .ok ((h.odd i).bind fun j => vals[j]?)

/-- The generator in `find`, with the number of entries that are left and the matches so far:
/repo/eth_abi/registry.py:81-85.  An iterator that has given `size` entries gives no more. -/
def resultsProg [Ext] {V : Type} (c : Cells V) (s : TypeStr) (stamp size : Nat) :
    Nat → List (Pred × V) → Prog (PyM (List (Pred × V)))
  | 0, acc => .read fun h =>
    match nextItem h c.addr (c.vals h) stamp size size with
    | .error x => .ret (.error x)
    | .ok none => .ret (.ok acc)
    | .ok (some _) => .ret (.error .runtimeError)
  | left + 1, acc => .read fun h =>
    match nextItem h c.addr (c.vals h) stamp size (size - (left + 1)) with
    | .error x => .ret (.error x)
    | .ok none => .ret (.ok acc)
    | .ok (some q) =>
      match q.1.matches s with
      | .error x => .ret (.error x)
      | .ok true => resultsProg c s stamp size left (acc ++ [q])
      | .ok false => resultsProg c s stamp size left acc

/-- What `find` and `_get_registration` make of the matches: /repo/eth_abi/registry.py:87-105,328-339
(as `Mapping.find` and `Mapping.getRegistration`). -/
def registrationOf [Ext] {V : Type} (s : TypeStr) (results : PyM (List (Pred × V))) : PyM V :=
  let found : PyM V := do
    match ← results with
    | [] => throw .noEntriesFound
    | [q] => return q.2
    | _ => throw .multipleEntriesFound
  match found with
  | .error .noEntriesFound => do
    let _ ← parse s
    throw .noEntriesFound
  | .error .multipleEntriesFound => do
    if isInfix t!"No matching" s then
      let _ ← parse s
    throw .multipleEntriesFound
  | r => r

/-- `find` and `_get_registration`: /repo/eth_abi/registry.py:80-105,328-339. -/
def findProg [Ext] {V : Type} (c : Cells V) (s : TypeStr) : Prog (PyM V) :=
  .read fun h =>
    (resultsProg c s (h.stamps c.addr) (c.vals h).length (c.vals h).length []).bind fun rs =>
      .ret (registrationOf s rs)

/-! ## Lookups -/

/-- Nested lookups of a `from_type_str`, in their order.  For /repo/eth_abi/base.py:140-146. -/
def planProg {C : Type} (look : TypeStr → Prog (PyM C)) : Plan C → Prog (PyM C)
  | .ret r => .ret r
  | .ask s k => (look s).andThen fun c => planProg look (k c)

/-- Store an encoder in the cache: /repo/eth_abi/registry.py:346. -/
def putEncoder (o : RegObj) (s : TypeStr) (e : Encoder) (h : Heap) : Heap :=
  { h with world := { h.world with
      encCaches := setCell h.world.encCaches o.encCache ((s, e) :: h.world.encCaches o.encCache) } }

/-- `get_encoder(type_str)`: /repo/eth_abi/registry.py:346,349-355,455-456. -/
def encoderProg [Ext] (o : RegObj) : Nat → TypeStr → Prog (PyM Encoder)
  | 0, _ => .ret (.error .recursionError)
  | fuel + 1, s => .read fun h =>
    match (h.world.encCaches o.encCache).lookup s with
    | some e => .ret (.ok e)
    | none => (findProg (encCells o) s).andThen fun
      | .cls plan => (planProg (encoderProg o fuel) (plan s)).andThen fun e =>
          .write (putEncoder o s e) (.ret (.ok e))
      | .obj e => .write (putEncoder o s e) (.ret (.ok e))

/-- Store a decoder in the cache: /repo/eth_abi/registry.py:347. -/
def putDecoder (o : RegObj) (s : TypeStr) (a : StrictArg) (d : Decoder) (h : Heap) : Heap :=
  { h with world := { h.world with
      decCaches := setCell h.world.decCaches o.decCache (((s, a), d) :: h.world.decCaches o.decCache) } }

/-- `decoder.strict = strict` on a registered object: /repo/eth_abi/registry.py:477-481. -/
def assignStrict (d : Decoder) (strict : Bool) (h : Heap) : Heap :=
  { h with world := { h.world with flags := writeStrict d strict h.world.flags } }

/-- `get_decoder(type_str, strict)`: /repo/eth_abi/registry.py:347,349-355,474-483. -/
def decoderProg [Ext] (o : RegObj) : Nat → TypeStr → StrictArg → Prog (PyM Decoder)
  | 0, _, _ => .ret (.error .recursionError)
  | fuel + 1, s, a => .read fun h =>
    match (h.world.decCaches o.decCache).lookup (s, a) with
    | some d => .ret (.ok d)
    | none => (findProg (decCells o) s).andThen fun
      | .cls plan => (planProg (fun s' => decoderProg o fuel s' .absent) (plan s)).andThen fun d =>
          .write (assignStrict d a.value) (.write (putDecoder o s a (d.setStrict a.value))
            (.ret (.ok (d.setStrict a.value))))
      | .obj d => .write (assignStrict d a.value) (.write (putDecoder o s a (d.setStrict a.value))
          (.ret (.ok (d.setStrict a.value))))

/-- A method of registry object number `r`.  No code of its own: the calls are those of
/repo/eth_abi/registry.py:51-158,280-500. -/
def onReg {α : Type} (r : Nat) (f : RegObj → Prog (PyM α)) : Prog (PyM α) :=
  .read fun h =>
    match h.world.regs[r]? with
    | none => .ret (.error .attributeError)
    | some o => f o

/-- `[f(x) for x in xs]`.  Used in /repo/eth_abi/codec.py:72,157. -/
def mapProg {α β : Type} (f : α → Prog (PyM β)) : List α → Prog (PyM (List β))
  | [] => .ret (.ok [])
  | x :: xs => (f x).andThen fun y => (mapProg f xs).andThen fun ys => .ret (.ok (y :: ys))

/-- `get_encoder`: /repo/eth_abi/registry.py:346. -/
def getEncoder [Ext] (fuel r : Nat) (s : TypeStr) : Prog (PyM Encoder) :=
  onReg r fun o => encoderProg o fuel s

/-- `get_decoder`: /repo/eth_abi/registry.py:347. -/
def getDecoder [Ext] (fuel r : Nat) (s : TypeStr) (a : StrictArg) : Prog (PyM Decoder) :=
  onReg r fun o => decoderProg o fuel s a

/-- `has_encoder`: /repo/eth_abi/registry.py:458-472. -/
def hasEncoder [Ext] (fuel r : Nat) (s : TypeStr) : Prog (PyM Bool) :=
  (getEncoder fuel r s).bind fun
    | .ok _ => .ret (.ok true)
    | .error .multipleEntriesFound => .ret (.error .multipleEntriesFound)
    | .error _ => .ret (.ok false)

/-- `ABIEncoder.encode`: /repo/eth_abi/codec.py:55-76. -/
def encode [Ext] (fuel r : Nat) (types : List TypeStr) (args : PyVal) : Prog (PyM Bytes) :=
  match validateListLikeParam args with
  | .error x => .ret (.error x)
  | .ok _ => (mapProg (getEncoder fuel r) types).andThen fun encoders =>
      .ret ((mkTuple encoders).call args)

/-- `ABIEncoder.is_encodable`: /repo/eth_abi/codec.py:78-106. -/
def isEncodable [Ext] (fuel r : Nat) (typ : TypeStr) (arg : PyVal) : Prog (PyM Bool) :=
  (hasEncoder fuel r typ).andThen fun
    | false => .ret (.ok false)
    | true => (getEncoder fuel r typ).andThen fun encoder => .ret (World.encodableWith encoder arg)

/-- `ABIDecoder.decode`: /repo/eth_abi/codec.py:130-163. -/
def decode [Ext] (fuel r : Nat) (types : List TypeStr) (data : PyVal) (strict : Bool) :
    Prog (PyM PyVal) :=
  match validateBytesParam data with
  | .error x => .ret (.error x)
  | .ok b => (mapProg (fun s => getDecoder fuel r s (.kw strict)) types).andThen fun decoders =>
      .read fun h => .ret (do
        let (v, _) ← (mkTupleD decoders).call h.world.flags (Stream.init b)
        return v)

/-! ## Changes -/

/-- `d[p] = v` on `_values`: an equal key stays and gets the new value.  /repo/eth_abi/registry.py:78. -/
def setVal {V : Type} (p : Pred) (v : V) : List (Pred × V) → List (Pred × V)
  | [] => [(p, v)]
  | q :: qs => if q.1.pyEq p then (q.1, v) :: qs else q :: setVal p v qs

/-- `d[l] = p` on `_labeled_predicates`.  /repo/eth_abi/registry.py:76. -/
def setLabel (l : List Char) (p : Pred) : List (List Char × Pred) → List (List Char × Pred)
  | [] => [(l, p)]
  | q :: qs => if q.1 == l then (l, p) :: qs else q :: setLabel l p qs

/-- `PredicateMapping.add`: /repo/eth_abi/registry.py:63-78. -/
def addProg {V : Type} (c : Cells V) (p : Pred) (v : V) (label : Option (List Char)) :
    Prog (PyM Unit) :=
  .read fun h =>
    if (c.vals h).any fun q => q.1.pyEq p then .ret (.error .valueError)
    else
      match label with
      | some l => .read fun h =>
        if (c.labels h).any fun q => q.1 == l then .ret (.error .valueError)
        else
          .write (fun h => c.setLabels (setLabel l p (c.labels h)) h) <|
            .write (fun h => c.setVals (setVal p v (c.vals h)) h) (.ret (.ok ()))
      | none => .write (fun h => c.setVals (setVal p v (c.vals h)) h) (.ret (.ok ()))

/-- `del self._values[predicate]`.  /repo/eth_abi/registry.py:109-112. -/
def delVal {V : Type} (c : Cells V) (p : Pred) (next : Prog (PyM Unit)) : Prog (PyM Unit) :=
  .act
    (fun h =>
      match Mapping.delPred p (c.vals h) with
      | none => h
      | some vs => c.setVals vs h)
    fun h =>
      match Mapping.delPred p (c.vals h) with
      | none => .ret (.error .keyError)
      | some _ => next

/-- `remove_by_equality`: /repo/eth_abi/registry.py:107-120. -/
def removeByEquality {V : Type} (c : Cells V) (p : Pred) : Prog (PyM Unit) :=
  delVal c p (.write (fun h => c.setLabels (Mapping.delLabelOf p (c.labels h)) h) (.ret (.ok ())))

/-- `remove_by_label`: /repo/eth_abi/registry.py:133-140. -/
def removeByLabel {V : Type} (c : Cells V) (l : List Char) : Prog (PyM Unit) :=
  .read fun h =>
    match (c.labels h).lookup l with
    | none => .ret (.error .keyError)
    | some p =>
      .act (fun h => c.setLabels ((c.labels h).filter fun q => q.1 != l) h) fun h =>
        if (c.labels h).any fun q => q.1 == l then delVal c p (.ret (.ok ()))
        else .ret (.error .keyError)

/-- `_register`: /repo/eth_abi/registry.py:299-311. -/
def registerProg {V : Type} (c : Cells V) (lookup : LookupArg) (v : V) (label : Option (List Char)) :
    Prog (PyM Unit) :=
  match lookup with
  | .pred p => addProg c p v label
  | .str s i => addProg c ⟨i, .equals s⟩ v (some s)
  | .other => .ret (.error .typeError)

/-- `_unregister`: /repo/eth_abi/registry.py:313-326. -/
def unregisterProg {V : Type} (c : Cells V) (lookupOrLabel : LookupArg) : Prog (PyM Unit) :=
  match lookupOrLabel with
  | .pred p => removeByEquality c p
  | .str s _ => removeByLabel c s
  | .other => .ret (.error .typeError)

/-- `self.get_encoder.cache_clear()`: /repo/eth_abi/registry.py:283. -/
def clearEnc (o : RegObj) (h : Heap) : Heap := { h with world := h.world.clearEnc o }

/-- `self.get_decoder.cache_clear()`: /repo/eth_abi/registry.py:292. -/
def clearDec (o : RegObj) (h : Heap) : Heap := { h with world := h.world.clearDec o }

/-- `register_encoder`: /repo/eth_abi/registry.py:357-367. -/
def registerEncoder (r : Nat) (l : LookupArg) (e : Reg Encoder) (label : Option (List Char)) :
    Prog (PyM Unit) :=
  onReg r fun o => .write (clearEnc o) (registerProg (encCells o) l e label)

/-- `unregister_encoder`: /repo/eth_abi/registry.py:369-378. -/
def unregisterEncoder (r : Nat) (l : LookupArg) : Prog (PyM Unit) :=
  onReg r fun o => .write (clearEnc o) (unregisterProg (encCells o) l)

/-- `register_decoder`: /repo/eth_abi/registry.py:380-390. -/
def registerDecoder (r : Nat) (l : LookupArg) (d : Reg Decoder) (label : Option (List Char)) :
    Prog (PyM Unit) :=
  onReg r fun o => .write (clearDec o) (registerProg (decCells o) l d label)

/-- `unregister_decoder`: /repo/eth_abi/registry.py:392-401. -/
def unregisterDecoder (r : Nat) (l : LookupArg) : Prog (PyM Unit) :=
  onReg r fun o => .write (clearDec o) (unregisterProg (decCells o) l)

/-- `register`: /repo/eth_abi/registry.py:403-445. -/
def register (r : Nat) (l : LookupArg) (e : Reg Encoder) (d : Reg Decoder)
    (label : Option (List Char)) : Prog (PyM Unit) :=
  (registerEncoder r l e label).andThen fun _ => registerDecoder r l d label

/-- `unregister`: /repo/eth_abi/registry.py:447-453. -/
def unregister (r : Nat) (l : LookupArg) : Prog (PyM Unit) :=
  (unregisterEncoder r l).andThen fun _ => unregisterDecoder r l

/-- `ABIRegistry()`: /repo/eth_abi/registry.py:343-347.  No other thread has the new object. -/
def new : Prog (PyM Unit) := .write (fun h => { h with world := h.world.new }) (.ret (.ok ()))

/-- `copy`: /repo/eth_abi/registry.py:485-499,153-159: a new registry, whose dicts are then replaced
by copies of the four dicts, one after the other. -/
def copy (r : Nat) : Prog (PyM Unit) :=
  .read fun h =>
    match h.world.regs[r]? with
    | none => .ret (.ok ())
    | some o =>
      .act (fun h => { h with world := h.world.new }) fun h =>
        let a := h.world.next
        .write (fun h => { h with world := { h.world with
            encVals := setCell h.world.encVals a (h.world.encVals o.encoders.values) } }) <|
        .write (fun h => { h with world := { h.world with
            labels := setCell h.world.labels (a + 1) (h.world.labels o.encoders.labels) } }) <|
        .write (fun h => { h with world := { h.world with
            decVals := setCell h.world.decVals (a + 2) (h.world.decVals o.decoders.values) } }) <|
        .write (fun h => { h with world := { h.world with
            labels := setCell h.world.labels (a + 3) (h.world.labels o.decoders.labels) } }) <|
        .ret (.ok ())

/-! ## Calls, threads and schedules -/

/-- What a call returned or raised.  No code of its own: the calls are those of
/repo/eth_abi/registry.py:51-158,280-500. -/
inductive Res where
  | unit (r : PyM Unit)
  | encoder (r : PyM Encoder)
  | decoder (r : PyM Decoder)
  | bool (r : PyM Bool)
  | bytes (r : PyM Bytes)
  | value (r : PyM PyVal)

/-- The outcome of a program as a `Res`.  No code of its own: the calls are those of
/repo/eth_abi/registry.py:51-158,280-500. -/
def Prog.as {α : Type} (f : PyM α → Res) (p : Prog (PyM α)) : Prog Res := p.bind fun r => .ret (f r)

/-- The program of a call.  No code of its own: the calls are those of /repo/eth_abi/registry.py:51-158,280-500. -/
def program [Ext] (fuel : Nat) : Op → Prog Res
  | .new => new.as .unit
  | .copy r => (copy r).as .unit
  | .registerEncoder r l e label => (registerEncoder r l e label).as .unit
  | .unregisterEncoder r l => (unregisterEncoder r l).as .unit
  | .registerDecoder r l d label => (registerDecoder r l d label).as .unit
  | .unregisterDecoder r l => (unregisterDecoder r l).as .unit
  | .register r l e d label => (register r l e d label).as .unit
  | .unregister r l => (unregister r l).as .unit
  | .getEncoder r s => (getEncoder fuel r s).as .encoder
  | .getDecoder r s a => (getDecoder fuel r s a).as .decoder
  | .hasEncoder r s => (hasEncoder fuel r s).as .bool
  | .encode r types args => (encode fuel r types args).as .bytes
  | .isEncodable r s v => (isEncodable fuel r s v).as .bool
  | .decode r types data strict => (decode fuel r types data strict).as .value

/-- A thread: the calls it will make, the call it is in, if any, and what it got so far, newest
first.  No code of its own: the calls are those of /repo/eth_abi/registry.py:51-158,280-500. -/
structure Thread where
  todo : List (Nat × Op)
  now : Option ((Nat × Op) × Prog Res)
  log : List ((Nat × Op) × Res)

/-- The heap and its threads.  No code of its own: the calls are those of
/repo/eth_abi/registry.py:51-158,280-500. -/
structure System where
  heap : Heap
  threads : List Thread

/-- One step of a thread: it begins the next call, makes a step of its call, or returns from it.  No code of its
own: the calls are those of /repo/eth_abi/registry.py:51-158,280-500. -/
def Thread.step [Ext] (h : Heap) (t : Thread) : Heap × Thread :=
  match t.now with
  | none =>
    match t.todo with
    | [] => (h, t)
    | c :: rest => (h, { t with todo := rest, now := some (c, program c.1 c.2) })
  | some (c, .ret r) => (h, { t with now := none, log := (c, r) :: t.log })
  | some (c, .act f next) => (f h, { t with now := some (c, next h) })

/-- Thread `i` makes a step.  No code of its own: the calls are those of
/repo/eth_abi/registry.py:51-158,280-500. -/
def System.step [Ext] (c : System) (i : Nat) : System :=
  match c.threads[i]? with
  | none => c
  | some t => ⟨(t.step c.heap).1, c.threads.set i (t.step c.heap).2⟩

/-- The threads run as the schedule says.  No code of its own: the calls are those of
/repo/eth_abi/registry.py:51-158,280-500. -/
def System.run [Ext] (c : System) : List Nat → System
  | [] => c
  | i :: sched => (c.step i).run sched

end EthAbi.Thr
