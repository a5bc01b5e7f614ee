import Verif.Model.World

/-!
# Threads that share one registry object

One side of a registry (its encoders or its decoders) is used by any number of threads.  Each thread
makes a list of calls; a schedule says whose turn it is.  A call is carried out in steps between which
other threads may run: a lookup consults the cache table, reads the registrations, makes its nested
lookups and stores its result; a change clears the cache table and then changes the registrations
(/repo/eth_abi/registry.py:280-295,346-355).

Simplifications: one read of the registrations (`PredicateMapping.find`, /repo/eth_abi/registry.py:80-105) and one change
(`add`, `remove`, the same file:63-78,107-151) is one step, as if the interpreter did not switch threads within
it.  Accesses to the cache table are single steps in CPython, which implements `functools.cache` in C.
-/
namespace EthAbi.Conc

/-- The two sides of a registry differ in the key of the cache and in what is done with a coder
before it is stored.  /repo/eth_abi/registry.py:455-456,474-483. -/
structure Side (K C : Type) where
  /-- The type string in a key. -/
  str : K → TypeStr
  /-- The key of the nested lookups. -/
  nested : TypeStr → K
  /-- What is done with the coder before it is returned. -/
  finish : K → C → C
  /-- What this writes to registered objects. -/
  write : K → C → Flags → Flags

/-- `get_encoder`: /repo/eth_abi/registry.py:346,455-456. -/
def encSide : Side TypeStr Encoder where
  str s := s
  nested s := s
  finish _ e := e
  write _ _ fl := fl

/-- `get_decoder`: /repo/eth_abi/registry.py:347,474-483. -/
def decSide : Side (TypeStr × StrictArg) Decoder where
  str k := k.1
  nested s := (s, .absent)
  finish k d := d.setStrict k.2.value
  write k d fl := writeStrict d k.2.value fl

/-- What the threads share.  /repo/eth_abi/registry.py:343-347 (the state of a registry). -/
structure Shared (K C : Type) where
  regs : Mapping (Reg C)
  cache : List (K × C)
  flags : Flags

/-- The rest of a lookup: it has its result, or makes a step and goes on with the answer.
/repo/eth_abi/registry.py:346-347,455-456,474-483 in steps. -/
inductive Prog (K C : Type) where
  | ret (r : PyM C)
  | cacheGet (k : K) (next : Option C → Prog K C)
  | find (s : TypeStr) (next : PyM (Reg C) → Prog K C)
  | setStrict (f : Flags → Flags) (next : Prog K C)
  | cachePut (k : K) (c : C) (next : Prog K C)

/-- Nested lookups of a `from_type_str`, in their order.  /repo/eth_abi/registry.py:346-347,455-456,474-483 in
steps. -/
def planProg {K C : Type} (look : TypeStr → (PyM C → Prog K C) → Prog K C) :
    Plan C → (PyM C → Prog K C) → Prog K C
  | .ret r, next => next r
  | .ask s k, next => look s fun
    | .ok c => planProg look (k c) next
    | .error x => next (.error x)

/-- A lookup and what follows it: /repo/eth_abi/registry.py:346-355,455-456,474-483. -/
def lookProg {K C : Type} (S : Side K C) : Nat → K → (PyM C → Prog K C) → Prog K C
  | 0, _, next => next (.error .recursionError)
  | fuel + 1, k, next => .cacheGet k fun
    | some c => next (.ok c)
    | none => .find (S.str k) fun
      | .ok (.cls plan) => planProg (fun s => lookProg S fuel (S.nested s)) (plan (S.str k)) fun
        | .ok c => .setStrict (S.write k c) (.cachePut k (S.finish k c) (next (.ok (S.finish k c))))
        | .error x => next (.error x)
      | .ok (.obj c) => .setStrict (S.write k c) (.cachePut k (S.finish k c) (next (.ok (S.finish k c))))
      | .error x => next (.error x)

/-- A call of `get_encoder`/`get_decoder`, with the depth of nested lookups that the recursion limit
leaves, of `register_encoder`/`_decoder` or of `unregister_encoder`/`_decoder`.
/repo/eth_abi/registry.py:358-401,455-483. -/
inductive Call (K C : Type) where
  | lookup (fuel : Nat) (k : K)
  | register (l : LookupArg) (v : Reg C) (label : Option (List Char))
  | unregister (l : LookupArg)

/-- How a call changes the registrations: /repo/eth_abi/registry.py:298-326. -/
def Call.change {K C : Type} (m : Mapping (Reg C)) : Call K C → PyM Unit × Mapping (Reg C)
  | .lookup _ _ => (.ok (), m)
  | .register l v label => m.register l v label
  | .unregister l => m.unregister l

/-- What a thread is doing: nothing, a lookup, or a change for which the cache has been cleared.
/repo/eth_abi/registry.py:280-296,455-483. -/
inductive Phase (K C : Type) where
  | idle
  | looking (fuel : Nat) (k : K) (p : Prog K C)
  | cleared (c : Call K C)

/-- What a call returned or raised.  /repo/eth_abi/registry.py:358-401,455-483. -/
inductive Result (K C : Type) where
  | found (fuel : Nat) (k : K) (r : PyM C)
  | changed (r : PyM Unit)

/-- A thread: the calls it will make, what it is doing, and the results so far, newest first.  No code of its
own: the threads call the methods of /repo/eth_abi/registry.py:280-296,358-401,455-483. -/
structure Thread (K C : Type) where
  todo : List (Call K C)
  phase : Phase K C
  log : List (Result K C)

/-- One step of a lookup.  /repo/eth_abi/registry.py:346-347,455-456,474-483 in steps. -/
def Prog.step {K C : Type} [BEq K] [Ext] (sh : Shared K C) : Prog K C → Shared K C × Prog K C
  | .ret r => (sh, .ret r)
  | .cacheGet k next => (sh, next (sh.cache.lookup k))
  | .find s next => (sh, next (sh.regs.getRegistration s))
  | .setStrict f next => ({ sh with flags := f sh.flags }, next)
  | .cachePut k c next => ({ sh with cache := (k, c) :: sh.cache }, next)

/-- One step of a thread.  A change clears the cache first: /repo/eth_abi/registry.py:280-295. -/
def Thread.step {K C : Type} [BEq K] [Ext] (S : Side K C) (sh : Shared K C) (t : Thread K C) :
    Shared K C × Thread K C :=
  match t.phase with
  | .idle =>
    match t.todo with
    | [] => (sh, t)
    | .lookup fuel k :: rest =>
      (sh, { t with todo := rest, phase := .looking fuel k (lookProg S fuel k .ret) })
    | c :: rest => ({ sh with cache := [] }, { t with todo := rest, phase := .cleared c })
  | .looking fuel k (.ret r) => (sh, { t with phase := .idle, log := .found fuel k r :: t.log })
  | .looking fuel k p =>
    let (sh, p) := p.step sh
    (sh, { t with phase := .looking fuel k p })
  | .cleared c =>
    let (res, m) := c.change sh.regs
    ({ sh with regs := m }, { t with phase := .idle, log := .changed res :: t.log })

/-- The registry and its threads.  No code of its own: the threads call the methods of
/repo/eth_abi/registry.py:280-296,358-401,455-483. -/
structure System (K C : Type) where
  shared : Shared K C
  threads : List (Thread K C)

/-- Thread `i` makes a step.  No code of its own: the threads call the methods of
/repo/eth_abi/registry.py:280-296,358-401,455-483. -/
def System.step {K C : Type} [BEq K] [Ext] (S : Side K C) (c : System K C) (i : Nat) :
    System K C :=
  match c.threads[i]? with
  | none => c
  | some t =>
    let (sh, t) := t.step S c.shared
    ⟨sh, c.threads.set i t⟩

/-- The threads run as the schedule says.  No code of its own: the threads call the methods of
/repo/eth_abi/registry.py:280-296,358-401,455-483. -/
def System.run {K C : Type} [BEq K] [Ext] (S : Side K C) (c : System K C) : List Nat → System K C
  | [] => c
  | i :: sched => (c.step S i).run S sched

end EthAbi.Conc
