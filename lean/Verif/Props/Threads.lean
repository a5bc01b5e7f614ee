import Verif.Lemmas.ThreadFinish
import Verif.Lemmas.ThreadAlone
import Verif.Props.Caching
import Verif.Props.Examples

/-!
# C49, C50, C51: threads that share codecs and registries

`System` is a heap of registries with any number of threads, each with any list of calls on any of the
registries; `sched` is any schedule, turn by turn, a turn being one access to a dict or to a cache
(`Model/Threads.lean`).  `Thr.returned c sched` are the calls that return or raise in that time, with
their outcomes.
-/
namespace EthAbi
open Spec Thr Spec.Thr

/-! ## The model agrees with the one in which calls are made one after the other -/

/-- A call that is made alone, on any reachable heap, returns or raises what it does in
`Model/World.lean`, and leaves the same heap. -/
theorem C49_alone [Ext] (h : History) (hp : Heap) (hw : hp.world = World.empty.run h) (fuel : Nat) (op : Op) :
    ((program fuel op).exec hp).1 = outcome hp.world fuel op ∧
    ((program fuel op).exec hp).2.world = hp.world.step fuel op :=
  program_alone fuel op (by rw [hw]; exact (run_ok h inv_empty).1.shape)

/-! ## C49: calls on a registry that nobody changes -/

/-- Threads use registry `r`, and do whatever they like with other registries (also with copies of
`r`).  As long as nobody registers or unregisters anything in `r`, every call on `r` has the outcome
that the registrations of `r` determine, in every schedule. -/
theorem C49_undisturbed [Ext] (h : History) {r : Nat} {g : Registry} (hg : (Plain.run [] h)[r]? = some g)
    (c : System) (hw : c.heap.world = World.empty.run h) (hq : Quiet c) (hl : LeavesAlone r c)
    (sched : List Nat) (call : Nat × Op) (res : Res) (hm : (call, res) ∈ Thr.returned c sched)
    (ht : target call.2 = some r) : Determined g call.1 call.2 res := by
  have hn := noChange_start hq hl
  have hm' : (call, res) ∈ returnedOn r c sched :=
    List.mem_filter.2 ⟨hm, by simpa using ht⟩
  obtain ⟨a, b, hab⟩ := List.append_of_mem hm'
  have := run_always sched g c (always_start hw hg hq)
    (fun pre _ => noChange_exclusive (noChange_run pre hn)) a (call, res) b hab
  rwa [after_noChange (r := r)] at this
  intro x hx
  obtain ⟨y, hy, rfl⟩ := List.mem_map.1 hx
  have hy' : y ∈ returnedOn r c sched := by rw [hab]; exact List.mem_append_left _ hy
  exact ⟨by simpa using (List.mem_filter.1 hy').2, returned_noChange sched hn y (List.mem_filter.1 hy').1⟩

theorem agree_const {α : Type} {f : Nat → PyM α} {fuel : Nat} {x y : PyM α}
    (h : ∀ n, fuel ≤ n → f n = y) (ha : Agree f fuel x) : x = y := by
  by_cases hf : f fuel = .error .recursionError
  · by_cases hx : x = .error .recursionError
    · rw [hx, ← hf]; exact h fuel (Nat.le_refl _)
    · obtain ⟨n, hn⟩ := ha.1 hx
      rw [← hn (max n fuel) (Nat.le_max_left _ _)]
      exact h _ (Nat.le_max_right _ _)
  · rw [ha.2 hf]; exact h fuel (Nat.le_refl _)

theorem import_run [Ext] (h : History) :
    World.imported.run h = World.empty.run ((importCalls.map fun op => (0, op)) ++ h) := by
  have : ∀ (a b : History) (w : World), w.run (a ++ b) = (w.run a).run b := by
    intro a
    induction a with
    | nil => intro b w; rfl
    | cons x a ih => intro b w; exact ih b _
  exact (this _ h World.empty).symm

theorem import_get [Ext] {h : History} {r : Nat} {g : Registry} (hh : Has r g (World.imported.run h)) :
    (Plain.run [] ((importCalls.map fun op => (0, op)) ++ h))[r]? = some g := by
  rw [import_run] at hh
  obtain ⟨h1, h2, h3⟩ := run_ok ((importCalls.map fun op => (0, op)) ++ h) inv_empty
  have h2 : (World.empty.run ((importCalls.map fun op => (0, op)) ++ h)).plain = Plain.run [] _ := h2
  rw [← h2, plain_get hh.2.1, hh.2.2]

/-- The functions `encode`, `decode`, `is_encodable` and `is_encodable_type` of the package, used by
any number of threads after `import eth_abi` and any calls `h` that left the default registry alone:
while no thread registers or unregisters anything in it, every call has the outcome that it has for
a single thread (the functions of all other theorems). -/
theorem C49_default [Ext] (h : History) (hk : Keeps 0 h) (c : System)
    (hw : c.heap.world = World.imported.run h) (hq : Quiet c) (hl : LeavesAlone 0 c) (sched : List Nat)
    (fuel : Nat) (res : Res) :
    (∀ types args, (∀ s ∈ types, s.length < fuel) →
      ((fuel, .encode 0 types args), res) ∈ Thr.returned c sched →
      res = .bytes (EthAbi.encode types args)) ∧
    (∀ types data strict, (∀ s ∈ types, s.length < fuel) →
      ((fuel, .decode 0 types data strict), res) ∈ Thr.returned c sched →
      res = .value (EthAbi.decode types data strict)) ∧
    (∀ s v, s.length < fuel → ((fuel, .isEncodable 0 s v), res) ∈ Thr.returned c sched →
      res = .bool (EthAbi.isEncodable s v)) ∧
    (∀ s, s.length < fuel → ((fuel, .hasEncoder 0 s), res) ∈ Thr.returned c sched →
      res = .bool (EthAbi.isEncodableType s)) := by
  have hg := import_get (default_has hk)
  rw [import_run] at hw
  have key := fun op => C49_undisturbed _ hg c hw hq hl sched (fuel, op) res
  refine ⟨fun types args hf hm => ?_, fun types data strict hf hm => ?_, fun s v hf hm => ?_,
    fun s hf hm => ?_⟩
  · have := key _ hm rfl
    cases res <;> try exact absurd this id
    rename_i x
    have this : Agree (fun n => encodeAt defaultRegistry n types args) fuel x := this
    rw [agree_const (y := EthAbi.encode types args) (fun n hn => ?_) this]
    unfold encodeAt EthAbi.encode Registry.encode
    rw [mapPyM_congr_mem types fun s hs => (encoderFuel_default (Nat.lt_of_lt_of_le (hf s hs) hn)).2]
  · have := key _ hm rfl
    cases res <;> try exact absurd this id
    rename_i x
    have this : Agree (fun n => decodeAt defaultRegistry (fun _ => true) n types data strict) fuel x :=
      this.2 noShared_default _
    rw [agree_const (y := EthAbi.decode types data strict) (fun n hn => ?_) this]
    unfold decodeAt EthAbi.decode Registry.decode Registry.decodeWith
    rw [mapPyM_congr_mem types fun s hs =>
      (decoderFuel_default (Nat.lt_of_lt_of_le (hf s hs) hn) strict).2]
  · have := key _ hm rfl
    cases res <;> try exact absurd this id
    rename_i x
    have this : x = isEncodableAt defaultRegistry fuel s v := this (encoderFuel_default hf).1
    rw [this, isEncodableAt_eq (encoderFuel_default hf).2 v]
    rfl
  · have := key _ hm rfl
    cases res <;> try exact absurd this id
    rename_i x
    have this : x = hasEncoderAt defaultRegistry fuel s := this (encoderFuel_default hf).1
    rw [this, hasEncoderAt_eq (encoderFuel_default hf).2]
    rfl

/-- The same for `encode_packed` and `is_encodable_packed`. -/
theorem C49_packed [Ext] (h : History) (hk : Keeps 1 h) (c : System)
    (hw : c.heap.world = World.imported.run h) (hq : Quiet c) (hl : LeavesAlone 1 c) (sched : List Nat)
    (fuel : Nat) (res : Res) :
    (∀ types args, (∀ s ∈ types, s.length < fuel) →
      ((fuel, .encode 1 types args), res) ∈ Thr.returned c sched →
      res = .bytes (EthAbi.encodePacked types args)) ∧
    (∀ s v, s.length < fuel → ((fuel, .isEncodable 1 s v), res) ∈ Thr.returned c sched →
      res = .bool (EthAbi.isEncodablePacked s v)) := by
  have hg := import_get (packed_has hk)
  rw [import_run] at hw
  have key := fun op => C49_undisturbed _ hg c hw hq hl sched (fuel, op) res
  refine ⟨fun types args hf hm => ?_, fun s v hf hm => ?_⟩
  · have := key _ hm rfl
    cases res <;> try exact absurd this id
    rename_i x
    have this : Agree (fun n => encodeAt packedRegistry n types args) fuel x := this
    rw [agree_const (y := EthAbi.encodePacked types args) (fun n hn => ?_) this]
    unfold encodeAt EthAbi.encodePacked Registry.encode
    rw [mapPyM_congr_mem types fun s hs => (encoderFuel_packed (Nat.lt_of_lt_of_le (hf s hs) hn)).2]
  · have := key _ hm rfl
    cases res <;> try exact absurd this id
    rename_i x
    have this : x = isEncodableAt packedRegistry fuel s v := this (encoderFuel_packed hf).1
    rw [this, isEncodableAt_eq (encoderFuel_packed hf).2 v]
    rfl

/-- A callable for `foo`. -/
def Ex.foo : Reg Encoder := .obj ⟨none, none, fun _ => .ok [1]⟩

/-- The package is imported.  One thread encodes, one asks about `bool[]`, and one makes a copy of
the registry (number 2) and removes `bool` from it. -/
def Ex.three [Ext] : System := ⟨⟨World.imported, fun _ => 0, fun _ => none⟩,
  [⟨[(9, .encode 0 [t!"uint8"] (.list [.int 7]))], none, []⟩,
   ⟨[(9, .isEncodable 0 t!"bool[]" (.list [.bool true]))], none, []⟩,
   ⟨[(9, .copy 0), (9, .unregisterEncoder 2 (.str t!"bool" 0))], none, []⟩]⟩

example : letI := Ex.ext
    Ex.three.heap.world = World.imported.run [] ∧ Quiet Ex.three ∧ LeavesAlone 0 Ex.three := by
  let := Ex.ext
  refine ⟨rfl, ?_, ?_⟩
  · intro t ht
    simp only [Ex.three, List.mem_cons, List.not_mem_nil, or_false] at ht
    rcases ht with rfl | rfl | rfl <;> rfl
  · intro t ht
    simp only [Ex.three, List.mem_cons, List.not_mem_nil, or_false] at ht
    rcases ht with rfl | rfl | rfl <;> decide

/-- Two turns each, until all calls have returned. -/
example : letI := Ex.ext
    (Thr.returned Ex.three ((List.replicate 60 [0, 0, 1, 1, 2, 2]).flatten)).map
      (fun x => match x.2 with
        | .bytes (.ok b) => b.length
        | .bool (.ok true) => 1
        | .bool (.ok false) => 2
        | .unit (.ok _) => 0
        | _ => 99) = [0, 0, 32, 1] := by decide +kernel

/-- A registry with a `ByteStringDecoder()` object for `foo`.  One thread decodes strictly, another
one leniently. -/
def Ex.sharing [Ext] : System := ⟨⟨World.empty.run Ex.object, fun _ => 0, fun _ => none⟩,
  [⟨[(9, .decode 0 [t!"foo"] Ex.dirty true)], none, []⟩,
   ⟨[(9, .decode 0 [t!"foo"] Ex.dirty false)], none, []⟩]⟩

theorem Ex.sharing_start [Ext] : Ex.sharing.heap.world = World.empty.run Ex.object ∧ Quiet Ex.sharing ∧
    LeavesAlone 0 Ex.sharing := by
  refine ⟨by simp only [Ex.sharing], ?_, ?_⟩
  · intro t ht
    simp only [Ex.sharing, List.mem_cons, List.not_mem_nil, or_false] at ht
    rcases ht with rfl | rfl <;> rfl
  · intro t ht
    simp only [Ex.sharing, List.mem_cons, List.not_mem_nil, or_false] at ht
    rcases ht with rfl | rfl <;> simp [changes]

/-- A registered decoder object is the exception.  The registry has such an object, one thread decodes
with it strictly, one with `strict=False`, and nobody changes the registry.  Made one after the other,
in either order, the strict call raises; in this schedule it returns. -/
theorem C49_shared_false : letI := Ex.ext
    ∃ (h : History) (c : System) (types : List TypeStr) (data : PyVal) (sched : List Nat),
      c.heap.world = World.empty.run h ∧ Quiet c ∧ LeavesAlone 0 c ∧
      c.threads.map (·.todo) = [[(9, .decode 0 types data true)], [(9, .decode 0 types data false)]] ∧
      (Thr.returned c sched).any (fun x => match x with
        | ((_, .decode _ _ _ true), .value (.ok _)) => true
        | _ => false) = true ∧
      ((World.empty.run h).decode 9 0 types data true).1 = .error .nonEmptyPaddingBytes ∧
      ((World.empty.run (h ++ [(9, .decode 0 types data false)])).decode 9 0 types data true).1 =
        .error .nonEmptyPaddingBytes := by
  let := Ex.ext
  refine ⟨Ex.object, Ex.sharing, [t!"foo"], Ex.dirty,
    List.replicate 7 0 ++ List.replicate 7 1 ++ List.replicate 30 0, Ex.sharing_start.1,
    Ex.sharing_start.2.1, Ex.sharing_start.2.2, by simp only [Ex.sharing]; rfl, by decide +kernel,
    by decide +kernel, by decide +kernel⟩

/-! ## C50: registrations that are made while others use the registry -/

/-- The package is imported.  One thread calls `is_encodable("bool", True)`, another one registers an
encoder for `foo`. -/
def Ex.race [Ext] : System := ⟨⟨World.imported, fun _ => 0, fun _ => none⟩,
  [⟨[(9, .isEncodable 0 t!"bool" (.bool true))], none, []⟩,
   ⟨[(9, .registerEncoder 0 (.str t!"foo" 0) Ex.foo none)], none, []⟩]⟩

/-- The registration happens while the first thread iterates over the registrations. -/
def Ex.raceSched : List Nat := List.replicate 5 0 ++ List.replicate 8 1 ++ List.replicate 10 0

theorem Ex.race_world [Ext] : Ex.race.heap.world = World.imported := by
  simp only [Ex.race]

theorem Ex.race_quiet [Ext] : Quiet Ex.race := by
  intro t ht
  simp only [Ex.race, List.mem_cons, List.not_mem_nil, or_false] at ht
  rcases ht with rfl | rfl <;> rfl

theorem Ex.pick {l : List ((Nat × Op) × Res)}
    (h1 : l[1]?.map (fun x => match x.2 with
      | .bool (.ok false) => true
      | _ => false) = some true)
    (h2 : l[1]?.map (fun x => match x.1 with
      | (9, .isEncodable 0 ['b', 'o', 'o', 'l'] (.bool true)) => true
      | _ => false) = some true) :
    ((9, .isEncodable 0 t!"bool" (.bool true)), .bool (.ok false)) ∈ l := by
  cases hx : l[1]? with
  | none => rw [hx] at h1; cases h1
  | some x =>
    rw [hx] at h1 h2
    have : x = ((9, .isEncodable 0 t!"bool" (.bool true)), .bool (.ok false)) := by
      obtain ⟨x1, x2⟩ := x
      simp only [Option.map_some, Option.some.injEq] at h1 h2
      split at h1
      · split at h2
        · rfl
        · cases h2
      · cases h1
    rw [← this]
    exact List.mem_of_getElem? hx

theorem Ex.no_bool [Ext] {o : Option Registry} (h : o.all (fun g =>
      (match getEncoderFuel g.encoders 9 t!"bool" with
        | .error .recursionError => false
        | _ => true) &&
      (match isEncodableAt g 9 t!"bool" (.bool true) with
        | .ok true => true
        | _ => false)) = true) {g : Registry} (hg : o = some g) :
    ¬ Determined g 9 (.isEncodable 0 t!"bool" (.bool true)) (.bool (.ok false)) := by
  subst hg
  intro hd
  have hd : getEncoderFuel g.encoders 9 t!"bool" ≠ .error .recursionError →
    .ok false = isEncodableAt g 9 t!"bool" (.bool true) := hd
  simp only [Option.all_some, Bool.and_eq_true] at h
  rw [← hd (fun e => by rw [e] at h; simp at h)] at h
  simp at h

/-- The property is false: with the registry of the package, a call has an outcome that the
registrations determine at no time during the run.  `is_encodable("bool", True)` returns `False`:
the iteration over the registrations raises `RuntimeError`, as a dict must not grow while it is
iterated over, and `has_encoder` takes that for a missing registration. -/
theorem C50_false : letI := Ex.ext
    ¬ ∀ (c : System) (sched : List Nat) (call : Nat × Op) (res : Res),
      c.heap.world = World.imported → Quiet c → (call, res) ∈ Thr.returned c sched →
      target call.2 = some 0 →
      ∃ pre g, pre <+: sched ∧ (c.run pre).heap.world.plain[0]? = some g ∧
        Determined g call.1 call.2 res := by
  let := Ex.ext
  intro hall
  obtain ⟨pre, g, hpre, hg, hd⟩ := hall Ex.race Ex.raceSched (9, .isEncodable 0 t!"bool" (.bool true))
    (.bool (.ok false)) Ex.race_world Ex.race_quiet (Ex.pick (by decide +kernel) (by decide +kernel)) rfl
  have key : ∀ l ∈ Ex.raceSched.inits, ((Ex.race.run l).heap.world.plain[0]?).all (fun g =>
      (match getEncoderFuel g.encoders 9 t!"bool" with
        | .error .recursionError => false
        | _ => true) &&
      (match isEncodableAt g 9 t!"bool" (.bool true) with
        | .ok true => true
        | _ => false)) = true := by decide +kernel
  exact Ex.no_bool (key pre ((List.mem_inits _ _).2 hpre)) hg hd

/-- The same with `encode`. -/
def Ex.raceEncode [Ext] : System := ⟨⟨World.imported, fun _ => 0, fun _ => none⟩,
  [⟨[(9, .encode 0 [t!"bool"] (.list [.bool true]))], none, []⟩,
   ⟨[(9, .registerEncoder 0 (.str t!"foo" 0) Ex.foo none)], none, []⟩]⟩

theorem Ex.raceEncode_start [Ext] : Ex.raceEncode.heap.world = World.imported ∧ Quiet Ex.raceEncode ∧
    Ex.raceEncode.threads.map (·.todo.length) = [1, 1] := by
  refine ⟨by simp only [Ex.raceEncode], ?_, by simp only [Ex.raceEncode]; rfl⟩
  intro t ht
  simp only [Ex.raceEncode, List.mem_cons, List.not_mem_nil, or_false] at ht
  rcases ht with rfl | rfl <;> rfl

/-- `encode` raises `RuntimeError` in the same way. -/
theorem C50_encode_false : letI := Ex.ext
    ∃ c : System, c.heap.world = World.imported ∧ Quiet c ∧ ∃ sched,
      (Thr.returned c sched).map (fun x => match x.2 with
        | .bytes (.error .runtimeError) => true
        | _ => false) = [false, true] ∧
      EthAbi.encode [t!"bool"] (.list [.bool true]) = .ok (List.replicate 31 0 ++ [1]) ∧
      c.threads.map (·.todo.length) = [1, 1] :=
  letI := Ex.ext
  ⟨Ex.raceEncode, Ex.raceEncode_start.1, Ex.raceEncode_start.2.1, Ex.raceSched, by decide +kernel,
    by decide +kernel, Ex.raceEncode_start.2.2⟩

/-- What remains: registrations may be made at any time and by any thread, as long as no *other*
thread is in a call on the same registry meanwhile (say, because of a lock).  Then calls on `r` take
effect one after the other, in the order in which they return: every outcome is the one that the
registrations determine which the calls on `r` before it have left, whatever threads do with other
registries.  (Missing: calls that overlap with a change, for which the property is false.) -/
theorem C50_partial [Ext] (h : History) {r : Nat} {g : Registry} (hg : (Plain.run [] h)[r]? = some g)
    (c : System) (hw : c.heap.world = World.empty.run h) (hq : Quiet c) (sched : List Nat)
    (hex : ∀ pre, pre <+: sched → Exclusive r (c.run pre))
    (a : List ((Nat × Op) × Res)) (call : Nat × Op) (res : Res) (b : List ((Nat × Op) × Res))
    (hab : returnedOn r c sched = a ++ (call, res) :: b) :
    Determined (after g (a.map (·.1))) call.1 call.2 res :=
  run_always sched g c (always_start hw hg hq) hex a (call, res) b hab

/-- A thread registers an encoder for `foo` and a second one then uses it, while a third one is
working on a copy all the time. -/
def Ex.locked [Ext] : System := ⟨⟨World.imported, fun _ => 0, fun _ => none⟩,
  [⟨[(9, .registerEncoder 0 (.str t!"foo" 0) Ex.foo none)], none, []⟩,
   ⟨[(9, .encode 0 [t!"foo"] (.list [.int 7]))], none, []⟩,
   ⟨[(9, .copy 0), (9, .unregisterEncoder 2 (.str t!"bool" 0))], none, []⟩]⟩

def Ex.lockedSched : List Nat :=
  (List.replicate 10 [0, 2]).flatten ++ (List.replicate 40 [1, 2]).flatten

/-- Which registry a thread's call is made on, and which one it changes. -/
def Ex.at (t : Thread) : Option Nat × Option Nat :=
  match t.now with
  | none => (none, none)
  | some (call, _) => (target call.2, changes call.2)

theorem Ex.exclusiveThreads_of {c : System} (h : ∀ i ∈ List.range c.threads.length, ∀ j ∈ List.range c.threads.length,
    i ≠ j → (c.threads[i]?.map Ex.at).all (fun x => x.2 = some 0 →
      (c.threads[j]?.map Ex.at).all fun y => y.1 ≠ some 0)) : Exclusive 0 c := by
  intro i j ti tj ci cj pi pj hi hj hij hni hnj hch
  have hi' : i < c.threads.length := (List.getElem?_eq_some_iff.1 hi).1
  have hj' : j < c.threads.length := (List.getElem?_eq_some_iff.1 hj).1
  have := h i (List.mem_range.2 hi') j (List.mem_range.2 hj') hij
  rw [hi, hj] at this
  simp only [Option.map_some, Option.all_some, decide_eq_true_eq, Ex.at, hni, hnj] at this
  exact this hch

example : letI := Ex.ext
    Ex.locked.heap.world = World.imported ∧
    (∀ pre, pre <+: Ex.lockedSched → Exclusive 0 (Ex.locked.run pre)) ∧
    (returnedOn 0 Ex.locked Ex.lockedSched).map (fun x => match x.2 with
        | .bytes (.ok b) => b.length
        | .unit (.ok _) => 0
        | _ => 99) = [0, 1] := by
  let := Ex.ext
  refine ⟨rfl, fun pre hpre => Ex.exclusiveThreads_of ?_, by decide +kernel⟩
  have key : ∀ l ∈ Ex.lockedSched.inits, ∀ i ∈ List.range (Ex.locked.run l).threads.length,
      ∀ j ∈ List.range (Ex.locked.run l).threads.length,
      i ≠ j → ((Ex.locked.run l).threads[i]?.map Ex.at).all (fun x => x.2 = some 0 →
        ((Ex.locked.run l).threads[j]?.map Ex.at).all fun y => y.1 ≠ some 0) := by decide +kernel
  exact key pre ((List.mem_inits _ _).2 hpre)

/-! ## C51: every call finishes -/

/-- In every endless schedule in which a thread gets its turn again and again, the thread makes all
its calls, in their order, and each of them returns or raises, whatever the other threads do — also
while they register and unregister. -/
theorem C51_finishes [Ext] (c : System) (σ : Nat → Nat) (i : Nat) (hf : Fair σ i) (todo : List (Nat × Op))
    (log : List ((Nat × Op) × Res)) (hi : c.threads[i]? = some ⟨todo, none, log⟩) :
    ∃ n outcomes, (c.run (upTo σ n)).threads[i]? = some ⟨[], none, outcomes ++ log⟩ ∧
      outcomes.reverse.map (·.1) = todo :=
  calls_finish todo log σ c hf hi

example : Fair (fun n => n % 3) 1 := fun n => ⟨3 * n + 1, by omega, by show (3 * n + 1) % 3 = 1; omega⟩

example : letI := Ex.ext
    ∃ n outcomes, (Ex.race.run (upTo (fun n => n % 3) n)).threads[1]? = some ⟨[], none, outcomes ++ []⟩ ∧
      outcomes.length = 1 := by
  let := Ex.ext
  obtain ⟨n, o, h1, h2⟩ := C51_finishes Ex.race (fun n => n % 3) 1
    (fun n => ⟨3 * n + 1, by omega, by show (3 * n + 1) % 3 = 1; omega⟩) _ _ rfl
  exact ⟨n, o, h1, by simpa using congrArg List.length h2⟩

end EthAbi
