import Verif.Lemmas.Concurrent
import Verif.Lemmas.Registered
import Verif.Props.Examples

/-!
# C33: threads that share a registry

`System` is one side of a registry with any number of threads, each with any list of calls; `sched`
is any schedule.
-/
namespace EthAbi
open Spec Conc

/-! ## The property is false -/

/-- For all registrations `m`, every type string `s` that can be looked up and every change: a thread
makes the change while another looks up `s`.  There is a schedule in which the change returns, and a
lookup of `s` that *begins afterwards* returns the encoder of the old registrations, whatever the new
ones are.  (The other lookup runs between the clearing of the cache and the change.) -/
theorem C33_encoder_false [Ext] (m : Mapping (Reg Encoder)) (fl : Flags) (s : TypeStr) (e : Encoder) (fuel : Nat)
    (he : getEncoderFuel m fuel s = .ok e) (op : Call TypeStr Encoder) (hop : IsChange op) :
    ∃ sched sched' : List Nat,
      let c : System TypeStr Encoder := ⟨⟨m, [], fl⟩, [⟨[op], .idle, []⟩, ⟨[.lookup fuel s], .idle, []⟩,
        ⟨[.lookup fuel s], .idle, []⟩]⟩
      (c.run encSide sched).shared.regs = (op.change m).2 ∧
      (c.run encSide sched).threads = [⟨[], .idle, [.changed (op.change m).1]⟩,
        ⟨[], .idle, [.found fuel s (.ok e)]⟩, ⟨[.lookup fuel s], .idle, []⟩] ∧
      ((c.run encSide sched).run encSide sched').threads[2]? =
        some ⟨[], .idle, [.found fuel s (.ok e)]⟩ := by
  rw [← uncached_enc] at he
  exact stale encSide m fl s e fuel he op hop

/-- The same for decoders, with any way to pass `strict`. -/
theorem C33_decoder_false [Ext] (m : Mapping (Reg Decoder)) (fl : Flags) (s : TypeStr) (a : StrictArg)
    (d : Decoder) (fuel : Nat) (hd : getDecoderFuel m fuel s a.value = .ok d)
    (op : Call (TypeStr × StrictArg) Decoder) (hop : IsChange op) :
    ∃ sched sched' : List Nat,
      let c : System (TypeStr × StrictArg) Decoder := ⟨⟨m, [], fl⟩, [⟨[op], .idle, []⟩,
        ⟨[.lookup fuel (s, a)], .idle, []⟩, ⟨[.lookup fuel (s, a)], .idle, []⟩]⟩
      (c.run decSide sched).shared.regs = (op.change m).2 ∧
      (c.run decSide sched).threads = [⟨[], .idle, [.changed (op.change m).1]⟩,
        ⟨[], .idle, [.found fuel (s, a) (.ok d)]⟩, ⟨[.lookup fuel (s, a)], .idle, []⟩] ∧
      ((c.run decSide sched).run decSide sched').threads[2]? =
        some ⟨[], .idle, [.found fuel (s, a) (.ok d)]⟩ := by
  have hd : getDecoderFuel m fuel (s, a).1 (s, a).2.value = .ok d := hd
  rw [← uncached_dec] at hd
  exact stale decSide m fl (s, a) d fuel hd op hop

/-- So the property is false: with the default registrations, after `unregister_encoder("uint")` has
returned, and while no other thread has anything to do, a lookup of `uint8` may still return an
encoder, although the registrations have none. -/
theorem C33_false : letI := Ex.ext
    ¬ ∀ (c : System TypeStr Encoder) (sched sched' : List Nat) (i fuel : Nat) (s : TypeStr) (r : PyM Encoder),
      Quiet c → c.shared.cache = [] → Quiet (c.run encSide sched) →
      (∀ j t, (c.run encSide sched).threads[j]? = some t → t.todo = if j = i then [.lookup fuel s] else []) →
      (∃ t, ((c.run encSide sched).run encSide sched').threads[i]? = some t ∧ t.log = [.found fuel s r]) →
      RightEncoder (c.run encSide sched).shared.regs fuel s r := by
  let := Ex.ext
  intro hall
  obtain ⟨e, he⟩ : ∃ e, getEncoderFuel defaultRegistry.encoders 1 t!"uint8" = .ok e := ⟨_, rfl⟩
  obtain ⟨sched, sched', h1, h2, h3⟩ := C33_encoder_false defaultRegistry.encoders (fun _ => true) t!"uint8" e
    1 he (.unregister (.str t!"uint" 0)) (by intro f k; simp)
  have := (hall ⟨⟨defaultRegistry.encoders, [], fun _ => true⟩, _⟩ sched sched' 2 1 t!"uint8" (.ok e) ?_ rfl ?_ ?_
    ⟨_, h3, rfl⟩).2
  · rw [h1] at this
    have h0 : getEncoderFuel
        (Call.change (K := TypeStr) defaultRegistry.encoders (.unregister (.str t!"uint" 0))).2 1 t!"uint8" =
        .error .noEntriesFound := rfl
    rw [h0] at this
    cases this (by simp)
  · intro t ht
    simp only [List.mem_cons, List.not_mem_nil, or_false] at ht
    rcases ht with rfl | rfl | rfl <;> rfl
  · intro t ht
    rw [h2] at ht
    simp only [List.mem_cons, List.not_mem_nil, or_false] at ht
    rcases ht with rfl | rfl | rfl <;> rfl
  · intro j t ht
    rw [h2] at ht
    match j, ht with
    | 0, ht => injection ht with ht; rw [← ht]; rfl
    | 1, ht => injection ht with ht; rw [← ht]; rfl
    | 2, ht => injection ht with ht; rw [← ht]; rfl

/-! ## What holds if changes are exclusive -/

/-- Any number of threads, any calls, any schedule in which no call overlaps a change: a lookup returns
what the registrations of that moment determine.  Lookups may overlap each other. -/
theorem C33_encoder_partial [Ext] (c : System TypeStr Encoder) (hq : Quiet c)
    (hc : ∀ s e, c.shared.cache.lookup s = some e → ComesTo (fun n => getEncoderFuel c.shared.regs n s) (.ok e))
    (sched : List Nat) (hx : ∀ pre, pre <+: sched → Exclusive (c.run encSide pre))
    {i fuel : Nat} {s : TypeStr} {r : PyM Encoder} (hr : Returns encSide (c.run encSide sched) i fuel s r) :
    RightEncoder (c.run encSide sched).shared.regs fuel s r := by
  have hi : Conc.Inv encSide c := quiet_inv hq fun s e h => by
    obtain ⟨n, hn⟩ := hc s e h
    exact ⟨n, (uncached_enc _ n s).trans (hn n le_rfl)⟩
  obtain ⟨h1, h2⟩ := exclusive_right hi sched hx hr
  simp only [uncached_enc] at h1 h2
  refine ⟨fun hne => ?_, h2⟩
  obtain ⟨f, hf⟩ := h1 hne
  exact comesTo_of (fun n n' hn hx => encoderFuel_mono _ hn hx) hne hf

theorem C33_decoder_partial [Ext] (c : System (TypeStr × StrictArg) Decoder) (hq : Quiet c)
    (hc : ∀ s a d, c.shared.cache.lookup (s, a) = some d →
      ComesTo (fun n => getDecoderFuel c.shared.regs n s a.value) (.ok d))
    (sched : List Nat) (hx : ∀ pre, pre <+: sched → Exclusive (c.run decSide pre))
    {i fuel : Nat} {s : TypeStr} {a : StrictArg} {r : PyM Decoder}
    (hr : Returns decSide (c.run decSide sched) i fuel (s, a) r) :
    RightDecoder (c.run decSide sched).shared.regs fuel s a.value r := by
  have hi : Conc.Inv decSide c := quiet_inv hq fun k d h => by
    obtain ⟨n, hn⟩ := hc k.1 k.2 d h
    exact ⟨n, (uncached_dec _ n k).trans (hn n le_rfl)⟩
  obtain ⟨h1, h2⟩ := exclusive_right hi sched hx hr
  simp only [uncached_dec] at h1 h2
  refine ⟨fun hne => ?_, h2⟩
  obtain ⟨f, hf⟩ := h1 hne
  exact comesTo_of (fun n n' hn hx => decoderFuel_mono _ hn hx) hne hf

/-- Whatever is in the cache, and however it came there: one more change, while no other call is
running, and lookups are right again (as long as changes stay exclusive). -/
theorem C33_encoder_recovers [Ext] (c : System TypeStr Encoder) (hq : Quiet c) {j : Nat}
    {t : Thread TypeStr Encoder} {op : Call TypeStr Encoder} {rest : List (Call TypeStr Encoder)}
    (ht : c.threads[j]? = some t) (hd : t.todo = op :: rest) (hop : IsChange op)
    (sched : List Nat) (hx : ∀ pre, pre <+: sched → Exclusive ((c.run encSide [j, j]).run encSide pre))
    {i fuel : Nat} {s : TypeStr} {r : PyM Encoder}
    (hr : Returns encSide ((c.run encSide [j, j]).run encSide sched) i fuel s r) :
    RightEncoder ((c.run encSide [j, j]).run encSide sched).shared.regs fuel s r := by
  obtain ⟨h1, h2, _⟩ := quiet_change (S := encSide) hq ht hd hop
  exact C33_encoder_partial _ h1 (fun s e h => by rw [h2] at h; cases h) sched hx hr

theorem C33_decoder_recovers [Ext] (c : System (TypeStr × StrictArg) Decoder) (hq : Quiet c) {j : Nat}
    {t : Thread (TypeStr × StrictArg) Decoder} {op : Call (TypeStr × StrictArg) Decoder}
    {rest : List (Call (TypeStr × StrictArg) Decoder)}
    (ht : c.threads[j]? = some t) (hd : t.todo = op :: rest) (hop : IsChange op)
    (sched : List Nat) (hx : ∀ pre, pre <+: sched → Exclusive ((c.run decSide [j, j]).run decSide pre))
    {i fuel : Nat} {s : TypeStr} {a : StrictArg} {r : PyM Decoder}
    (hr : Returns decSide ((c.run decSide [j, j]).run decSide sched) i fuel (s, a) r) :
    RightDecoder ((c.run decSide [j, j]).run decSide sched).shared.regs fuel s a.value r := by
  obtain ⟨h1, h2, _⟩ := quiet_change (S := decSide) hq ht hd hop
  exact C33_decoder_partial _ h1 (fun s a e h => by rw [h2] at h; cases h) sched hx hr

/-! ## What holds in every schedule -/

/-- In every schedule whatsoever, a lookup that returns a coder returns one that is made from
registrations that were in the registry at some time. -/
theorem C33_assembled_partial {K C : Type} [BEq K] [LawfulBEq K] [Ext] (S : Side K C) (c : System K C)
    (hq : Quiet c) (hc : c.shared.cache = []) (sched : List Nat) {i fuel : Nat} {k : K} {v : C}
    (hr : Returns S (c.run S sched) i fuel k (.ok v)) :
    Assembled S (fun m => ∃ pre, pre <+: sched ∧ m = (c.run S pre).shared.regs) k v := by
  obtain ⟨t, ht, hp⟩ := returns_phase hr
  have h0 : InvA S (fun m => ∃ pre, pre <+: sched ∧ m = (c.run S pre).shared.regs) c :=
    ⟨fun k v h => by rw [hc] at h; (cases h), fun i t fuel k p ht hp => by
      rw [hq t (List.mem_of_getElem? ht)] at hp; cases hp⟩
  exact (invA_run h0 sched fun pre hp => ⟨pre, hp, rfl⟩).look i t fuel k _ ht hp v rfl

/-! ## The small steps are those of `Model/World.lean` -/

/-- A lookup that is not interrupted does what `get_encoder` does in the sequential model. -/
theorem C33_encoder_alone [Ext] (m : Mapping (Reg Encoder)) (cache : EncCache) (fl : Flags)
    (ts : List (Thread TypeStr Encoder)) (i : Nat) (t : Thread TypeStr Encoder) (fuel : Nat) (s : TypeStr)
    (rest : List (Call TypeStr Encoder)) (ht : ts[i]? = some t) (hp : t.phase = .idle)
    (hd : t.todo = .lookup fuel s :: rest) :
    ∃ n, (System.mk ⟨m, cache, fl⟩ ts).run encSide (List.replicate n i) =
      ⟨⟨m, (cachedEncoder m fuel s cache).2, fl⟩,
        ts.set i ⟨rest, .idle, .found fuel s (cachedEncoder m fuel s cache).1 :: t.log⟩⟩ := by
  obtain ⟨n, hn⟩ := run_lookup encSide ⟨m, cache, fl⟩ ts i t fuel s rest ht hp hd
  obtain ⟨h1, h2⟩ := seqLook_enc m fl fuel s _ cache rfl
  rw [h1, h2] at hn
  exact ⟨n, hn⟩

theorem C33_decoder_alone [Ext] (m : Mapping (Reg Decoder)) (cache : DecCache) (fl : Flags)
    (ts : List (Thread (TypeStr × StrictArg) Decoder)) (i : Nat) (t : Thread (TypeStr × StrictArg) Decoder)
    (fuel : Nat) (s : TypeStr) (a : StrictArg) (rest : List (Call (TypeStr × StrictArg) Decoder))
    (ht : ts[i]? = some t) (hp : t.phase = .idle) (hd : t.todo = .lookup fuel (s, a) :: rest) :
    ∃ n, (System.mk ⟨m, cache, fl⟩ ts).run decSide (List.replicate n i) =
      ⟨⟨m, (cachedDecoder m fuel s a (cache, fl)).2.1, (cachedDecoder m fuel s a (cache, fl)).2.2⟩,
        ts.set i ⟨rest, .idle, .found fuel (s, a) (cachedDecoder m fuel s a (cache, fl)).1 :: t.log⟩⟩ := by
  obtain ⟨n, hn⟩ := run_lookup decSide ⟨m, cache, fl⟩ ts i t fuel (s, a) rest ht hp hd
  obtain ⟨h1, h2⟩ := seqLook_dec m fuel (s, a) _ (cache, fl) rfl
  rw [h1, h2] at hn
  exact ⟨n, hn⟩

/-! ## Schedules that meet the hypotheses -/

namespace Ex

/-- Is the thread in a change, is it between two calls. -/
def inChange {K C : Type} (t : Thread K C) : Bool := match t.phase with
  | .cleared _ => true
  | _ => false

def isIdle {K C : Type} (t : Thread K C) : Bool := match t.phase with
  | .idle => true
  | _ => false

def checkExclusive {K C : Type} (c : System K C) : Bool :=
  (List.range c.threads.length).all fun i => (List.range c.threads.length).all fun j =>
    match c.threads[i]?, c.threads[j]? with
    | some ti, some tj => i == j || !inChange ti || isIdle tj
    | _, _ => true

theorem exclusive_of {K C : Type} {c : System K C} (h : checkExclusive c = true) : Exclusive c := by
  intro i j ti tj op hi hj hij hp
  have hi' : i < c.threads.length := (List.getElem?_eq_some_iff.1 hi).1
  have hj' : j < c.threads.length := (List.getElem?_eq_some_iff.1 hj).1
  have := List.all_eq_true.1 (List.all_eq_true.1 h i (List.mem_range.2 hi')) j (List.mem_range.2 hj')
  simp only [hi, hj, inChange, hp, beq_iff_eq, hij, Bool.or_eq_true, Bool.not_true, Bool.false_eq_true,
    false_or, or_false] at this
  unfold isIdle at this
  split at this
  · assumption
  · cases this

theorem returns_of {K C : Type} [BEq K] [LawfulBEq K] [DecidableEq K] [Ext] {S : Side K C} {c : System K C} {i fuel : Nat} {k : K}
    {x : Exc} (h : (match c.threads[i]? with
      | some ⟨_, .looking f k' (.ret (.error x')), _⟩ => decide (f = fuel ∧ k' = k ∧ x' = x)
      | _ => false) = true) : Returns S c i fuel k (.error x) := by
  split at h
  · next todo f k' x' log ht =>
    obtain ⟨rfl, rfl, rfl⟩ := of_decide_eq_true h
    rcases sysStep_cases S c i with ⟨h0, _⟩ | ⟨u, hu, he⟩
    · rw [h0] at ht; cases ht
    · rw [ht] at hu
      injection hu with hu
      subst hu
      exact ⟨_, _, ht, by rw [he]; exact set_get ht, rfl⟩
  · cases h

/-- Two threads look up `uint8[]` and `uint8` at the same time, then a third unregisters `uint`, and
one of them looks up `uint8[]` again: the second lookup fails, as it should. -/
def threads : List (Thread TypeStr Encoder) :=
  [⟨[.unregister (.str t!"uint" 0)], .idle, []⟩,
   ⟨[.lookup 3 t!"uint8[]", .lookup 3 t!"uint8[]"], .idle, []⟩, ⟨[.lookup 3 t!"uint8"], .idle, []⟩]

def schedule : List Nat :=
  [1, 2, 1, 2, 1, 2, 1, 2, 1, 2, 1, 2, 1, 1, 1, 1, 0, 0, 1, 1, 1, 1, 1]

def outcomes {K C : Type} (c : System K C) : List (List (Option Exc)) :=
  c.threads.map fun t => t.log.map fun
    | .found _ _ (.ok _) => none
    | .found _ _ (.error x) => some x
    | .changed (.ok _) => none
    | .changed (.error x) => some x

example : letI := ext
    (∀ pre, pre <+: schedule →
      Exclusive ((System.mk ⟨defaultRegistry.encoders, [], fun _ => true⟩ threads).run encSide pre)) ∧
    Returns encSide ((System.mk ⟨defaultRegistry.encoders, [], fun _ => true⟩ threads).run encSide schedule)
      1 3 t!"uint8[]" (.error .noEntriesFound) ∧
    outcomes ((System.mk ⟨defaultRegistry.encoders, [], fun _ => true⟩ threads).run encSide schedule) =
      [[none], [none], [none]] := by
  let := ext
  refine ⟨fun pre hp => ?_, returns_of (by decide +kernel), by decide +kernel⟩
  have h : (schedule.inits.all fun pre => checkExclusive
      ((System.mk ⟨defaultRegistry.encoders, [], fun _ => true⟩ threads).run encSide pre)) = true := by
    decide +kernel
  exact exclusive_of (List.all_eq_true.1 h pre ((List.mem_inits _ _).2 hp))

/-- The same with decoders. -/
def decThreads : List (Thread (TypeStr × StrictArg) Decoder) :=
  [⟨[.unregister (.str t!"uint" 0)], .idle, []⟩,
   ⟨[.lookup 3 (t!"uint8[]", .absent), .lookup 3 (t!"uint8[]", .kw false)], .idle, []⟩,
   ⟨[.lookup 3 (t!"uint8", .pos true)], .idle, []⟩]

example : letI := ext
    (∀ pre, pre <+: schedule →
      Exclusive ((System.mk ⟨defaultRegistry.decoders, [], fun _ => true⟩ decThreads).run decSide pre)) ∧
    Returns decSide ((System.mk ⟨defaultRegistry.decoders, [], fun _ => true⟩ decThreads).run decSide schedule)
      1 3 (t!"uint8[]", .kw false) (.error .noEntriesFound) ∧
    outcomes ((System.mk ⟨defaultRegistry.decoders, [], fun _ => true⟩ decThreads).run decSide schedule) =
      [[none], [none], [none]] := by
  let := ext
  refine ⟨fun pre hp => ?_, returns_of (by decide +kernel), by decide +kernel⟩
  have h : (schedule.inits.all fun pre => checkExclusive
      ((System.mk ⟨defaultRegistry.decoders, [], fun _ => true⟩ decThreads).run decSide pre)) = true := by
    decide +kernel
  exact exclusive_of (List.all_eq_true.1 h pre ((List.mem_inits _ _).2 hp))

/-- A stale entry for `uint8` is in the cache, the registrations have no `uint`; one more change, of another type, and the
lookup fails, as it should (`C33_encoder_recovers`). -/
def stale [Ext] : System TypeStr Encoder :=
  ⟨⟨Mapping.empty, [(t!"uint8", ⟨none, none, fun _ => .ok [1]⟩)], fun _ => true⟩,
   [⟨[.unregister (.str t!"bool" 0)], .idle, []⟩, ⟨[.lookup 3 t!"uint8"], .idle, []⟩]⟩

example : letI := ext
    outcomes (stale.run encSide [1, 1, 1]) = [[], [none]] ∧
    (∀ pre, pre <+: [1, 1, 1] → Exclusive ((stale.run encSide [0, 0]).run encSide pre)) ∧
    Returns encSide ((stale.run encSide [0, 0]).run encSide [1, 1, 1]) 1 3 t!"uint8" (.error .noEntriesFound) := by
  let := ext
  refine ⟨by decide +kernel, fun pre hp => ?_, returns_of (by decide +kernel)⟩
  have h : (([1, 1, 1] : List Nat).inits.all fun pre => checkExclusive ((stale.run encSide [0, 0]).run encSide pre)) = true := by
    decide +kernel
  exact exclusive_of (List.all_eq_true.1 h pre ((List.mem_inits _ _).2 hp))

end Ex

end EthAbi
