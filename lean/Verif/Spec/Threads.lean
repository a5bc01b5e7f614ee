import Verif.Model.Threads
import Verif.Spec.Registry
import Mathlib.Data.List.Infix

/-! # Specification: what threads that share codecs and registries may rely on -/
namespace EthAbi.Spec
open EthAbi EthAbi.Thr

/-- No thread is in a call. -/
def Thr.Quiet (c : System) : Prop := ∀ t ∈ c.threads, t.now.isNone

/-- No thread will register or unregister anything in registry `r`. -/
def Thr.LeavesAlone (r : Nat) (c : System) : Prop :=
  ∀ t ∈ c.threads, ∀ call ∈ t.todo, changes call.2 ≠ some r

/-- While a thread is in a call that registers or unregisters something in registry `r`, no other
thread is in a call on `r`. -/
def Thr.Exclusive (r : Nat) (c : System) : Prop :=
  ∀ (i j : Nat) (ti tj : Thread) (ci cj : Nat × Op) (pi pj : Prog Res), c.threads[i]? = some ti →
    c.threads[j]? = some tj → i ≠ j → ti.now = some (ci, pi) → tj.now = some (cj, pj) →
    changes ci.2 = some r → target cj.2 ≠ some r

/-- The calls that return (or raise) while the threads run as the schedule says, with their outcomes,
in the order in which they return. -/
def Thr.returned [Ext] (c : System) : List Nat → List ((Nat × Op) × Res)
  | [] => []
  | i :: sched =>
    (match c.threads[i]? with
      | some ⟨_, some (call, .ret r), _⟩ => [(call, r)]
      | _ => []) ++ returned (c.step i) sched

/-- Those of the calls that were made on registry `r`. -/
def Thr.returnedOn [Ext] (r : Nat) (c : System) (sched : List Nat) : List ((Nat × Op) × Res) :=
  (returned c sched).filter fun x => target x.1.2 = some r

/-- The first `n` turns of an endless schedule. -/
def Thr.upTo (σ : Nat → Nat) (n : Nat) : List Nat := (List.range n).map σ

/-- Thread `i` gets its turn again and again. -/
def Thr.Fair (σ : Nat → Nat) (i : Nat) : Prop := ∀ n, ∃ m, n ≤ m ∧ σ m = i

/-- `x` is what `f` computes, if the recursion limit allows. -/
def Agree {α : Type} (f : Nat → PyM α) (fuel : Nat) (x : PyM α) : Prop :=
  (x ≠ .error .recursionError → ComesTo f x) ∧ (f fuel ≠ .error .recursionError → x = f fuel)

/-- The effect of a call on the registrations of the registry it is made on. -/
def effect : Op → Registry → Registry
  | .registerEncoder _ l e label => regEnc l e label
  | .unregisterEncoder _ l => unregEnc l
  | .registerDecoder _ l d label => regDec l d label
  | .unregisterDecoder _ l => unregDec l
  | .register _ l e d label => fun g =>
      if returned (g.encoders.register l e label).1 then regDec l d label (regEnc l e label g)
      else regEnc l e label g
  | .unregister _ l => fun g =>
      if returned (g.encoders.unregister l).1 then unregDec l (unregEnc l g) else unregEnc l g
  | _ => id

/-- The registrations of a registry after calls on it. -/
def after (g : Registry) (calls : History) : Registry := calls.foldl (fun g call => effect call.2 g) g

/-- The outcome of a call on a registry is the one that its registrations `g` determine. -/
def Determined [Ext] (g : Registry) (fuel : Nat) : Op → Res → Prop
  | .getEncoder _ s, .encoder x => Agree (fun n => getEncoderFuel g.encoders n s) fuel x
  | .getDecoder _ s a, .decoder x => Agree (fun n => getDecoderFuel g.decoders n s a.value) fuel x
  | .hasEncoder _ s, .bool x =>
      getEncoderFuel g.encoders fuel s ≠ .error .recursionError → x = hasEncoderAt g fuel s
  | .encode _ types args, .bytes x => Agree (fun n => encodeAt g n types args) fuel x
  | .isEncodable _ s v, .bool x =>
      getEncoderFuel g.encoders fuel s ≠ .error .recursionError → x = isEncodableAt g fuel s v
  | .decode _ types data strict, .value x =>
      (∃ fl, Agree (fun n => decodeAt g fl n types data strict) fuel x) ∧
      (NoSharedDecoders g → ∀ fl, Agree (fun n => decodeAt g fl n types data strict) fuel x)
  | .registerEncoder _ l e label, .unit x => x = (g.encoders.register l e label).1
  | .unregisterEncoder _ l, .unit x => x = (g.encoders.unregister l).1
  | .registerDecoder _ l d label, .unit x => x = (g.decoders.register l d label).1
  | .unregisterDecoder _ l, .unit x => x = (g.decoders.unregister l).1
  | .register _ l e d label, .unit x =>
      x = (do (g.encoders.register l e label).1; (g.decoders.register l d label).1)
  | .unregister _ l, .unit x => x = (do (g.encoders.unregister l).1; (g.decoders.unregister l).1)
  | _, _ => False

/-- What the call returns or raises when it is made alone (`Model/World.lean`). -/
def outcome [Ext] (w : World) (fuel : Nat) : Op → Res
  | .new => .unit (.ok ())
  | .copy _ => .unit (.ok ())
  | .registerEncoder r l e label => .unit (w.registerEncoder r l e label).1
  | .unregisterEncoder r l => .unit (w.unregisterEncoder r l).1
  | .registerDecoder r l d label => .unit (w.registerDecoder r l d label).1
  | .unregisterDecoder r l => .unit (w.unregisterDecoder r l).1
  | .register r l e d label => .unit (w.register r l e d label).1
  | .unregister r l => .unit (w.unregister r l).1
  | .getEncoder r s => .encoder (w.getEncoder fuel r s).1
  | .getDecoder r s a => .decoder (w.getDecoder fuel r s a).1
  | .hasEncoder r s => .bool (w.hasEncoder fuel r s).1
  | .encode r types args => .bytes (w.encode fuel r types args).1
  | .isEncodable r s v => .bool (w.isEncodable fuel r s v).1
  | .decode r types data strict => .value (w.decode fuel r types data strict).1

end EthAbi.Spec
