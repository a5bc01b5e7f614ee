import Verif.Model.Concurrent
import Verif.Spec.Registry
import Mathlib.Data.List.Infix

/-! # Specification: what threads that share a registry may rely on -/
namespace EthAbi.Spec
open EthAbi EthAbi.Conc

variable {K C : Type} [BEq K] [Ext]

/-- While a thread is in a change (a call of `register_*` or `unregister_*`), every other thread is
between two calls. -/
def Exclusive (c : System K C) : Prop :=
  ∀ (i j : Nat) (ti tj : Thread K C) (op : Call K C), c.threads[i]? = some ti → c.threads[j]? = some tj → i ≠ j → ti.phase = .cleared op →
    tj.phase = .idle

/-- No thread is in a call. -/
def Quiet (c : System K C) : Prop := ∀ t ∈ c.threads, t.phase = .idle

/-- The next step of thread `i` is that a lookup of `k` returns or raises `r`. -/
def Returns (S : Side K C) (c : System K C) (i fuel : Nat) (k : K) (r : PyM C) : Prop :=
  ∃ t t', c.threads[i]? = some t ∧ (c.step S i).threads[i]? = some t' ∧
    t'.log = .found fuel k r :: t.log

/-- `r` is what `get_encoder(s)` returns or raises with the registrations `m`, if the recursion limit
allows. -/
def RightEncoder (m : Mapping (Reg Encoder)) (fuel : Nat) (s : TypeStr) (r : PyM Encoder) : Prop :=
  (r ≠ .error .recursionError → ComesTo (fun n => getEncoderFuel m n s) r) ∧
    (getEncoderFuel m fuel s ≠ .error .recursionError → r = getEncoderFuel m fuel s)

/-- `r` is what `get_decoder(s, strict)` returns or raises with the registrations `m`, if the recursion
limit allows. -/
def RightDecoder (m : Mapping (Reg Decoder)) (fuel : Nat) (s : TypeStr) (strict : Bool)
    (r : PyM Decoder) : Prop :=
  (r ≠ .error .recursionError → ComesTo (fun n => getDecoderFuel m n s strict) r) ∧
    (getDecoderFuel m fuel s strict ≠ .error .recursionError → r = getDecoderFuel m fuel s strict)

/-- The call is a change, not a lookup. -/
def IsChange (op : Call K C) : Prop := ∀ fuel k, op ≠ .lookup fuel k

mutual
/-- The coder `c` for the key `k` can be made from registrations of which each was in the registry at
some time (`H`), though perhaps not all at the same time. -/
inductive Assembled (S : Side K C) (H : Mapping (Reg C) → Prop) : K → C → Prop where
  | obj {k : K} {c : C} {m : Mapping (Reg C)} : H m → m.getRegistration (S.str k) = .ok (.obj c) →
      Assembled S H k (S.finish k c)
  | cls {k : K} {c : C} {m : Mapping (Reg C)} {plan : TypeStr → Plan C} : H m →
      m.getRegistration (S.str k) = .ok (.cls plan) → AssembledPlan S H (plan (S.str k)) c →
      Assembled S H k (S.finish k c)
/-- The same for the rest of a `from_type_str`. -/
inductive AssembledPlan (S : Side K C) (H : Mapping (Reg C) → Prop) : Plan C → C → Prop where
  | ret {c : C} : AssembledPlan S H (.ret (.ok c)) c
  | ask {s : TypeStr} {k : C → Plan C} {c c' : C} : Assembled S H (S.nested s) c' →
      AssembledPlan S H (k c') c → AssembledPlan S H (.ask s k) c
end

end EthAbi.Spec
