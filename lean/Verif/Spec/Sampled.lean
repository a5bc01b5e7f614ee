import Verif.Spec.Composed
import Verif.Model.Strategies

/-!
# Specification: strategies and encoders that users register for the same types

`Sampled g m item s`: the registry `g` has encoders and the strategy registry `m` has strategies for `s`,
and at the leaves of `s` they fit: what the strategy generates is accepted by the encoder.
-/
namespace EthAbi.Spec
open EthAbi

/-- `get_strategy(s)` of a strategy registry returns `S`. -/
def StrategyIs [Ext] (m : Mapping (Reg Strategy)) (s : TypeStr) (S : Strategy) : Prop :=
  ComesTo (fun n => getStrategyFuel m n s) (.ok S)

/-- The encoder `e` accepts `v`: `validate_value` does, or there is no such method (it raises `AttributeError`)
and the call succeeds.  The latter will not do for the items of an array (`item`). -/
def Accepted (item : Bool) (e : Encoder) (v : PyVal) : Prop :=
  validation e v = .ok () ∨
    item = false ∧ validation e v = .error .attributeError ∧ ∃ b, e.call v = .ok b

/-- Whatever `S` generates is a value that `e` accepts. -/
def Fitting (item : Bool) (S : Strategy) (e : Encoder) : Prop :=
  ∀ o, S o → ∃ v, o = .ok v ∧ Accepted item e v

/-- The registration that serves `s` is the factory of arrays. -/
def ArrayFactory [Ext] (m : Mapping (Reg Strategy)) (s : TypeStr) : Prop :=
  OnlyMatch m s (.cls (factoryPlan getArrayStrategy))

/-- The registration that serves `s` is the factory of tuples. -/
def TupleFactory [Ext] (m : Mapping (Reg Strategy)) (s : TypeStr) : Prop :=
  OnlyMatch m s (.cls (factoryPlan getTupleStrategy))

mutual
/-- Encoders and strategies that fit at the leaves, and the library's arrays and tuples around them. -/
inductive Sampled [Ext] (g : Registry) (m : Mapping (Reg Strategy)) : Bool → TypeStr → Prop where
  | leaf {item : Bool} {s : TypeStr} {e : Encoder} {S : Strategy} : Wellformed s → EncoderIs g s e →
      StrategyIs m s S → Fitting item S e → Sampled g m item s
  | sized {item : Bool} {s : TypeStr} {k : Nat} {e : Encoder} : Sampled g m true s → EncoderIs g s e →
      e.isDynamic ≠ none → 0 < k → numOk k = true →
      OnlyMatch g.encoders (s ++ t!"[" ++ natDigits k ++ t!"]") (.cls (arrayPlan mkArray)) →
      ArrayFactory m (s ++ t!"[" ++ natDigits k ++ t!"]") →
      Sampled g m item (s ++ t!"[" ++ natDigits k ++ t!"]")
  | dynamic {item : Bool} {s : TypeStr} : Sampled g m true s →
      OnlyMatch g.encoders (s ++ t!"[]") (.cls (arrayPlan mkArray)) → ArrayFactory m (s ++ t!"[]") →
      Sampled g m item (s ++ t!"[]")
  | tuple {item : Bool} {s : TypeStr} : SampledComps g m s →
      OnlyMatch g.encoders (t!"(" ++ s ++ t!")") (.cls (tuplePlan mkTuple)) →
      TupleFactory m (t!"(" ++ s ++ t!")") → Sampled g m item (t!"(" ++ s ++ t!")")
/-- The components of a tuple. -/
inductive SampledComps [Ext] (g : Registry) (m : Mapping (Reg Strategy)) : TypeStr → Prop where
  | one {s : TypeStr} : Sampled g m false s → SampledComps g m s
  | cons {s s' : TypeStr} : Sampled g m false s → SampledComps g m s' →
      SampledComps g m (s ++ t!"," ++ s')
end

/-- The strategy registry was made from `strategy_registry` by adding registrations, none of which matches `s`. -/
def DefaultStrategy [Ext] (m : Mapping (Reg Strategy)) (s : TypeStr) : Prop :=
  ∃ xs, m.values = strategyRegistry.values ++ xs ∧ ∀ q ∈ xs, q.1.matches s = .ok false

end EthAbi.Spec
