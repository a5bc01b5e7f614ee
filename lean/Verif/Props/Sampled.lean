import Verif.Lemmas.Sampled
import Verif.Props.Composed

/-!
# C90: strategies that users register fit the encoders they register, in any nesting

`h` is an arbitrary history and `(Plain.run [] h)[r]? = some g` says that registry `r` exists and has
the registrations `g` after it.  `m` are the registrations of a `StrategyRegistry`, after any calls.
-/
namespace EthAbi
open Spec

/-- If the strategies registered for the leaves generate only values that the encoders registered for the
leaves accept, `get_strategy` finds a strategy for every type built from them, and all that this strategy
generates is encodable. -/
theorem C90_encodable [Ext] (h : History) {r : Nat} {g : Registry} (hg : (Plain.run [] h)[r]? = some g)
    {m : Mapping (Reg Strategy)} {s : TypeStr} (hs : Sampled g m false s) :
    ∃ n S, ∀ f, n ≤ f → getStrategyFuel m f s = .ok S ∧
      ∀ o, S o → ∃ v, o = .ok v ∧ ((World.empty.run h).isEncodable f r s v).1 = .ok true := by
  obtain ⟨_, e, S, ⟨n1, h1⟩, ⟨n2, h2⟩, h3⟩ := sampled_ok hs
  refine ⟨max n1 n2, S, fun f hf => ⟨h2 f (by omega), fun o ho => ?_⟩⟩
  have h1 : getEncoderFuel g.encoders f s = .ok e := h1 f (by omega)
  obtain ⟨v, rfl, hv⟩ := h3 o ho
  refine ⟨v, rfl, ?_⟩
  rw [C28_isEncodable h hg f s v (by rw [h1]; simp)]
  simp only [isEncodableAt, h1, World.encodableWith]
  unfold Accepted at hv
  rw [validation_eq] at hv
  rcases hv with hv | ⟨_, hv, b, hb⟩
  · rw [hv]
  · rw [hv]; simp only [hb]

/-- The leaves, 1: a type string with a registered encoder and a registered strategy. -/
theorem C90_registered [Ext] {g : Registry} {m : Mapping (Reg Strategy)} {s : TypeStr} (hs : Wellformed s)
    {e : Encoder} {S : Strategy} (he : OnlyMatch g.encoders s (.obj e)) (hS : OnlyMatch m s (.obj S))
    {item : Bool} (hf : Fitting item S e) : Sampled g m item s := by
  refine .leaf hs (e := e) (S := S) ⟨1, fun f hf => ?_⟩ ⟨1, fun f hf => ?_⟩ hf
  · obtain ⟨f, rfl⟩ : ∃ f', f = f' + 1 := ⟨f - 1, by omega⟩
    show getEncoderFuel g.encoders (f + 1) s = _
    rw [getEncoderFuel, (getRegistration_ok _ _ _).2 ((find_iff _ _ _).2 he)]
  · obtain ⟨f, rfl⟩ : ∃ f', f = f' + 1 := ⟨f - 1, by omega⟩
    show getStrategyFuel m (f + 1) s = _
    rw [getStrategyFuel, (getRegistration_ok _ _ _).2 ((find_iff _ _ _).2 hS)]

/-- The leaves, 2: the elementary types of the library, where both registries still have their own
registrations.  (`Spells false`: no `bool8`, which has no strategy, see C39.) -/
theorem C90_builtin [Ext] {g : Registry} {m : Mapping (Reg Strategy)} {s : TypeStr} (hs : Wellformed s)
    (hg : DefaultFor g s) (hm : DefaultStrategy m s) {base : List Char} {sub : Sub}
    (hp : parse s = .ok (.basic base sub [])) {t : Ty} (ht : Supported s t) (hsp : Spells false s t)
    (item : Bool) : Sampled g m item s := by
  refine .leaf hs (default_basic hg hp ht).1 (strategyIs_builtin hm hp ht hsp) fun o ho => ?_
  obtain ⟨v, x, rfl, hx⟩ := draw_denotes t (supported_valid ht) o ho
  exact ⟨v, rfl, .inl ((encOf_good false t (supported_valid ht)).valOk v x hx)⟩

/-- Arrays and tuples keep their factories as long as no registration matches their type strings. -/
theorem C90_compound [Ext] {m : Mapping (Reg Strategy)} {s : TypeStr} (hm : DefaultStrategy m s) :
    (∀ t, parse s = .ok t → t.isArray = true → ArrayFactory m s) ∧
    (∀ cs, parse s = .ok (.tuple cs []) → TupleFactory m s) :=
  ⟨fun _ hp ha => array_default hm hp ha, fun _ hp => tuple_default hm hp⟩

/-- Fitting leaves are needed: a strategy that generates one value which the encoder rejects makes the
strategy of every array of it generate a value that is not encodable. -/
theorem C90_needed [Ext] (h : History) {r : Nat} {g : Registry} (hg : (Plain.run [] h)[r]? = some g)
    {m : Mapping (Reg Strategy)} {s : TypeStr} (hs : Wellformed s) {e : Encoder} {S : Strategy}
    (he : EncoderIs g s e) (hS : StrategyIs m s S)
    (hA : OnlyMatch g.encoders (s ++ t!"[]") (.cls (arrayPlan mkArray))) (hF : ArrayFactory m (s ++ t!"[]"))
    {v : PyVal} (hv : S (.ok v)) {x : Exc} (hx : e.validateValue v = .error x) (hxe : x.isEncodingError = true) :
    ∃ n S', ∀ f, n ≤ f → getStrategyFuel m f (s ++ t!"[]") = .ok S' ∧
      ∃ u, S' (.ok u) ∧ ((World.empty.run h).isEncodable f r (s ++ t!"[]") u).1 = .ok false := by
  have hw : DerivesDims [none] t!"[]" := DerivesDims.dynamic DerivesDims.nil
  have hno : arrNumsOk [none] = true := rfl
  obtain ⟨n1, h1⟩ := encoderIs_array hs hw hno he hA rfl
  obtain ⟨n2, h2⟩ := strategyIs_array hs hw hno hS hF
  refine ⟨max n1 n2, _, fun f hf => ⟨h2 f (by omega), .list [v], ⟨[.ok v], Nat.zero_le _, by simp, ?_, rfl⟩, ?_⟩⟩
  · intro o ho; rw [List.mem_singleton.1 ho]; exact hv
  · have h1 : getEncoderFuel g.encoders f (s ++ t!"[]") = .ok (mkDynamicArray e) := h1 f (by omega)
    rw [C28_isEncodable h hg f _ _ (by rw [h1]; simp)]
    simp only [isEncodableAt, h1, World.encodableWith]
    have hval : (mkDynamicArray e).validateValue (.list [v]) = .error x := by
      show arrayValidate e (.list [v]) = _
      simp only [arrayValidate, asListLike?, arrayValidateItems, hx, error_bind]
    rw [hval]
    cases x <;> first | (cases hxe; done) | simp only [hxe, if_true]

namespace Ex

/-- `strategy_registry` with `st.none()` registered for `null`. -/
def nullStrategies [Ext] : Mapping (Reg Strategy) := strategyRun strategyRegistry
  [.registerStrategy (.str t!"null" 60) (.obj fun o => o = .ok .none) none]

theorem nullStrategies_default (s : TypeStr) (hs : s ≠ t!"null") : letI := ext
    DefaultStrategy nullStrategies s := by
  let := ext
  refine ⟨[(⟨60, .equals t!"null"⟩, .obj fun o => o = .ok .none)], rfl, fun q hq => ?_⟩
  rw [List.mem_singleton.1 hq]
  simp only [Pred.matches]
  rw [beq_eq_false_iff_ne.2 (Ne.symm hs)]

/-- `(null,string)[]` in both registries: the hypotheses of `C90_encodable` are met. -/
theorem null_sampled : letI := ext
    Sampled (nullRegistry encodeNull decodeNull) nullStrategies false t!"(null,string)[]" := by
  let := ext
  have hdef := null_default encodeNull decodeNull
  have hS : OnlyMatch nullStrategies t!"null" (.obj fun o => o = .ok .none) := by
    refine ⟨strategyRegistry.values, _, [], rfl, rfl, ?_⟩
    have : (strategyRegistry.values.all fun q => decide (q.1.matches t!"null" = .ok false)) = true := by
      decide +kernel
    simpa using fun q hq => of_decide_eq_true (List.all_eq_true.1 this q hq)
  have hn : Sampled (nullRegistry encodeNull decodeNull) nullStrategies false t!"null" :=
    C90_registered null_wellformed (null_only _ _).1 hS fun o ho => ⟨.none, ho, .inl rfl⟩
  have hstr : Sampled (nullRegistry encodeNull decodeNull) nullStrategies false t!"string" :=
    C90_builtin ⟨_, rfl, by decide +kernel, rfl⟩ (hdef t!"string" (by decide))
      (nullStrategies_default t!"string" (by decide)) (sub := .none) rfl (t := .string) ⟨.string, by decide⟩
      .string false
  have htup : Sampled (nullRegistry encodeNull decodeNull) nullStrategies true t!"(null,string)" :=
    .tuple (.cons hn (.one hstr)) ((C47_compound (hdef t!"(null,string)" (by decide))).2 _ rfl).1
      ((C90_compound (nullStrategies_default t!"(null,string)" (by decide))).2 _ rfl)
  exact .dynamic htup ((C47_compound (hdef t!"(null,string)[]" (by decide))).1 _ rfl rfl).1
    ((C90_compound (nullStrategies_default t!"(null,string)[]" (by decide))).1 _ rfl rfl)

end Ex

end EthAbi
