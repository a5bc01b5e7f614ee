import Verif.Spec.Sampled
import Verif.Lemmas.Composed
import Verif.Lemmas.Draws

/-! # Strategies and encoders that users register for the same types -/
namespace EthAbi
open Spec
variable [Ext]

omit [Ext] in
theorem drawAll_each {os : List (PyM PyVal)} {P : PyVal → Prop} (h : ∀ o ∈ os, ∃ v, o = .ok v ∧ P v) :
    ∃ vs, Strategy.drawAll os = .ok vs ∧ vs.length = os.length ∧ ∀ v ∈ vs, P v := by
  induction os with
  | nil => exact ⟨[], rfl, rfl, by simp⟩
  | cons o os ih =>
    obtain ⟨v, rfl, hv⟩ := h o (by simp)
    obtain ⟨vs, h1, h2, h3⟩ := ih fun o ho => h o (by simp [ho])
    refine ⟨v :: vs, ?_, by simp [h2], ?_⟩
    · simp only [Strategy.drawAll, h1, ok_bind]; rfl
    · intro u hu
      rcases List.mem_cons.1 hu with rfl | hu
      · exact hv
      · exact h3 u hu

theorem strategy_exec {m : Mapping (Reg Strategy)} {s : TypeStr} {plan : TypeStr → Plan Strategy}
    (h : OnlyMatch m s (.cls plan)) (n : Nat) :
    getStrategyFuel m (n + 1) s = (plan s).exec (getStrategyFuel m n) := by
  rw [getStrategyFuel, (getRegistration_ok _ _ _).2 ((find_iff _ _ _).2 h)]

theorem array_factory {s w : TypeStr} {dim : Option Nat} (hs : Wellformed s) (hw : DerivesDims [dim] w)
    (hn : arrNumsOk [dim] = true) : factoryPlan getArrayStrategy (s ++ w) = .ask s fun S =>
      match dim with
      | none => .ret (.ok (.lists S 0 none))
      | some n => .ret (.ok (.lists S n (some n))) := by
  obtain ⟨t, h1, h2, h3, h4⟩ := wellformed_iff.1 hs
  obtain ⟨u, hu1, hu2, hu3⟩ := (array_ask hs hw hn).1
  have hu : u = addDim t dim := derives_unique (parse_ok_iff.1 hu1).1 (derives_addDim h1 hw)
  subst hu
  unfold factoryPlan
  rw [hu2, hu1]
  simp only [Plan.bindPyM, getArrayStrategy, itemType_addDim, (arrlist_addDim t dim).1, ← derives_str h1]
  cases dim <;> rfl

theorem tuple_factory {ss : List TypeStr} {s : TypeStr} (h : Joined ss s) (hw : ∀ x ∈ ss, Wellformed x) :
    factoryPlan getTupleStrategy (t!"(" ++ s ++ t!")") = .askAll ss fun Ss => .ret (.ok (.tuples Ss)) := by
  obtain ⟨ts, h1, h2, h3, h4, h5⟩ := joined_comps h hw
  have hd : Derives (.tuple ts []) (t!"(" ++ s ++ t!")") := by
    have := Derives.tuple h1 DerivesDims.nil
    rwa [List.append_nil] at this
  obtain ⟨u, hu1, hu2, hu3⟩ := (tuple_ask h hw).1
  have hu : u = .tuple ts [] := derives_unique (parse_ok_iff.1 hu1).1 hd
  subst hu
  unfold factoryPlan
  rw [hu2, hu1]
  simp only [Plan.bindPyM, getTupleStrategy, ← h5]

theorem strategyIs_array {m : Mapping (Reg Strategy)} {s w : TypeStr} {dim : Option Nat} (hs : Wellformed s)
    (hw : DerivesDims [dim] w) (hn : arrNumsOk [dim] = true) {S : Strategy} (h : StrategyIs m s S)
    (ha : ArrayFactory m (s ++ w)) : StrategyIs m (s ++ w) (match dim with
      | none => .lists S 0 none
      | some n => .lists S n (some n)) := by
  obtain ⟨n, h1⟩ := h
  refine ⟨n + 1, fun f hf => ?_⟩
  obtain ⟨f, rfl⟩ : ∃ f', f = f' + 1 := ⟨f - 1, by omega⟩
  have h1 : getStrategyFuel m f s = .ok S := h1 f (by omega)
  show getStrategyFuel m (f + 1) (s ++ w) = _
  rw [strategy_exec ha, array_factory hs hw hn]
  simp only [Plan.exec, h1]
  cases dim <;> rfl

theorem strategyIs_tuple {m : Mapping (Reg Strategy)} {ss : List TypeStr} {s : TypeStr} (h : Joined ss s)
    (hw : ∀ x ∈ ss, Wellformed x) {Ss : List Strategy} (hS : List.Forall₂ (StrategyIs m) ss Ss)
    (ha : TupleFactory m (t!"(" ++ s ++ t!")")) : StrategyIs m (t!"(" ++ s ++ t!")") (.tuples Ss) := by
  obtain ⟨n, h1⟩ := comesTo_all (look := fun n s => getStrategyFuel m n s) hS
  refine ⟨n + 1, fun f hf => ?_⟩
  obtain ⟨f, rfl⟩ : ∃ f', f = f' + 1 := ⟨f - 1, by omega⟩
  show getStrategyFuel m (f + 1) _ = _
  rw [strategy_exec ha, tuple_factory h hw, exec_askAll_ok (h1 f (by omega))]
  rfl

/-- What is shown of a type string. -/
def SampledOk (g : Registry) (m : Mapping (Reg Strategy)) (item : Bool) (s : TypeStr) : Prop :=
  Wellformed s ∧ ∃ e S, EncoderIs g s e ∧ StrategyIs m s S ∧ Fitting item S e

def SampledCompsOk (g : Registry) (m : Mapping (Reg Strategy)) (s : TypeStr) : Prop :=
  ∃ ss es Ss, Joined ss s ∧ (∀ x ∈ ss, Wellformed x) ∧ List.Forall₂ (EncoderIs g) ss es ∧
    List.Forall₂ (StrategyIs m) ss Ss ∧ ∀ os, List.Forall₂ (fun (S : Strategy) o => S o) Ss os →
      ∃ vs, Strategy.drawAll os = .ok vs ∧ vs.length = es.length ∧ tupleValidateItems vs es = .ok ()

omit [Ext] in
theorem accepted_validate {e : Encoder} {v : PyVal} (h : Accepted false e v) : validateOrCall e v = .ok () := by
  unfold validateOrCall
  unfold Accepted at h
  rw [validation_eq] at h
  rcases h with h | ⟨_, h, b, hb⟩
  · rw [h]
  · rw [h]; simp only [hb, ok_bind]; rfl

omit [Ext] in
theorem accepted_item {e : Encoder} {v : PyVal} (h : Accepted true e v) : e.validateValue v = .ok () := by
  rcases h with h | ⟨h, _⟩
  · exact h
  · cases h

theorem sampled_ok {g : Registry} {m : Mapping (Reg Strategy)} {item : Bool} {s : TypeStr}
    (h : Sampled g m item s) : SampledOk g m item s := by
  refine Sampled.rec (motive_1 := fun item s _ => SampledOk g m item s)
    (motive_2 := fun s _ => SampledCompsOk g m s) ?_ ?_ ?_ ?_ ?_ ?_ h
  · intro item s e S h1 h2 h3 h4
    exact ⟨h1, e, S, h2, h3, h4⟩
  · rintro item s k e _ h2 h3 h4 h5 h6 h7 ⟨h1, e', S, i1, i2, i3⟩
    obtain rfl := encoderIs_unique i1 h2
    obtain ⟨d, h3⟩ := Option.ne_none_iff_exists'.1 h3
    have hw := dims_one h4
    have hno : arrNumsOk [some k] = true := by simp [arrNumsOk, h5]
    rw [List.append_assoc, List.append_assoc, ← List.append_assoc (t!"[")] at h6 h7 ⊢
    have hE : mkArray (some k) e' = .ok { isDynamic := some d
                                          validate := some (sizedArrayValidate e' (some k))
                                          call := encodeElements (sizedArrayValidate e' (some k)) e' } := by
      simp only [mkArray, mkSizedArray, h3]
    refine ⟨(array_ask h1 hw hno).1, _, _, encoderIs_array h1 hw hno h2 h6 hE,
      strategyIs_array h1 hw hno i2 h7, ?_⟩
    rintro o ⟨os, g1, g2, g3, rfl⟩
    obtain ⟨vs, j1, j2, j3⟩ := drawAll_each fun o ho => i3 o (g3 o ho)
    refine ⟨.list vs, by rw [j1]; rfl, .inl ?_⟩
    show sizedArrayValidate e' (some k) (.list vs) = .ok ()
    refine sizedArrayValidate_ok.2 ⟨vs, rfl, fun u hu => accepted_item (j3 u hu), fun n hn => ?_⟩
    injection hn with hn
    have := g2 k rfl
    omega
  · rintro item s _ h6 h7 ⟨h1, e, S, i1, i2, i3⟩
    have hw : DerivesDims [none] t!"[]" := DerivesDims.dynamic DerivesDims.nil
    have hno : arrNumsOk [none] = true := rfl
    refine ⟨(array_ask h1 hw hno).1, _, _, encoderIs_array h1 hw hno i1 h6 rfl,
      strategyIs_array h1 hw hno i2 h7, ?_⟩
    rintro o ⟨os, g1, g2, g3, rfl⟩
    obtain ⟨vs, j1, j2, j3⟩ := drawAll_each fun o ho => i3 o (g3 o ho)
    refine ⟨.list vs, by rw [j1]; rfl, .inl ?_⟩
    show arrayValidate e (.list vs) = .ok ()
    exact arrayValidate_ok.2 ⟨vs, rfl, fun u hu => accepted_item (j3 u hu)⟩
  · rintro item s _ h6 h7 ⟨ss, es, Ss, g1, g2, g3, g4, g5⟩
    refine ⟨(tuple_ask g1 g2).1, _, _, encoderIs_tuple g1 g2 g3 h6, strategyIs_tuple g1 g2 g4 h7, ?_⟩
    rintro o ⟨os, i1, rfl⟩
    obtain ⟨vs, j1, j2, j3⟩ := g5 os i1
    refine ⟨.tuple vs, by rw [j1]; rfl, .inl ?_⟩
    show tupleValidate es (.tuple vs) = .ok ()
    simp only [tupleValidate, asListLike?, j2, ne_eq, not_true_eq_false, if_false, j3]
  · rintro s _ ⟨h1, e, S, i1, i2, i3⟩
    refine ⟨[s], [e], [S], .one, ?_, .cons i1 .nil, .cons i2 .nil, fun os hos => ?_⟩
    · intro y hy; rw [List.mem_singleton.1 hy]; exact h1
    · cases hos with
      | cons j1 j2 =>
        cases j2
        obtain ⟨v, rfl, hv⟩ := i3 _ j1
        refine ⟨[v], rfl, rfl, ?_⟩
        simp only [tupleValidateItems, accepted_validate hv, ok_bind]
  · rintro s s' _ _ ⟨h1, e, S, i1, i2, i3⟩ ⟨ss, es, Ss, g1, g2, g3, g4, g5⟩
    refine ⟨s :: ss, e :: es, S :: Ss, .cons g1, ?_, .cons i1 g3, .cons i2 g4, fun os hos => ?_⟩
    · intro y hy
      rcases List.mem_cons.1 hy with rfl | hy
      · exact h1
      · exact g2 y hy
    · cases hos with
      | cons j1 j2 =>
        obtain ⟨v, rfl, hv⟩ := i3 _ j1
        obtain ⟨vs, k1, k2, k3⟩ := g5 _ j2
        refine ⟨v :: vs, ?_, by simp [k2], ?_⟩
        · simp only [Strategy.drawAll, k1, ok_bind]; rfl
        · simp only [tupleValidateItems, accepted_validate hv, ok_bind, k3]

/-! ## The strategies of the library -/

theorem spick_ret {b : List Char} {sub : Sub} {v : Reg Strategy} {s : TypeStr}
    (hm : strategyRegistry.getRegistration s = .ok v) (hp : parse s = .ok (.basic b sub [])) :
    (∃ S, v = .obj S) ∨ ∃ plan, v = .cls plan ∧ ∀ s, ∃ r, plan s = .ret r := by
  have key : ∀ f : ABIType → PyM Strategy, ∀ s, ∃ r, factoryPlan (fun t => .ret (f t)) s = .ret r := by
    intro f s
    unfold factoryPlan
    cases parse (normalize s) with
    | error e => exact ⟨_, rfl⟩
    | ok t => exact ⟨_, rfl⟩
  rw [strategyRegistry, strategyRegs, getStrategy_parsed 200 _ _ _ _ _ _ _ _ _ _ _ _ hp] at hm
  simp only [spick] at hm
  split at hm
  · next w hv =>
    injection hm with hm
    subst hm
    repeat' split at hv
    all_goals first
      | (cases hv; done)
      | (cases hv; exact .inl ⟨_, rfl⟩)
      | (cases hv; exact .inr ⟨_, rfl, key _⟩)
  · cases hm

theorem strategyIs_builtin {m : Mapping (Reg Strategy)} {s : TypeStr} (hd : DefaultStrategy m s)
    {b : List Char} {sub : Sub} (hp : parse s = .ok (.basic b sub [])) {t : Ty} (hs : Supported s t)
    (hsp : Spells false s t) : StrategyIs m s (stratOf t) := by
  obtain ⟨xs, h1, h2⟩ := hd
  have h3 : getStrategyFuel strategyRegistry (s.length + 1) s = .ok (stratOf t) := by
    rcases getAbiStrategy_supported hs with ⟨_, h⟩ | ⟨h, _⟩
    · exact h
    · exact absurd hsp h
  rw [getStrategyFuel] at h3
  refine ⟨1, fun f hf => ?_⟩
  obtain ⟨f, rfl⟩ : ∃ f', f = f' + 1 := ⟨f - 1, by omega⟩
  show getStrategyFuel m (f + 1) s = _
  cases hr : strategyRegistry.getRegistration s with
  | error e => rw [hr] at h3; cases h3
  | ok v =>
    have hm := onlyMatch_extend ((find_iff _ _ _).1 ((getRegistration_ok _ _ _).1 hr)) h1 h2
    rw [hr] at h3
    rw [getStrategyFuel, (getRegistration_ok _ _ _).2 ((find_iff _ _ _).2 hm)]
    rcases spick_ret hr hp with ⟨S, rfl⟩ | ⟨plan, rfl, hplan⟩
    · exact h3
    · obtain ⟨r, hpr⟩ := hplan s
      simp only [hpr, Plan.exec] at h3 ⊢
      exact h3

theorem array_default {m : Mapping (Reg Strategy)} {s : TypeStr} (hd : DefaultStrategy m s) {a : ABIType}
    (hp : parse s = .ok a) (ha : a.isArray = true) : ArrayFactory m s := by
  obtain ⟨xs, h1, h2⟩ := hd
  refine onlyMatch_extend ((find_iff _ _ _).1 ((getRegistration_ok _ _ _).1 ?_)) h1 h2
  rw [strategyRegistry, strategyRegs, getStrategy_parsed 200 _ _ _ _ _ _ _ _ _ _ _ _ hp]
  rcases a with ⟨b, sub, (_ | ⟨d, ds⟩)⟩ | ⟨cs, (_ | ⟨d, ds⟩)⟩
  · cases ha
  · rfl
  · cases ha
  · rfl

theorem tuple_default {m : Mapping (Reg Strategy)} {s : TypeStr} (hd : DefaultStrategy m s)
    {cs : List ABIType} (hp : parse s = .ok (.tuple cs [])) : TupleFactory m s := by
  obtain ⟨xs, h1, h2⟩ := hd
  refine onlyMatch_extend ((find_iff _ _ _).1 ((getRegistration_ok _ _ _).1 ?_)) h1 h2
  rw [strategyRegistry, strategyRegs, getStrategy_parsed 200 _ _ _ _ _ _ _ _ _ _ _ _ hp]
  rfl

end EthAbi
