import Verif.Lemmas.Entries
import Verif.Props.Registrations

/-! # C56: a registry is a list of entries -/
namespace EthAbi
open Spec

/-- What the six calls that change a registry return or raise, after any history: what the entries say. -/
theorem C56_outcomes_partial [Ext] (h : History) (hd : Shelf.Direct [] h) {r : Nat}
    {b : List (Entry (Reg Encoder)) × List (Entry (Reg Decoder))} (hb : (Shelf.run [] h)[r]? = some b) :
    let w := World.empty.run h
    (∀ l e label, (w.registerEncoder r l e label).1 = (Entries.register b.1 l e label).1) ∧
    (∀ l, (w.unregisterEncoder r l).1 = (Entries.unregister b.1 l).1) ∧
    (∀ l d label, (w.registerDecoder r l d label).1 = (Entries.register b.2 l d label).1) ∧
    (∀ l, (w.unregisterDecoder r l).1 = (Entries.unregister b.2 l).1) ∧
    (∀ l e d label, (w.register r l e d label).1 =
      do (Entries.register b.1 l e label).1; (Entries.register b.2 l d label).1) ∧
    (∀ l, (w.unregister r l).1 = do (Entries.unregister b.1 l).1; (Entries.unregister b.2 l).1) := by
  obtain ⟨g, hg, hh⟩ := holds_of hd hb
  have ho := out_eq (has_of hg)
  refine ⟨fun l e label => ?_, fun l => ?_, fun l d label => ?_, fun l => ?_, fun l e d label => ?_, fun l => ?_⟩
  · rw [ho.1, regStep_out hh]; rfl
  · rw [ho.2.1, regStep_out hh]; rfl
  · rw [ho.2.2.1, regStep_out hh]; rfl
  · rw [ho.2.2.2.1, regStep_out hh]; rfl
  · rw [ho.2.2.2.2.1, regStep_out hh]
    simp only [onEntries]
    rcases Entries.register b.1 l e label with ⟨o, x⟩
    cases o <;> rfl
  · rw [ho.2.2.2.2.2, regStep_out hh]
    simp only [onEntries]
    rcases Entries.unregister b.1 l with ⟨o, x⟩
    cases o <;> rfl

/-- Lookups of encoders go by the entries: a callable or a class that needs no other coder is served if it is the
only match, without a match a type string is refused, and so it is with two. -/
theorem C56_encoders_partial [Ext] (h : History) (hd : Shelf.Direct [] h) {r : Nat}
    {b : List (Entry (Reg Encoder)) × List (Entry (Reg Decoder))} (hb : (Shelf.run [] h)[r]? = some b)
    (fuel : Nat) (s : TypeStr) :
    let look := ((World.empty.run h).getEncoder (fuel + 1) r s).1
    (∀ e, Entries.OneMatches b.1 s (.obj e) → look = .ok e) ∧
    (∀ plan o, Entries.OneMatches b.1 s (.cls plan) → plan s = .ret o → o ≠ .error .recursionError → look = o) ∧
    (∀ t, parse s = .ok t → (∀ e ∈ b.1, e.matcher.matches s = .ok false) → look = .error .noEntriesFound) ∧
    (∀ t, parse s = .ok t → (∀ e ∈ b.1, ∃ a, e.matcher.matches s = .ok a) →
      ∀ x y z e f, b.1 = x ++ e :: y ++ f :: z → e.matcher.matches s = .ok true →
        f.matcher.matches s = .ok true → look = .error .multipleEntriesFound) := by
  obtain ⟨g, hg, hh⟩ := holds_of hd hb
  refine ⟨fun e ho => ?_, fun plan o ho hp hne => ?_, fun t ht hn => ?_, fun t ht ha x y z e f hxy he hf => ?_⟩
  · exact (C27_encoder_served h hg fuel s).1 e (onlyMatch_of hh.1 ho)
  · have := (C27_encoder_served h hg fuel s).2 plan (onlyMatch_of hh.1 ho)
    rw [hp] at this
    exact this hne
  · have := (C27_none h hg fuel s .absent).1 (by
      intro q hq
      rw [hh.1.values] at hq
      obtain ⟨e, he, rfl⟩ := List.mem_map.1 hq
      exact hn e he) (by rw [ht]; simp)
    rw [ht] at this
    exact this
  · refine (C27_multiple_partial h hg fuel s .absent (Or.inr ⟨t, ht⟩)).1 ?_ ?_
    · intro q hq
      rw [hh.1.values] at hq
      obtain ⟨e, he, rfl⟩ := List.mem_map.1 hq
      exact ha e he
    · refine ⟨valuesOf x, (e.matcher, e.coder), valuesOf y, (f.matcher, f.coder), valuesOf z, ?_, he, hf⟩
      rw [hh.1.values, hxy]
      simp [valuesOf]

/-- The same for decoders. -/
theorem C56_decoders_partial [Ext] (h : History) (hd : Shelf.Direct [] h) {r : Nat}
    {b : List (Entry (Reg Encoder)) × List (Entry (Reg Decoder))} (hb : (Shelf.run [] h)[r]? = some b)
    (fuel : Nat) (s : TypeStr) (a : StrictArg) :
    let look := ((World.empty.run h).getDecoder (fuel + 1) r s a).1
    (∀ d, Entries.OneMatches b.2 s (.obj d) → look = .ok (d.setStrict a.value)) ∧
    (∀ plan d, Entries.OneMatches b.2 s (.cls plan) → plan s = .ret (.ok d) → look = .ok (d.setStrict a.value)) ∧
    (∀ t, parse s = .ok t → (∀ e ∈ b.2, e.matcher.matches s = .ok false) → look = .error .noEntriesFound) ∧
    (∀ t, parse s = .ok t → (∀ e ∈ b.2, ∃ a, e.matcher.matches s = .ok a) →
      ∀ x y z e f, b.2 = x ++ e :: y ++ f :: z → e.matcher.matches s = .ok true →
        f.matcher.matches s = .ok true → look = .error .multipleEntriesFound) := by
  obtain ⟨g, hg, hh⟩ := holds_of hd hb
  refine ⟨fun e ho => ?_, fun plan d ho hp => ?_, fun t ht hn => ?_, fun t ht ha x y z e f hxy he hf => ?_⟩
  · exact (C27_decoder_served h hg fuel s a e).1 (onlyMatch_of hh.2 ho)
  · have := (C27_decoder_served h hg fuel s a d).2 plan (onlyMatch_of hh.2 ho)
    rw [hp] at this
    exact this rfl
  · have := (C27_none h hg fuel s a).2 (by
      intro q hq
      rw [hh.2.values] at hq
      obtain ⟨e, he, rfl⟩ := List.mem_map.1 hq
      exact hn e he) (by rw [ht]; simp)
    rw [ht] at this
    exact this
  · refine (C27_multiple_partial h hg fuel s a (Or.inr ⟨t, ht⟩)).2 ?_ ?_
    · intro q hq
      rw [hh.2.values] at hq
      obtain ⟨e, he, rfl⟩ := List.mem_map.1 hq
      exact ha e he
    · refine ⟨valuesOf x, (e.matcher, e.coder), valuesOf y, (f.matcher, f.coder), valuesOf z, ?_, he, hf⟩
      rw [hh.2.values, hxy]
      simp [valuesOf]

/-- All of this holds of histories that unregister by label only. -/
theorem C56_by_label (h : History) (hl : ByLabel h) : Shelf.Direct [] h := direct_of_byLabel h hl []

/-- The history of a registry where `BaseEquals("foo")` is registered with the label `"f"` and unregistered with an
equal matcher that is not the same object. -/
def Ex.dangling : History :=
  [(9, .new), (9, .registerEncoder 0 (.pred ⟨1, .baseEquals t!"foo" none⟩) (.obj ⟨none, none, fun _ => .ok [1]⟩)
      (some t!"f")),
    (9, .unregisterEncoder 0 (.pred ⟨2, .baseEquals t!"foo" none⟩))]

/-- Without the condition on `unregister` calls it is false: the entry is gone, yet its label is refused. -/
theorem C56_label_false : ¬ ∀ [Ext] (h : History) (r : Nat)
    (b : List (Entry (Reg Encoder)) × List (Entry (Reg Decoder))), (Shelf.run [] h)[r]? = some b →
    ∀ l e label, ((World.empty.run h).registerEncoder r l e label).1 = (Entries.register b.1 l e label).1 := by
  intro hall
  have := @hall Ex.ext Ex.dangling 0 _ rfl (.pred ⟨3, .baseEquals t!"bar" none⟩)
    (.obj ⟨none, none, fun _ => .ok [2]⟩) (some t!"f")
  revert this
  let := Ex.ext
  decide +kernel

/-- The registry of strategies is a list of entries too, for any calls on a new registry: what its methods return
or raise, and which strategies `get_strategy` finds. -/
theorem C56_strategies_partial [Ext] (h : List StrategyOp) (hd : strategyDirect [] h) :
    let m := strategyRun Mapping.empty h
    let b := strategyBook [] h
    (∀ op, (strategyStep m op).1 = (strategyEntries b op).1) ∧
    ∀ fuel s,
      (∀ S, Entries.OneMatches b s (.obj S) → getStrategyFuel m (fuel + 1) s = .ok S) ∧
      (∀ t f S, Entries.OneMatches b s (.cls (factoryPlan f)) → parse (normalize s) = .ok t → f t = .ret S →
        getStrategyFuel m (fuel + 1) s = S) ∧
      (∀ t, parse s = .ok t → (∀ e ∈ b, e.matcher.matches s = .ok false) →
        getStrategyFuel m (fuel + 1) s = .error .noEntriesFound) := by
  have hh := strategy_holds h holds_empty hd
  refine ⟨fun op => ?_, fun fuel s => ⟨fun S ho => ?_, fun t f S ho ht hf => ?_, fun t ht hn => ?_⟩⟩
  · cases op with
    | registerStrategy l v label => exact (hh.register l v label).1
    | unregisterStrategy l => exact hh.unregister_out l
  · rw [getStrategyFuel, (getRegistration_ok _ _ _).2 ((find_iff _ _ _).2 (onlyMatch_of hh ho))]
  · rw [getStrategyFuel, (getRegistration_ok _ _ _).2 ((find_iff _ _ _).2 (onlyMatch_of hh ho))]
    simp only [factoryPlan, ht, Plan.bindPyM, hf]
    rfl
  · rw [getStrategyFuel]
    unfold Mapping.getRegistration
    rw [find_none _ _ (by
      intro q hq
      rw [hh.values] at hq
      obtain ⟨e, he, rfl⟩ := List.mem_map.1 hq
      exact hn e he)]
    rw [ht]
    rfl

/-! ## Examples -/

/-- A registry with a label, a string and an unlabelled matcher, one of which is unregistered by its label and one
by the matcher object itself. -/
def Ex.entries : History :=
  [(9, .new), (9, .register 0 (.str t!"foo" 1) (.obj ⟨none, none, fun _ => .ok [1]⟩)
      (.obj ⟨none, false, none, .own true, fun _ _ s => .ok (.int 1, s)⟩) none),
    (9, .registerEncoder 0 (.pred ⟨2, .baseEquals t!"bar" none⟩) (.obj ⟨none, none, fun _ => .ok [2]⟩)
      (some t!"b")),
    (9, .registerEncoder 0 (.pred ⟨3, .baseEquals t!"baz" none⟩) (.obj ⟨none, none, fun _ => .ok [3]⟩) none),
    (9, .copy 0), (9, .unregisterEncoder 0 (.str t!"foo" 4)),
    (9, .unregisterEncoder 0 (.pred ⟨2, .baseEquals t!"bar" none⟩)),
    (9, .unregisterEncoder 0 (.pred ⟨5, .baseEquals t!"baz" none⟩))]

theorem Ex.entries_direct : Shelf.Direct [] Ex.entries := direct_of_B _ _ (by decide +kernel)

example : letI := Ex.ext
    ∃ b c, (Shelf.run [] Ex.entries)[0]? = some b ∧ (Shelf.run [] Ex.entries)[1]? = some c ∧
      b.1.map (·.label) = [] ∧ b.2.map (·.label) = [some t!"foo"] ∧
      c.1.map (·.label) = [some t!"foo", some t!"b", none] ∧
      Entries.OneMatches c.1 t!"bar8" (.obj ⟨none, none, fun _ => .ok [2]⟩) := by
  letI := Ex.ext
  exact ⟨_, _, rfl, rfl, by decide +kernel, by decide +kernel, by decide +kernel, [_], _, [_], rfl, rfl, by rfl,
    fun e he => by
      change e ∈ [_, _] at he
      rcases List.mem_cons.1 he with rfl | he
      · rfl
      · rw [List.mem_singleton.1 he]; rfl⟩

example : letI := Ex.ext
    let w := World.empty.run Ex.entries
    (w.unregister 1 (.str t!"b" 7)).1 = .error .keyError ∧ (w.unregister 1 (.str t!"foo" 7)).1 = .ok () ∧
      (w.unregister 1 .other).1 = .error .typeError ∧
      (w.registerEncoder 1 (.str t!"b" 7) (.obj ⟨none, none, fun _ => .ok [4]⟩) none).1 = .error .valueError ∧
      (w.registerEncoder 0 (.str t!"b" 7) (.obj ⟨none, none, fun _ => .ok [4]⟩) none).1 = .ok () := by
  decide +kernel

example : letI := Ex.ext
    let h : List StrategyOp := [.registerStrategy (.str t!"foo" 0) (.obj .booleans) none,
      .registerStrategy (.pred ⟨1, .baseEquals t!"bar" none⟩) (.obj .text) (some t!"b"),
      .unregisterStrategy (.str t!"foo" 2)]
    strategyDirect [] h ∧ Entries.OneMatches (strategyBook [] h) t!"bar8" (.obj .text) := by
  letI := Ex.ext
  exact ⟨⟨trivial, trivial⟩, [], _, [], rfl, rfl, rfl, fun e he => by cases he⟩

example : ByLabel [(9, .new), (9, .registerEncoder 0 (.str t!"b" 7) (.obj ⟨none, none, fun _ => .ok [4]⟩) none),
    (9, .unregisterEncoder 0 (.str t!"b" 8))] := by
  intro c hc
  simp only [List.mem_cons, List.not_mem_nil, or_false] at hc
  rcases hc with rfl | rfl | rfl <;> trivial

end EthAbi
