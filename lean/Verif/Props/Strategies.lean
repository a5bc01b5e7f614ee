import Verif.Props.Examples
import Verif.Lemmas.Draws
import Verif.Lemmas.Accept

/-!
# C39: the hypothesis strategies generate encodable values

A strategy is the set of things a draw can give (Verif/Model/Strategies.lean).
-/
namespace EthAbi
open Spec

/-- **C39, for the types the codec supports.**  Whatever `get_abi_strategy(s)` generates is a value,
and `is_encodable(s, value)` is true of it.  (Missing: strings such as `uint7`, which the strategy
registry accepts and the codec does not; see `C39_false`.) -/
theorem C39_strategies_partial [Ext] {s : TypeStr} {t : Ty} (hs : Supported s t) {S : Strategy}
    (hS : getAbiStrategy s = .ok S) {o : PyM PyVal} (ho : S o) :
    ∃ v, o = .ok v ∧ isEncodable s v = .ok true := by
  rcases getAbiStrategy_supported hs with ⟨_, h⟩ | ⟨_, h⟩
  · rw [h] at hS
    cases hS
    obtain ⟨v, x, rfl, hx⟩ := draw_denotes t (supported_valid hs) o ho
    refine ⟨v, rfl, ?_⟩
    have hok := (encOf_good false t (supported_valid hs)).valOk v x hx
    rcases isEncodable_supported false hs v with ⟨_, h2⟩ | ⟨e, h2, _⟩ | ⟨h2, _⟩ | ⟨h2, _⟩
    · exact h2
    · rw [hok] at h2
      cases h2
    · rw [hok] at h2
      cases h2
    · rw [hok] at h2
      cases h2
  · rw [h] at hS
    cases hS

/-- **C39.**  A type that the codec supports has a strategy unless a `bool` is written with a size
in it. -/
theorem C39_defined [Ext] {s : TypeStr} {t : Ty} (hs : Supported s t) :
    (∃ S, getAbiStrategy s = .ok S) ↔ Spells false s t := by
  rcases getAbiStrategy_supported hs with ⟨h1, h⟩ | ⟨h1, h⟩
  · exact ⟨fun _ => h1, fun _ => ⟨_, h⟩⟩
  · refine ⟨fun ⟨S, hS⟩ => ?_, fun h2 => absurd h2 h1⟩
    rw [h] at hS
    cases hS

/-- **C39.**  The strategies leave nothing out: every value of the type (with at most 4096 bytes in
each `bytes`) is denoted by something that `get_abi_strategy(s)` can generate. -/
theorem C39_covers [Ext] {s : TypeStr} {t : Ty} (hs : Supported s t) {S : Strategy}
    (hS : getAbiStrategy s = .ok S) {x : Val} (hx : Val.Of t x) (hb : ShortBytes t x) :
    ∃ v, S (.ok v) ∧ denote t v = some x := by
  rcases getAbiStrategy_supported hs with ⟨_, h⟩ | ⟨_, h⟩
  · rw [h] at hS
    cases hS
    exact draw_covers t (supported_valid hs) x hx hb
  · rw [h] at hS
    cases hS

theorem getAbiStrategy_uint7 [Ext] : getAbiStrategy t!"uint7" = .ok (.integers 0 127) := by
  have hd : Derives (.basic t!"uint" (.one 7) []) t!"uint7" :=
    derives_base (b := t!"uint") (s := t!"7") (by decide) (.one (numeral_natDigits 7 (by decide)))
  have hn : (ABIType.basic t!"uint" (.one 7) []).numsOk = true := by
    simp [ABIType.numsOk, Sub.numsOk, arrNumsOk, numOk_of_lt (show 7 < 1000 by decide)]
  have hp : parse t!"uint7" = .ok (.basic t!"uint" (.one 7) []) := parse_ok_iff.2 ⟨hd, hn⟩
  have hp' : parse (normalize t!"uint7") = .ok (.basic t!"uint" (.one 7) []) :=
    parse_ok_iff.2 ⟨normalize_type hd, hn⟩
  rw [getAbiStrategy, getStrategyFuel, strategyRegistry, strategyRegs,
    getStrategy_parsed 200 _ _ _ _ _ _ _ _ _ _ _ _ hp]
  simp only [spick, if_true, factoryPlan, hp', Plan.bindPyM]
  rfl

/-- **C39 is false as stated.**  `get_abi_strategy` does not validate the type: `get_abi_strategy("uint7")`
gives a strategy, and nothing it generates is encodable. -/
theorem C39_false [Ext] : ∃ s S, getAbiStrategy s = .ok S ∧ (∃ v, S (.ok v)) ∧
    ∀ v, isEncodable s v = .ok false := by
  refine ⟨t!"uint7", _, getAbiStrategy_uint7, ⟨.int 5, 5, by decide, by decide, rfl⟩, fun v => ?_⟩
  refine isEncodable_unsupported false (fun t ht => ?_) v
  have hd : Derives (.basic t!"uint" (.one 7) []) t!"uint7" :=
    derives_base (b := t!"uint") (s := t!"7") (by decide) (.one (numeral_natDigits 7 (by decide)))
  have hn : (ABIType.basic t!"uint" (.one 7) []).numsOk = true := by
    simp [ABIType.numsOk, Sub.numsOk, arrNumsOk, numOk_of_lt (show 7 < 1000 by decide)]
  have := (found_iff hd hn).2 ht
  revert this
  have e : found (.basic t!"uint" (.one 7) []) t!"uint7" = none := rfl
  rw [e]
  exact fun h => by cases h

/-- **C39, the other way.**  `bool8` is encodable as a type, and has no strategy. -/
theorem C39_bool8 [Ext] : isEncodableType t!"bool8" = .ok true ∧
    getAbiStrategy t!"bool8" = .error .noEntriesFound := by
  have hs : Supported t!"bool8" .bool :=
    ⟨.boolSub (s := t!"8") rfl (.one (numeral_natDigits 8 (by decide))) (numOk_of_lt (by decide)), by decide⟩
  constructor
  · rcases isEncodableType_by false t!"bool8" with ⟨_, h⟩ | ⟨h, _⟩
    · exact h
    · exact absurd hs (h _)
  · rcases getAbiStrategy_supported hs with ⟨h, _⟩ | ⟨_, h⟩
    · generalize hb : t!"bool8" = s at h
      generalize ht : Ty.bool = t at h
      cases h <;> first | (cases ht; done) | (cases hb; done) | skip
      next h _ _ => cases h
    · exact h

/-! ## Concrete cases -/

/-- The hypotheses are met by a nested type: `(uint8,address[2])[]`. -/
example [Ext] : ∃ S, getAbiStrategy t!"(uint8,address[2])[]" = .ok S ∧
    (∃ v, S (.ok v) ∧ denote (.dyn (.tuple [.uint 8, .sized 2 .address])) v =
      some (.seq [.seq [.num 255, .seq [.raw (List.replicate 20 1), .raw (List.replicate 20 171)]]])) ∧
    ∀ o, S o → ∃ v, o = .ok v ∧ isEncodable t!"(uint8,address[2])[]" v = .ok true := by
  have hsp : Spells false t!"(uint8,address[2])[]" (.dyn (.tuple [.uint 8, .sized 2 .address])) :=
    .dyn (s := t!"(uint8,address[2])") (.tuple (s := t!"uint8,address[2]")
      (.cons (s := t!"uint8") (s' := t!"address[2]") (.uint (n := 8) (by decide))
        (.one (.sized (s := t!"address") (k := 2) .address (by decide) (numOk_of_lt (by decide))))))
  have hsp' : Supported t!"(uint8,address[2])[]" (.dyn (.tuple [.uint 8, .sized 2 .address])) :=
    ⟨.dyn (s := t!"(uint8,address[2])") (.tuple (s := t!"uint8,address[2]")
      (.cons (s := t!"uint8") (s' := t!"address[2]") (.uint (n := 8) (by decide))
        (.one (.sized (s := t!"address") (k := 2) .address (by decide) (numOk_of_lt (by decide)))))), by decide⟩
  obtain ⟨S, hS⟩ := (C39_defined hsp').2 hsp
  refine ⟨S, hS, C39_covers hsp' hS ?_ ?_, fun o ho => C39_strategies_partial hsp' hS ho⟩
  · simp [Val.Of, Val.OfAll, fitsU]
  · simp [ShortBytes, ShortBytesAll]

end EthAbi
