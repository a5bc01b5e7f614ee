import Verif.Lemmas.ParseCache
import Verif.Lemmas.Normalize
import Verif.Props.Examples
import Verif.Props.Grammar

/-! # C69: the cache of `grammar.parse` -/
namespace EthAbi
open Spec

/-- The parser when the library is imported: nothing cached. -/
def ParseState.start : ParseState := ⟨[], []⟩

/-- C69 (while nobody assigns).  After every history in which types were parsed and made, but no attribute assigned, a
type string gives the same with the cache as without: the same exception, or an object that shows the type of the
string. -/
theorem C69_transparent_partial [Ext] (ops : List TypeOp) (hno : ∀ r o, TypeOp.assign r o ∉ ops) (s : TypeStr) :
    (∀ e, (((ParseState.start.run ops).parse s).1 = .error e ↔ parse s = .error e)) ∧
    (∀ t, parse s = .ok t → ∃ r, ((ParseState.start.run ops).parse s).1 = .ok r ∧
      Shows ((ParseState.start.run ops).parse s).2.heap r t) := by
  have hf : Faithful (ParseState.start.run ops) :=
    Faithful.run (p := ParseState.start) (fun s r h => by cases h) hno
  generalize ParseState.start.run ops = p at hf ⊢
  cases hm : p.cache.lookup s with
  | some r =>
    obtain ⟨t, h1, h2, _⟩ := hf s r hm
    rw [parse_hit hm]
    refine ⟨fun e => ⟨fun h => (by cases h), fun h => (by rw [h1] at h; cases h)⟩, fun t' h => ?_⟩
    rw [h1] at h
    cases h
    exact ⟨r, rfl, h2⟩
  | none =>
    rcases parse_miss hm with ⟨e, h1, h2⟩ | ⟨t, h1, h2⟩ <;> rw [h2]
    · refine ⟨fun e' => ⟨fun h => (by cases h; exact h1), fun h => (by rw [h1] at h; cases h; rfl)⟩, fun t' h => ?_⟩
      rw [h1] at h
      cases h
    · refine ⟨fun e => ⟨fun h => (by cases h), fun h => (by rw [h1] at h; cases h)⟩, fun t' h => ?_⟩
      rw [h1] at h
      cases h
      exact ⟨_, rfl, (buildType_spec t p.heap).2.2.2⟩

/-- C69 (the same object).  Once a type string has been parsed, it gives the very same object for ever, whatever else is
parsed, made or assigned. -/
theorem C69_same_object [Ext] (p : ParseState) (s : TypeStr) (r : Nat) (h : (p.parse s).1 = .ok r)
    (ops : List TypeOp) : ((((p.parse s).2).run ops).parse s).1 = .ok r := by
  have hl : (p.parse s).2.cache.lookup s = some r := by
    cases hm : p.cache.lookup s with
    | some r' =>
      rw [parse_hit hm] at h ⊢
      cases h
      exact hm
    | none =>
      rcases parse_miss hm with ⟨e, _, h2⟩ | ⟨t, _, h2⟩ <;> rw [h2] at h ⊢
      · cases h
      · cases h
        simp
  rw [parse_hit (run_cache ops _ hl)]

/-- C69 (no other object matters).  Say that a string is parsed for the first time, in any state.  Then it goes on giving
an object that shows the type of the string, after every history that assigns to no attribute of that object and of its
components: the results of parsing other strings, and types made by hand, can be changed at will. -/
theorem C69_isolated [Ext] (p : ParseState) (s : TypeStr) (r : Nat) (hnew : p.cache.lookup s = none)
    (h : (p.parse s).1 = .ok r) (ops : List TypeOp)
    (hops : ∀ r' o, TypeOp.assign r' o ∈ ops → ¬ Within (p.parse s).2.heap r r') :
    ∃ t, parse s = .ok t ∧ ((((p.parse s).2).run ops).parse s).1 = .ok r ∧
      Shows ((((p.parse s).2).run ops).parse s).2.heap r t := by
  refine (parse_miss hnew).elim (fun ⟨e, _, h2⟩ => (by rw [h2] at h; cases h)) fun ⟨t, h1, h2⟩ => ?_
  have hsame := C69_same_object p s r h ops
  refine ⟨t, h1, hsame, ?_⟩
  have hl : (p.parse s).2.cache.lookup s = some r := by
    rw [h2] at h ⊢
    cases h
    simp
  rw [parse_hit (run_cache ops _ hl)]
  obtain ⟨b1, b2, b3, b4⟩ := buildType_spec t p.heap
  rw [h2] at h hops ⊢
  cases h
  exact shows_congr b4 fun r' hw =>
    run_get ops _ (b1.within b2 b3 hw).2 fun o ho => hops r' o ho hw

/-- C69 (nothing shared).  The objects made for one string and the objects made for another are different ones, whatever
happens in between. -/
theorem C69_disjoint [Ext] (p : ParseState) (s s' : TypeStr) (r r' : Nat) (hnew : p.cache.lookup s = none)
    (h : (p.parse s).1 = .ok r) (ops : List TypeOp) (hnew' : ((p.parse s).2.run ops).cache.lookup s' = none)
    (h' : (((p.parse s).2.run ops).parse s').1 = .ok r') (q : Nat) (hq : Within (p.parse s).2.heap r q) :
    ¬ Within (((p.parse s).2.run ops).parse s').2.heap r' q := by
  intro hq'
  have hlen := run_length ops (p.parse s).2
  generalize (p.parse s).2.run ops = p2 at hnew' h' hq' hlen
  refine (parse_miss hnew).elim (fun ⟨e, _, h2⟩ => (by rw [h2] at h; cases h)) fun ⟨t, h1, h2⟩ => ?_
  refine (parse_miss hnew').elim (fun ⟨e, _, h2⟩ => (by rw [h2] at h'; cases h')) fun ⟨t', h1', h2'⟩ => ?_
  obtain ⟨b1, b2, b3, b4⟩ := buildType_spec t p.heap
  obtain ⟨c1, c2, c3, c4⟩ := buildType_spec t' p2.heap
  rw [h2] at h hq hlen
  rw [h2'] at h' hq'
  cases h
  cases h'
  have h3 := (b1.within b2 b3 hq).2
  have h4 := (c1.within c2 c3 hq').1
  have h5 := Nat.lt_of_lt_of_le h3 hlen
  omega

/-- An object shows one type at most. -/
theorem C69_one_type (h : List TypeObj) (r : Nat) (t t' : ABIType) (h1 : Shows h r t) (h2 : Shows h r t') : t = t' :=
  shows_unique h1 t' h2

/-- C69 is false of the code when somebody assigns.  `parse("uint256").sub = 8`, and from then on `parse("uint256")`
gives, to everybody in the process, an object that shows `uint8`. -/
theorem C69_transparent_false [Ext] : ∃ ops : List TypeOp, ∃ r,
    ((ParseState.start.run ops).parse t!"uint256").1 = .ok r ∧
    Shows ((ParseState.start.run ops).parse t!"uint256").2.heap r (.basic t!"uint" (.one 8) []) ∧
    parse t!"uint256" = .ok (.basic t!"uint" (.one 256) []) := by
  have hp : parse t!"uint256" = .ok (.basic t!"uint" (.one 256) []) := by
    refine parse_ok_iff.2 ⟨?_, ?_⟩
    · exact ((@C21_parse Ex.ext _ _).1 rfl).1
    · simp [ABIType.numsOk, Sub.numsOk, arrNumsOk, numOk_of_lt (n := 256) (by omega)]
  refine ⟨[.parse t!"uint256", .assign 0 (.basic t!"uint" (.one 8) [])], 0, ?_, ?_, hp⟩
  · simp [ParseState.run, ParseState.step, ParseState.parse, hp, ParseState.start, buildType]
  · simp only [ParseState.run, ParseState.step, ParseState.parse, hp, ParseState.start, buildType, List.foldl]
    exact .basic (by simp)

/-! ## The hypotheses are met -/

/-- Two strings parsed, the first one's second component changed: the second string is not affected. -/
example : letI := Ex.ext
    let p := ParseState.start.run [.parse t!"(bool,uint8)", .assign 1 (.basic t!"int" (.one 16) [none])]
    p.cache.lookup t!"(uint8)[2]" = none ∧ (p.parse t!"(uint8)[2]").1 = .ok 4 ∧
    ¬ Within (p.parse t!"(uint8)[2]").2.heap 4 1 ∧ ¬ Within (p.parse t!"(uint8)[2]").2.heap 4 2 := by
  refine ⟨by decide +kernel, by decide +kernel, ?_, ?_⟩ <;>
  · intro h
    cases h with
    | comp e hm hw =>
      cases e
      simp only [List.mem_singleton] at hm
      subst hm
      cases hw with
      | comp e' _ _ => cases e'

/-- What became of the first string. -/
example : letI := Ex.ext
    let p := ParseState.start.run [.parse t!"(bool,uint8)", .assign 1 (.basic t!"int" (.one 16) [none]),
      .parse t!"(uint8)[2]"]
    (p.parse t!"(bool,uint8)").1 = .ok 2 ∧
    Shows (p.parse t!"(bool,uint8)").2.heap 2
      (.tuple [.basic t!"bool" .none [], .basic t!"int" (.one 16) [none]] []) ∧
    Shows (p.parse t!"(uint8)[2]").2.heap 4 (.tuple [.basic t!"uint" (.one 8) []] [some 2]) :=
  ⟨by decide +kernel, .tuple rfl (.cons (.basic rfl) (.cons (.basic rfl) .nil)),
    .tuple rfl (.cons (.basic rfl) .nil)⟩

/-- An exception is raised again. -/
example : letI := Ex.ext
    ((ParseState.start.run [.parse t!"uint08"]).parse t!"uint08").1 = .error .parseError := by
  decide +kernel

end EthAbi
