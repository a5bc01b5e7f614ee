import Verif.Lemmas.PegTree
import Verif.Props.Grammar

/-!
# C94: ordered choice and the visitor

`Model/Peg.lean` has the grammar as data, as it is written in the code, the interpreter that builds a parse tree, and the visitor.
`Derives` (`Spec/Grammar.lean`) is the grammar without any order, priority or greed.
-/
namespace EthAbi
open Spec

/-- **C94** (nothing is lost).  Ordered choice and greedy repetition find a tree for all of a string exactly if the string can be
derived at all. -/
theorem C94_language [Ext] (s : TypeStr) {fuel : Nat} (h : Peg.depth s ≤ fuel) :
    (∃ n, Peg.run fuel (.ref .type) s = some (n, [])) ↔ ∃ t, Derives t s := by
  have hr := Peg.type_run s.length s (Nat.le_refl _) fuel (s.length + 1) h (Nat.lt_succ_self _)
  have key : (∃ t, pType (s.length + 1) s = some (t, [])) ↔ ∃ t, Derives t s := by
    constructor
    · rintro ⟨t, ht⟩
      by_cases hn : t.numsOk = true
      · exact ⟨t, (parse_ok_iff.1 (show parse s = .ok t by simp [parse, ht, hn])).1⟩
      · rcases parse_error (show parse s = .error .visitationError by simp [parse, ht, hn]) with ⟨_, t, ht, _⟩ | ⟨_, h⟩
        · exact ⟨t, ht⟩
        · split at h <;> cases h
    · rintro ⟨t, ht⟩
      cases hp : pType (s.length + 1) s with
      | none =>
        exfalso
        rcases parse_error (show parse s = .error (if hasEmptyParens s then .valueError else .parseError) by
          simp only [parse, hp]; split <;> rfl) with ⟨h, _⟩ | ⟨h, _⟩
        · split at h <;> cases h
        · exact h t ht
      | some x =>
        obtain ⟨u, r⟩ := x
        cases r with
        | nil => exact ⟨u, rfl⟩
        | cons c r =>
          exfalso
          rcases parse_error (show parse s = .error (if hasEmptyParens s then .valueError else .parseError) by
            simp only [parse, hp]; split <;> rfl) with ⟨h, _⟩ | ⟨h, _⟩
          · split at h <;> cases h
          · exact h t ht
  rw [← key]
  cases hp : pType (s.length + 1) s with
  | none =>
    rw [hp] at hr
    have hr' : Peg.run fuel (.ref .type) s = none := hr
    simp [hr']
  | some x =>
    obtain ⟨t, r⟩ := x
    rw [hp] at hr
    obtain ⟨-, n, e, -⟩ := hr
    simp [e]

/-- **C94** (the tree).  The text of each node of the tree is what stands at its leaves, from left to right, and the text of the
root is the part of the string that was matched. -/
theorem C94_tree [Ext] {s r : TypeStr} {fuel : Nat} {n : Peg.Node} (h : Peg.run fuel (.ref .type) s = some (n, r)) :
    s = leaves n ++ r ∧ n.text = leaves n ∧ TextsFit n := by
  obtain ⟨h1, h2⟩ := Peg.run_fit fuel _ _ _ _ h
  rw [Peg.text_eq h2]
  exact ⟨h1, rfl, h2⟩

/-- **C94** (the visitor).  The visitor makes of the tree for a string the type that is derived, and raises nothing, unless
there is a run of digits that `int` refuses. -/
theorem C94_visitor [Ext] {s : TypeStr} {fuel : Nat} {n : Peg.Node} {t : ABIType} (h : Peg.depth s ≤ fuel)
    (hn : Peg.run fuel (.ref .type) s = some (n, [])) (ht : Derives t s) :
    (DigitRunsFit s → Peg.visit n = .ok (.type t)) ∧ (¬ DigitRunsFit s → Peg.visit n = .error .visitationError) := by
  have hr := Peg.type_run s.length s (Nat.le_refl _) fuel (s.length + 1) h (Nat.lt_succ_self _)
  cases hp : pType (s.length + 1) s with
  | none =>
    rw [hp] at hr
    have hr' : Peg.run fuel (.ref .type) s = none := hr
    rw [hr'] at hn; cases hn
  | some x =>
    obtain ⟨u, r⟩ := x
    rw [hp] at hr
    obtain ⟨-, n', e, v, -⟩ := hr
    rw [hn] at e
    cases e
    by_cases hu : u.numsOk = true
    · have hpar : parse s = .ok u := by simp [parse, hp, hu]
      obtain ⟨hd, hf⟩ := (C21_parse s u).1 hpar
      cases C21_unique hd ht
      exact ⟨fun _ => by rw [v]; simp [Peg.typeV, hu], fun h => absurd hf h⟩
    · have hpar : parse s = .error .visitationError := by simp [parse, hp, hu]
      refine ⟨fun hf => ?_, fun _ => by rw [v]; simp [Peg.typeV, hu]⟩
      rw [(C21_parse s t).2 ⟨ht, hf⟩] at hpar
      cases hpar

/-- **C94** (`parse`).  Matching the grammar and visiting the tree is the `parse` of all other properties. -/
theorem C94_parse [Ext] (s : TypeStr) {fuel : Nat} (h : Peg.depth s ≤ fuel) :
    Peg.parse fuel s = Peg.Res.type <$> parse s := by
  have hr := Peg.type_run s.length s (Nat.le_refl _) fuel (s.length + 1) h (Nat.lt_succ_self _)
  unfold Peg.parse parse
  cases hp : pType (s.length + 1) s with
  | none =>
    rw [hp] at hr
    have hr' : Peg.run fuel (.ref .type) s = none := hr
    rw [hr']
    simp only
    split <;> rfl
  | some x =>
    obtain ⟨t, r⟩ := x
    rw [hp] at hr
    obtain ⟨-, n, e, v, -⟩ := hr
    have e' : Peg.run fuel (.ref .type) s = some (n, r) := e
    rw [e']
    cases r with
    | nil =>
      simp only
      rw [v]
      unfold Peg.typeV
      by_cases ht : t.numsOk = true <;> simp [ht] <;> rfl
    | cons c r =>
      simp only
      split <;> rfl

/-! ## Cases -/

/-- `fixed128x18`: with the alternatives of `sub` in the other order, `x18` would be left over. -/
example : (∃ n, @Peg.run Ex.ext (Peg.depth t!"fixed128x18[]") (.ref .type) t!"fixed128x18[]" = some (n, [])) ∧
    @Peg.parse Ex.ext (Peg.depth t!"fixed128x18[]") t!"fixed128x18[]" =
      .ok (.type (.basic t!"fixed" (.two 128 18) [none])) :=
  letI := Ex.ext
  ⟨(C94_language _ (Nat.le_refl _)).2 ⟨_, ((C21_parse t!"fixed128x18[]" (.basic t!"fixed" (.two 128 18) [none])).1 rfl).1⟩,
    by rw [C94_parse _ (Nat.le_refl _)]; rfl⟩

/-- The texts of the tree of `(a,b)[2]`: the root, `tuple_type`, its components. -/
example : (match @Peg.run Ex.ext (Peg.depth t!"(a,b)[2]") (.ref .type) t!"(a,b)[2]" with
    | some (.mk _ _ w [.mk _ _ w' [c, d]], []) => some (w, w', c.text, d.text)
    | _ => none) = some (t!"(a,b)[2]", t!"(a,b)[2]", t!"(a,b)", t!"[2]") := by
  decide +kernel

/-- A dangling bracket: the tree ends before it, so `parse` raises `ParseError`. -/
example : (@Peg.run Ex.ext (Peg.depth t!"uint8[") (.ref .type) t!"uint8[").map (fun x => (x.1.text, x.2)) =
    some (t!"uint8", t!"[") ∧ @Peg.parse Ex.ext (Peg.depth t!"uint8[") t!"uint8[" = .error .parseError :=
  letI := Ex.ext
  ⟨by decide +kernel, by rw [C94_parse _ (Nat.le_refl _)]; rfl⟩

end EthAbi
