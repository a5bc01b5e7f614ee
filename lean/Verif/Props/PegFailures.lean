import Verif.Lemmas.PegFailures
import Verif.Props.Pointing
import Verif.Props.Peg
import Verif.Spec.Recalled

/-!
# C82: the place, from the grammar as data

`Model/PegFailures.lean` records the failures while the grammar of `Model/Peg.lean` is interpreted, expression by expression.
The place that comes of it is the one that `Spec/Pointing.lean` describes.
-/
namespace EthAbi
open Spec

/-- The failures of the grammar as data and those of `Model/Pointing.lean` lead to the same place. -/
theorem pegErrorPos_eq [Ext] (s : TypeStr) {fuel : Nat} (h : Peg.depth s ≤ fuel) : Peg.errorPos fuel s = errorPos s := by
  have hr := Peg.type_run s.length s (Nat.le_refl _) fuel (s.length + 1) h (Nat.lt_succ_self _)
  have hf := Peg.type_fails s.length s (Nat.le_refl _) fuel (s.length + 1) false h (Nat.lt_succ_self _)
  unfold Peg.errorPos EthAbi.errorPos
  cases hp : pType (s.length + 1) s with
  | none =>
    rw [hp] at hr
    have hr' : Peg.run fuel (.ref .type) s = none := hr
    rw [hr', hf]
  | some x =>
    obtain ⟨t, r⟩ := x
    rw [hp] at hr
    obtain ⟨-, n, e, -⟩ := hr
    have e' : Peg.run fuel (.ref .type) s = some (n, r) := e
    rw [e']
    cases r <;> rfl

/-- **C82** (the grammar as data).  If a string is no type string, then the failure that is kept while the grammar, as it is
written, is interpreted on the string is at the place described, and at no other. -/
theorem C82_grammar [Ext] {s : TypeStr} {fuel k : Nat} (hf : Peg.depth s ≤ fuel) (h : ¬ IsTypeStr s) :
    Peg.errorPos fuel s = some k ↔ PointsAt s k := by
  rw [pegErrorPos_eq s hf]
  obtain ⟨j, h1, h2⟩ := errorPos_points h
  rw [h1]
  constructor
  · intro e; cases e; exact h2
  · intro hk; rw [pointsAt_unique h2 hk]

/-- **C82** (no failure is kept of a type string). -/
theorem C82_grammar_ok [Ext] {s : TypeStr} {fuel : Nat} (hf : Peg.depth s ≤ fuel) (h : IsTypeStr s) :
    Peg.errorPos fuel s = none := by
  obtain ⟨n, hn⟩ := (C94_language s hf).2 h
  unfold Peg.errorPos
  rw [hn]

theorem record_recalled (len : Nat) {seen l l' : List Failure} (h : Recalled seen l l') : ∀ (err : Option Nat),
    (∀ f ∈ seen, ∃ p, err = some p ∧ (f.named = true → len - f.rest.length ≤ p)) →
    l'.foldl (fun err f => recordFailure err f.named (len - f.rest.length)) err =
      l.foldl (fun err f => recordFailure err f.named (len - f.rest.length)) err := by
  induction h with
  | nil => intro err _; rfl
  | @keep seen l l' x h ih =>
    intro err hs
    refine ih _ fun f hf => ?_
    rcases List.mem_cons.1 hf with rfl | hf
    · cases err with
      | none => exact ⟨_, rfl, fun _ => Nat.le_refl _⟩
      | some p =>
        simp only [recordFailure]
        split
        · exact ⟨_, rfl, fun _ => Nat.le_refl _⟩
        · rename_i hn
          refine ⟨p, rfl, fun hb => ?_⟩
          simp only [hb, Bool.true_and, decide_eq_true_eq] at hn
          omega
    · obtain ⟨p, rfl, hp⟩ := hs f hf
      simp only [recordFailure]
      split
      · rename_i hn
        refine ⟨_, rfl, fun hb => ?_⟩
        have := hp hb
        simp only [Bool.and_eq_true, decide_eq_true_eq] at hn
        omega
      · exact ⟨p, rfl, hp⟩
  | @drop seen l l' x hx h ih =>
    intro err hs
    rw [ih err hs, List.foldl_cons]
    obtain ⟨p, rfl, hp⟩ := hs x hx
    congr 1
    simp only [recordFailure]
    split
    · rename_i hn
      simp only [Bool.and_eq_true, decide_eq_true_eq] at hn
      have := hp hn.1
      congr 1
      omega
    · rfl

/-- **C82** (results that are remembered).  `parsimonious` remembers what an expression gave at a place, and does not try its
parts there again.  So failures that were there before may be missing when the expression is tried again.  Whichever of them are
missing, the place is the same. -/
theorem C82_remembered [Ext] {s : TypeStr} {fuel k : Nat} (hf : Peg.depth s ≤ fuel)
    (hn : Peg.run fuel (.ref .type) s = none) {l : List Failure} (hl : Recalled [] (Peg.fails fuel false (.ref .type) s) l) :
    l.foldl (fun err f => recordFailure err f.named (s.length - f.rest.length)) none = some k ↔ PointsAt s k := by
  have h : ¬ IsTypeStr s := by
    intro h
    obtain ⟨n, e⟩ := (C94_language s hf).2 h
    rw [e] at hn; cases hn
  rw [record_recalled s.length hl none (by simp), ← C82_grammar hf h]
  simp only [Peg.errorPos, hn]

/-- `(int[5)`, by the grammar: column 5, which is the `[`. -/
example [Ext] : Peg.errorPos (Peg.depth t!"(int[5)") t!"(int[5)" = some 4 := by
  rw [pegErrorPos_eq _ (Nat.le_refl _)]; rfl

/-- It is no type string, so `C82_grammar` applies. -/
example : ¬ IsTypeStr t!"(int[5)" := by
  rintro ⟨t, ht⟩
  rcases @parse_error Ex.ext t!"(int[5)" .parseError rfl with ⟨h, _⟩ | ⟨h, _⟩
  · cases h
  · exact h t ht

/-- Of the eleven failures for `(1` eight have been there before. -/
example : @Peg.run Ex.ext (Peg.depth t!"(1") (.ref .type) t!"(1" = none ∧
    (@Peg.fails Ex.ext (Peg.depth t!"(1") false (.ref .type) t!"(1").length = 11 ∧
    Recalled [] (@Peg.fails Ex.ext (Peg.depth t!"(1") false (.ref .type) t!"(1")
      [.part t!"1", .rule t!"1", .rule t!"(1"] := by
  have : @Peg.fails Ex.ext (Peg.depth t!"(1") false (.ref .type) t!"(1" =
      [.part t!"1", .rule t!"1", .rule t!"1", .rule t!"1", .rule t!"1", .rule t!"1", .rule t!"(1", .rule t!"(1",
        .rule t!"(1", .rule t!"(1", .rule t!"(1"] := by decide +kernel
  rw [this]
  refine ⟨by decide +kernel, rfl, .keep (.keep (.drop ?_ (.drop ?_ (.drop ?_ (.drop ?_ (.keep (.drop ?_ (.drop ?_ (.drop ?_
    (.drop ?_ .nil))))))))))⟩ <;> simp

/-- `(a` lacks a `)`: the end of the string if repetitions are tried there, otherwise the name.  By computation with the
interpreter itself. -/
example : @Peg.errorPos Ex.ext (Peg.depth t!"(a") t!"(a" = some (if Ex.ext.triesAtEnd then 2 else 1) := by
  decide +kernel

end EthAbi
