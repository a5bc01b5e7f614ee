import Verif.Lemmas.Pointing
import Verif.Props.Grammar

/-! # C82: where a `ParseError` points -/
namespace EthAbi
open Spec

/-- **C82.**  `parse(s)` raises a `ParseError` with a text exactly if `s` is no type string (and has no `()` in it), and the
text names the place where `s` stops being the beginning of a type string (or, if `s` only lacks a `)` behind a type and
`parsimonious` tries nothing at the end of a string, the last place where it tried something): the column, counted from 1,
five characters from there on, and the string. -/
theorem C82_text [Ext] (s : TypeStr) (text : List Char) :
    parseErrorText s = some text ↔ (¬ IsTypeStr s ∧ ¬ t!"()" <:+: s) ∧ ∃ k, PointsAt s k ∧
      text = t!"Parse error at '" ++ (s.drop k).take 5 ++ t!"' (column " ++ natDigits (k + 1) ++
        t!") in type string '" ++ s ++ t!"'" := by
  by_cases h : IsTypeStr s
  · have : parseErrorText s = none := by
      obtain ⟨t, ht⟩ := h
      unfold parseErrorText
      cases hp : parse s with
      | ok u => rfl
      | error e =>
        rcases parse_error hp with ⟨rfl, _⟩ | ⟨h', _⟩
        · rfl
        · exact absurd ht (h' t)
    rw [this]
    exact ⟨(fun h => nomatch h), fun h' => absurd h h'.1.1⟩
  · obtain ⟨k, h1, h2⟩ := errorPos_points h
    have h3 := C21_rejects (s := s) fun t ht => h ⟨t, ht⟩
    by_cases h4 : t!"()" <:+: s
    · have : parseErrorText s = none := by unfold parseErrorText; rw [h3.1 h4]
      rw [this]
      exact ⟨(fun h => nomatch h), fun h' => absurd h4 h'.1.2⟩
    · have : parseErrorText s = some (parseErrorStr s k) := by unfold parseErrorText; rw [h3.2 h4]; simp only [h1]; rfl
      rw [this]
      simp only [parseErrorStr, columnAt_eq h2, Option.some.injEq]
      constructor
      · rintro rfl
        exact ⟨⟨h, h4⟩, k, h2, rfl⟩
      · rintro ⟨_, j, hj, rfl⟩
        rw [pointsAt_unique hj h2]

/-- **C82** (one place).  There is exactly one such place in a string that is no type string. -/
theorem C82_place [Ext] {s : TypeStr} (h : ¬ IsTypeStr s) : ∃! k, PointsAt s k := by
  obtain ⟨k, _, h2⟩ := errorPos_points h
  exact ⟨k, h2, fun j hj => pointsAt_unique hj h2⟩

/-- **C82** (what is before it is right).  Some type string begins with what stands before the column. -/
theorem C82_before [Ext] {s : TypeStr} {k : Nat} (h : PointsAt s k) : k ≤ s.length ∧ Viable (s.take k) := pointsAt_le h

/-- **C82** (after a type).  If the string begins with a type string but is none, the column is the one after the longest
type string it begins with. -/
theorem C82_after [Ext] {s p : TypeStr} (hp : IsTypeStr p) (hs : p <+: s) (hl : ∀ q, q <+: s → IsTypeStr q → q.length ≤ p.length)
    (h : ¬ IsTypeStr s) : PointsAt s p.length := by
  obtain ⟨t, p', rest, h1, rfl, h2, h3⟩ := pType_longest hp hs
  have h4 := hl p' ⟨rest, rfl⟩ ⟨t, h2⟩
  obtain ⟨k, k1, k2⟩ := errorPos_points h
  have : k = p'.length := by
    unfold errorPos at k1
    rw [h1] at k1
    cases rest with
    | nil => rw [List.append_nil] at h; exact absurd ⟨t, h2⟩ h
    | cons c cs => cases k1; simp
  rw [show p.length = k by omega]
  exact k2

/-- **C82** (a missing `)`).  There is a last place where something was tried exactly if the string would be right with a `)`
behind it. -/
theorem C82_missing {s : TypeStr} (hv : Viable s) (h : ¬ IsTypeStr s) : (∃ k, LastTry s k) ↔ Viable (s ++ t!")") :=
  lastTry_iff hv h

/-- **C82** (a name at the end).  If nothing is tried at the end of a string, and the string only lacks what comes after the
name at its end, the column is the one of the name. -/
theorem C82_name [Ext] (he : Ext.triesAtEnd = false) {p base : TypeStr} (hp : Begins p) (hb : IsName base)
    (hv : Viable (p ++ base)) : PointsAt (p ++ base) p.length :=
  ⟨p ++ base, ⟨hv, [], by simp, fun c hc => by cases hc⟩, Or.inl ⟨he, rfl, .name hp hb⟩⟩

/-- `uint8!`: the longest type string that it begins with is `uint8`. -/
example [Ext] : PointsAt t!"uint8!" 5 := by
  have hu : IsTypeStr t!"uint8" := ⟨_, ((@parse_ok_iff Ex.ext _ _).1 rfl).1⟩
  have hn : ¬ IsTypeStr t!"uint8!" := by
    rintro ⟨t, ht⟩
    rcases @parse_error Ex.ext t!"uint8!" .parseError rfl with ⟨h, _⟩ | ⟨h, _⟩
    · cases h
    · exact h t ht
  refine C82_after hu ⟨t!"!", rfl⟩ (fun q hq ht => ?_) hn
  have h1 := hq.length_le
  by_contra h2
  have h3 : q = t!"uint8!" := hq.eq_of_length (by simp only [List.length_cons, List.length_nil] at h1 h2 ⊢; omega)
  exact hn (h3 ▸ ht)

/-- `(int,bool,)`: a type is missing after the second comma. -/
example : @parseErrorText Ex.ext t!"(int,bool,)" =
    some t!"Parse error at ')' (column 11) in type string '(int,bool,)'" := by decide +kernel

/-- `(int[5)`: what is missing is a `]` in column 7, but the column named is that of the `[`. -/
example : @parseErrorText Ex.ext t!"(int[5)" = some t!"Parse error at '[5)' (column 5) in type string '(int[5)'" := by
  decide +kernel

/-- `fixed128x0`: it goes wrong in column 10, but `fixed128` is a type string and `fixed128x` is not. -/
example : @parseErrorText Ex.ext t!"fixed128x0" =
    some t!"Parse error at 'x0' (column 9) in type string 'fixed128x0'" := by decide +kernel

/-- A string that ends too early: nothing is tried behind `int`. -/
example : @parseErrorText Ex.ext t!"(int" = some t!"Parse error at 'int' (column 2) in type string '(int'" := by
  decide +kernel

/-- `(int`, if something is tried at the end of a string. -/
example : @parseErrorText { Ex.ext with triesAtEnd := true } t!"(int" =
    some t!"Parse error at '' (column 5) in type string '(int'" := by
  decide +kernel

/-- `(bool,uint256[3][4]`: the last thing that was tried is the second number of `fixed128x18` and the like, and `uint256`
has none; what is recorded is where the number begins. -/
example : @parseErrorText Ex.ext t!"(bool,uint256[3][4]" =
    some t!"Parse error at '256[3' (column 11) in type string '(bool,uint256[3][4]'" := by decide +kernel

/-- `(fixed128x18`, `((int)[2]`, `(int[3][]` and `(int,`. -/
example : @parseErrorText Ex.ext t!"(fixed128x18" =
      some t!"Parse error at 'fixed' (column 2) in type string '(fixed128x18'" ∧
    @parseErrorText Ex.ext t!"((int)[2]" = some t!"Parse error at ')[2]' (column 6) in type string '((int)[2]'" ∧
    @parseErrorText Ex.ext t!"(int[3][]" = some t!"Parse error at ']' (column 9) in type string '(int[3][]'" ∧
    @parseErrorText Ex.ext t!"(int," = some t!"Parse error at '' (column 6) in type string '(int,'" := by decide +kernel

/-- `(int` meets the hypotheses of `C82_missing` and `C82_name`. -/
example : Viable t!"(int" ∧ ¬ IsTypeStr t!"(int" ∧ Begins t!"(" ∧ IsName t!"int" := by
  refine ⟨⟨t!")", _, ((@parse_ok_iff Ex.ext _ _).1 rfl).1⟩, ?_, ⟨[], Or.inl rfl⟩, by simp, by
    intro c hc; simp at hc; rcases hc with rfl | rfl | rfl <;> simp [IsLetter] <;> decide⟩
  rintro ⟨t, ht⟩
  rcases @parse_error Ex.ext t!"(int" .parseError rfl with ⟨h, _⟩ | ⟨h, _⟩
  · cases h
  · exact h t ht

/-- No text: a type string, and a string with `()` in it. -/
example : @parseErrorText Ex.ext t!"(int,bool)" = none ∧ @parseErrorText Ex.ext t!"(int,()" = none := by
  decide +kernel

end EthAbi
