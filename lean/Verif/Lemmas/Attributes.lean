import Verif.Lemmas.Meaning
import Verif.Lemmas.Lookups

/-!
# Lemmas for C84: the attributes of parsed types
-/
namespace EthAbi
open Spec

theorem anyDynamic_any (ts : List ABIType) : ABIType.anyDynamic ts = ts.any ABIType.isDynamic := by
  induction ts with
  | nil => rfl
  | cons t ts ih => rw [ABIType.anyDynamic, ih, List.any_cons]

theorem addDim_item (a : ABIType) (d : Option Nat) : (addDim a d).itemType = .ok a := by
  cases a with
  | basic base sub arr =>
    cases arr with
    | nil => rfl
    | cons x xs =>
      show Except.ok (ABIType.basic base sub (((x :: xs) ++ [d]).dropLast)) = _
      rw [List.dropLast_concat]
  | tuple ts arr =>
    cases arr with
    | nil => rfl
    | cons x xs =>
      show Except.ok (ABIType.tuple ts (((x :: xs) ++ [d]).dropLast)) = _
      rw [List.dropLast_concat]

theorem addDim_isArray (a : ABIType) (d : Option Nat) : (addDim a d).isArray = true := by
  cases a <;> simp [addDim, ABIType.isArray, ABIType.arrlist]

theorem addDim_last (a : ABIType) (d : Option Nat) : (addDim a d).arrlist.getLast? = some d := by
  cases a <;> simp [addDim, ABIType.arrlist]

theorem hasDynamicArrlist_any (a : ABIType) : a.hasDynamicArrlist = a.arrlist.any (·.isNone) := by
  unfold ABIType.hasDynamicArrlist ABIType.isArray
  cases a.arrlist <;> simp

theorem addDim_dynamic (a : ABIType) (d : Option Nat) : (addDim a d).isDynamic = (d.isNone || a.isDynamic) := by
  cases a with
  | basic base sub arr =>
    simp only [addDim, ABIType.isDynamic, hasDynamicArrlist_any, ABIType.arrlist, List.any_append, List.any_cons, List.any_nil]
    cases d <;> cases (arr.any (·.isNone)) <;> simp
  | tuple ts arr =>
    simp only [addDim, ABIType.isDynamic, hasDynamicArrlist_any, ABIType.arrlist, List.any_append, List.any_cons, List.any_nil]
    cases d <;> cases (arr.any (·.isNone)) <;> simp

/-- The last dimension. -/
theorem dims_snoc {ds : List (Option Nat)} {w : List Char} (h : DerivesDims ds w) (hne : ds ≠ []) :
    ∃ es d v u, ds = es ++ [d] ∧ w = v ++ u ∧ DerivesDims es v ∧ DerivesDims [d] u := by
  induction h with
  | nil => exact absurd rfl hne
  | @dynamic ds s h ih =>
    cases ds with
    | nil => cases h; exact ⟨[], none, [], _, rfl, rfl, .nil, .dynamic .nil⟩
    | cons x xs =>
      obtain ⟨es, d, v, u, h1, rfl, h2, h3⟩ := ih (by simp)
      exact ⟨none :: es, d, t!"[]" ++ v, u, by rw [h1]; rfl, by simp, .dynamic h2, h3⟩
  | @sized ds n s t ht h ih =>
    cases ds with
    | nil => cases h; exact ⟨[], some n, [], _, rfl, rfl, .nil, .sized ht .nil⟩
    | cons x xs =>
      obtain ⟨es, d, v, u, h1, rfl, h2, h3⟩ := ih (by simp)
      exact ⟨some n :: es, d, t!"[" ++ t ++ t!"]" ++ v, u, by rw [h1]; rfl, by simp, .sized ht h2, h3⟩

theorem derives_last {t : ABIType} {s : List Char} (h : Derives t s) (ha : t.isArray = true) :
    ∃ a d v u, t = addDim a d ∧ s = v ++ u ∧ Derives a v ∧ DerivesDims [d] u := by
  cases h with
  | @basic base s1 s2 sub arr h1 h2 h3 h4 =>
    obtain ⟨es, d, v, u, rfl, rfl, h5, h6⟩ := dims_snoc h4 (by rintro rfl; cases ha)
    exact ⟨.basic base sub es, d, base ++ s1 ++ v, u, rfl, by simp, .basic h1 h2 h3 h5, h6⟩
  | @tuple comps s1 s2 arr h1 h2 =>
    obtain ⟨es, d, v, u, rfl, rfl, h5, h6⟩ := dims_snoc h2 (by rintro rfl; cases ha)
    exact ⟨.tuple comps es, d, t!"(" ++ s1 ++ t!")" ++ v, u, rfl, by simp, .tuple h1 h5, h6⟩

theorem dim_one {d : Option Nat} {u : List Char} (h : DerivesDims [d] u) :
    (d = none ∧ u = t!"[]") ∨ ∃ n ds, d = some n ∧ Numeral n ds ∧ u = t!"[" ++ ds ++ t!"]" := by
  cases h with
  | dynamic h => cases h; exact .inl ⟨rfl, rfl⟩
  | @sized _ n _ t ht h => cases h; exact .inr ⟨n, t, rfl, ht, by simp⟩

theorem comps_iff {ts : List ABIType} {w : List Char} : DerivesComps ts w ↔
    ∃ ss, ss ≠ [] ∧ w = List.intercalate t!"," ss ∧ List.Forall₂ Derives ts ss := by
  constructor
  · intro h
    induction ts generalizing w with
    | nil => cases h
    | cons t ts ih =>
      cases h with
      | one h => exact ⟨[w], by simp, by simp [List.intercalate], .cons h .nil⟩
      | @cons _ _ s s' h h' =>
        obtain ⟨ss, h1, rfl, h2⟩ := ih h'
        refine ⟨s :: ss, by simp, ?_, .cons h h2⟩
        cases ss with
        | nil => exact absurd rfl h1
        | cons x xs => simp [List.intercalate]
  · rintro ⟨ss, h1, rfl, h2⟩
    induction h2 with
    | nil => exact absurd rfl h1
    | @cons t s ts ss h h2 ih =>
      cases h2 with
      | nil => simpa [List.intercalate] using DerivesComps.one h
      | @cons t' s' ts' ss' h' h2' =>
        have := DerivesComps.cons h (ih (by simp))
        simpa [List.intercalate] using this

theorem dim_last {d : Option Nat} {u : List Char} (h : DerivesDims [d] u) (v : List Char) :
    (v ++ u).getLast? = some ']' := by
  rcases dim_one h with ⟨-, rfl⟩ | ⟨n, ds, -, -, rfl⟩
  · rw [List.getLast?_append]; rfl
  · rw [← List.append_assoc, List.getLast?_append]; rfl

theorem sub_chars {sub : Sub} {w : List Char} (h : DerivesSub sub w) : ∀ c ∈ w, IsDigit c ∨ c = 'x' := by
  cases h with
  | none => intro c hc; cases hc
  | one h => exact fun c hc => .inl (numeral_isDigit h c hc)
  | two h h' =>
    intro c hc
    simp only [List.mem_append] at hc
    rcases hc with (hc | hc) | hc
    · exact .inl (numeral_isDigit h c hc)
    · right; simpa using hc
    · exact .inl (numeral_isDigit h' c hc)

theorem arrNumsOk_sized [Ext] {n : Nat} {digits : List Char} (hn : Numeral n digits) (hf : DigitRunsFit digits) :
    arrNumsOk [some n] = true := by
  have : numOk n = true := by
    unfold numOk
    cases hk : Ext.maxStrDigits with
    | none => rfl
    | some k => exact decide_eq_true ((numeral_runs hn).1 (hf k hk))
  simp [arrNumsOk, this]

end EthAbi
