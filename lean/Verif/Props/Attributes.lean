import Verif.Lemmas.Attributes
import Verif.Props.Grammar
import Verif.Props.Examples

/-!
# C84: the attributes of a parsed type follow the type string
-/
namespace EthAbi
open Spec

/-- **C84** (`T[]`).  The items of `T[]` have the type `T`, and `T[]` is dynamic. -/
theorem C84_dynamicArray [Ext] {s : TypeStr} {u : ABIType} (h : parse s = .ok u) :
    ∃ t, parse (s ++ t!"[]") = .ok t ∧ t.isArray = true ∧ t.arrlist.getLast? = some none ∧ t.itemType = .ok u ∧
      t.isDynamic = true := by
  obtain ⟨hd, hn⟩ := parse_ok_iff.1 h
  refine ⟨addDim u none, parse_ok_iff.2 ⟨derives_addDim hd (.dynamic .nil), ?_⟩, addDim_isArray _ _, addDim_last _ _,
    addDim_item _ _, ?_⟩
  · rw [numsOk_addDim, hn]; rfl
  · rw [addDim_dynamic]; rfl

/-- **C84** (`T[n]`).  The items of `T[n]` have the type `T`, and `T[n]` is dynamic exactly if `T` is. -/
theorem C84_sizedArray [Ext] {s digits : TypeStr} {u : ABIType} {n : Nat} (h : parse s = .ok u) (hn : Numeral n digits)
    (hf : DigitRunsFit digits) :
    ∃ t, parse (s ++ t!"[" ++ digits ++ t!"]") = .ok t ∧ t.isArray = true ∧ t.arrlist.getLast? = some (some n) ∧
      t.itemType = .ok u ∧ t.isDynamic = u.isDynamic := by
  obtain ⟨hd, hok⟩ := parse_ok_iff.1 h
  have hdim : DerivesDims [some n] (t!"[" ++ digits ++ t!"]") := by simpa using DerivesDims.sized hn .nil
  refine ⟨addDim u (some n), parse_ok_iff.2 ⟨?_, ?_⟩, addDim_isArray _ _, addDim_last _ _, addDim_item _ _, ?_⟩
  · have := derives_addDim hd hdim
    simpa using this
  · rw [numsOk_addDim, hok, arrNumsOk_sized hn hf]; rfl
  · rw [addDim_dynamic]; rfl

/-- **C84** (all arrays).  A parsed type is an array exactly if the string ends with `]`; then it is of one of the two forms, and
what is before the last pair of brackets is the type of the items. -/
theorem C84_items [Ext] {s : TypeStr} {t : ABIType} (h : parse s = .ok t) :
    (t.isArray = true ↔ s.getLast? = some ']') ∧
    (t.isArray = true → ∃ s' u, parse s' = .ok u ∧ t.itemType = .ok u ∧
      (s = s' ++ t!"[]" ∨ ∃ n digits, Numeral n digits ∧ s = s' ++ t!"[" ++ digits ++ t!"]")) ∧
    (t.isArray = false → t.itemType = .error .valueError) := by
  obtain ⟨hd, hok⟩ := parse_ok_iff.1 h
  refine ⟨⟨fun ha => ?_, fun hl => ?_⟩, fun ha => ?_, fun ha => ?_⟩
  · obtain ⟨a, d, v, u, rfl, rfl, -, h2⟩ := derives_last hd ha
    exact dim_last h2 v
  · cases hd with
    | @basic base s1 s2 sub arr h1 h2 h3 h4 =>
      cases arr with
      | cons x xs => rfl
      | nil =>
        cases h4
        exfalso
        have := List.mem_of_getLast? hl
        simp only [List.append_nil, List.mem_append] at this
        rcases this with hm | hm
        · rcases h2 _ hm with h | h
          · exact absurd h (by decide)
          · exact absurd h (by decide)
        · rcases sub_chars h3 _ hm with h | h
          · exact absurd h (by decide)
          · exact absurd h (by decide)
    | @tuple comps s1 s2 arr h1 h2 =>
      cases arr with
      | cons x xs => rfl
      | nil =>
        cases h2
        rw [List.append_nil, List.getLast?_append] at hl
        exact absurd hl (by simp)
  · obtain ⟨a, d, v, u, rfl, rfl, h1, h2⟩ := derives_last hd ha
    rw [numsOk_addDim, Bool.and_eq_true] at hok
    refine ⟨v, a, parse_ok_iff.2 ⟨h1, hok.1⟩, addDim_item _ _, ?_⟩
    rcases dim_one h2 with ⟨-, rfl⟩ | ⟨n, ds, -, hn, rfl⟩
    · exact .inl rfl
    · exact .inr ⟨n, ds, hn, by simp⟩
  · cases t with
    | basic base sub arr =>
      cases arr with
      | nil => rfl
      | cons x xs => cases ha
    | tuple comps arr =>
      cases arr with
      | nil => rfl
      | cons x xs => cases ha

/-- **C84** (tuples).  A string is parsed as a tuple exactly if it is a list of type strings in parentheses, separated by commas;
its components are the types of these.  It is dynamic exactly if one of them is. -/
theorem C84_tuple [Ext] (s : TypeStr) (ts : List ABIType) :
    (parse s = .ok (.tuple ts []) ↔ ∃ ss, ss ≠ [] ∧ s = t!"(" ++ List.intercalate t!"," ss ++ t!")" ∧
      List.Forall₂ (fun t s => parse s = .ok t) ts ss) ∧
    ((ABIType.tuple ts []).isArray = false) ∧
    ((ABIType.tuple ts []).isDynamic = true ↔ ∃ t ∈ ts, t.isDynamic = true) := by
  refine ⟨?_, rfl, ?_⟩
  · rw [parse_ok_iff]
    constructor
    · rintro ⟨hd, hok⟩
      cases hd with
      | @tuple _ s1 s2 _ h1 h2 =>
        cases h2
        obtain ⟨ss, hne, rfl, hf⟩ := comps_iff.1 h1
        refine ⟨ss, hne, by simp, ?_⟩
        have hok' : ∀ t ∈ ts, t.numsOk = true := by
          have : (ABIType.allNumsOk ts && arrNumsOk []) = true := hok
          rw [Bool.and_eq_true, allNumsOk_eq, List.all_eq_true] at this
          exact this.1
        clear h1 hok hne
        induction hf with
        | nil => exact .nil
        | cons h hf ih =>
          exact .cons (parse_ok_iff.2 ⟨h, hok' _ (by simp)⟩) (ih fun t ht => hok' t (by simp [ht]))
    · rintro ⟨ss, hne, rfl, hf⟩
      refine ⟨?_, ?_⟩
      · have h1 : DerivesComps ts (List.intercalate t!"," ss) :=
          comps_iff.2 ⟨ss, hne, rfl, hf.imp fun _ _ h => (parse_ok_iff.1 h).1⟩
        simpa using Derives.tuple h1 .nil
      · have : ∀ t ∈ ts, t.numsOk = true := by
          clear hne
          induction hf with
          | nil => intro t ht; cases ht
          | cons h hf ih =>
            intro t ht
            rcases List.mem_cons.1 ht with rfl | ht
            · exact (parse_ok_iff.1 h).2
            · exact ih t ht
        show (ABIType.allNumsOk ts && arrNumsOk []) = true
        rw [allNumsOk_eq, List.all_eq_true.2 this]; rfl
  · rw [ABIType.isDynamic, hasDynamicArrlist_any, anyDynamic_any]
    simp [ABIType.arrlist]

/-- **C84** (names).  A string is parsed as a name without dimensions exactly if it is letters and a suffix of digits, or none.
It is dynamic exactly if the letters are `string`, or are `bytes` with no suffix. -/
theorem C84_name [Ext] (s base : TypeStr) (sub : Sub) :
    (parse s = .ok (.basic base sub []) ↔ base ≠ [] ∧ (∀ c ∈ base, IsLetter c) ∧ DigitRunsFit s ∧
      ∃ w, DerivesSub sub w ∧ s = base ++ w) ∧
    ((ABIType.basic base sub []).isArray = false) ∧
    ((ABIType.basic base sub []).isDynamic = true ↔ base = t!"string" ∨ base = t!"bytes" ∧ sub = .none) := by
  refine ⟨?_, rfl, ?_⟩
  · rw [parse_ok_iff]
    constructor
    · rintro ⟨hd, hok⟩
      have hf := (numsOk_iff hd).1 hok
      cases hd with
      | @basic _ s1 s2 _ _ h1 h2 h3 h4 =>
        cases h4
        exact ⟨h1, h2, hf, s1, h3, by simp⟩
    · rintro ⟨h1, h2, hf, w, h3, rfl⟩
      have hd : Derives (.basic base sub []) (base ++ w) := by simpa using Derives.basic h1 h2 h3 .nil
      exact ⟨hd, (numsOk_iff hd).2 hf⟩
  · rw [ABIType.isDynamic]
    have h0 : (ABIType.basic base sub []).hasDynamicArrlist = false := rfl
    rw [if_neg (by rw [h0]; decide)]
    by_cases h1 : base = t!"string"
    · rw [if_pos h1]; exact ⟨fun _ => .inl h1, fun _ => rfl⟩
    · rw [if_neg h1]
      by_cases h2 : base = t!"bytes" ∧ sub = .none
      · rw [if_pos h2]; exact ⟨fun _ => .inr h2, fun _ => rfl⟩
      · rw [if_neg h2]
        exact ⟨(fun h => by cases h), fun h => absurd h (by rintro (h | h); exacts [h1 h, h2 h])⟩

/-! ## The hypotheses are met -/

-- `(uint8,string[2])[][3]`: an array of three, of arrays; its items are `(uint8,string[2])[]`.
example : letI := Ex.ext
    ∃ t u, parse t!"(uint8,string[2])[][3]" = .ok t ∧ parse t!"(uint8,string[2])[]" = .ok u ∧ t.itemType = .ok u ∧
      u.isDynamic = true ∧ t.isDynamic = true := by
  letI := Ex.ext
  exact ⟨_, _, rfl, rfl, rfl, by decide +kernel, by decide +kernel⟩

-- `bytes[2]` is dynamic, `bytes8[2]` is not, `bytes8[]` is.
example : letI := Ex.ext
    (parse t!"bytes[2]").map ABIType.isDynamic = .ok true ∧ (parse t!"bytes8[2]").map ABIType.isDynamic = .ok false ∧
      (parse t!"bytes8[]").map ABIType.isDynamic = .ok true ∧ (parse t!"(bytes8[2],bool)").map ABIType.isDynamic = .ok false := by
  decide +kernel

-- The hypotheses of `C84_sizedArray`: `string` and the digits `10`.
example : letI := Ex.ext
    (parse t!"string").toBool = true ∧ Numeral 10 t!"10" ∧ DigitRunsFit t!"10" := by
  letI := Ex.ext
  refine ⟨by decide +kernel, numeral_iff.2 ⟨by decide, by decide +kernel⟩, fun k hk w hw _ => ?_⟩
  have hl := hw.length_le
  cases hk
  exact le_trans hl (by decide)

end EthAbi
