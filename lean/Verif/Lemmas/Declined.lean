import Verif.Lemmas.Lookup
import Verif.Lemmas.Located
import Verif.Spec.Declined

/-! # Which exception a lookup ends with -/
namespace EthAbi
open Spec

instance (b : List Char) : Decidable (Coded b) := by unfold Coded; infer_instance

/-- The exception for a name whose aliases are replaced. -/
def uncodedExc (p : List Char × Sub) : Option Exc :=
  if Coded p.1 then none else if p.1 = t!"function" then some .valueError else some .noEntriesFound

mutual
theorem names_normTy : ∀ a : ABIType, names (normTy a) = (names a).map fun p => normBase p.1 p.2
  | .basic b s arr => rfl
  | .tuple cs arr => by rw [normTy, names, names, namesAll_normTys cs]
theorem namesAll_normTys : ∀ cs : List ABIType, namesAll (normTys cs) = (namesAll cs).map fun p => normBase p.1 p.2
  | [] => rfl
  | c :: cs => by rw [normTys, namesAll, namesAll, names_normTy c, namesAll_normTys cs, List.map_append]
end

mutual
theorem validate_names : ∀ a : ABIType, a.validate = .ok () ↔ ∀ p ∈ names a, validateBasic p.1 p.2 = .ok ()
  | .basic b s arr => by simp [ABIType.validate, names]
  | .tuple cs arr => by rw [ABIType.validate, names]; exact validateAll_names cs
theorem validateAll_names : ∀ cs : List ABIType, ABIType.validateAll cs = .ok () ↔
    ∀ p ∈ namesAll cs, validateBasic p.1 p.2 = .ok ()
  | [] => by simp [ABIType.validateAll, namesAll]
  | c :: cs => by
    rw [ABIType.validateAll, namesAll]
    simp only [List.mem_append, or_imp, forall_and]
    rw [← validate_names c, ← validateAll_names cs]
    rcases validate_cases c with h | h <;> rw [h] <;> simp
end

theorem normBase_cases (b : List Char) (sub : Sub) :
    (Abbreviated b sub ∧ Coded (normBase b sub).1 ∧ validateBasic (normBase b sub).1 (normBase b sub).2 = .ok ()) ∨
    (¬ Abbreviated b sub ∧ normBase b sub = (b, sub)) := by
  cases sub with
  | none =>
    by_cases h0 : b = t!"int"
    · subst h0; exact .inl ⟨⟨rfl, _, .int⟩, by decide, rfl⟩
    by_cases h1 : b = t!"uint"
    · subst h1; exact .inl ⟨⟨rfl, _, .uint⟩, by decide, rfl⟩
    by_cases h2 : b = t!"fixed"
    · subst h2; exact .inl ⟨⟨rfl, _, .fixed⟩, by decide, rfl⟩
    by_cases h3 : b = t!"ufixed"
    · subst h3; exact .inl ⟨⟨rfl, _, .ufixed⟩, by decide, rfl⟩
    by_cases h4 : b = t!"function"
    · subst h4; exact .inl ⟨⟨rfl, _, .function⟩, by decide, rfl⟩
    by_cases h5 : b = t!"byte"
    · subst h5; exact .inl ⟨⟨rfl, _, .byte⟩, by decide, rfl⟩
    refine .inr ⟨?_, by simp [normBase, h0, h1, h2, h3, h4, h5]⟩
    rintro ⟨_, full, h⟩
    cases h <;> contradiction
  | one m => exact .inr ⟨(fun h => nomatch h.1), rfl⟩
  | two m n => exact .inr ⟨(fun h => nomatch h.1), rfl⟩

theorem ill_iff (b : List Char) (sub : Sub) :
    Ill b sub ↔ validateBasic (normBase b sub).1 (normBase b sub).2 = .error .abiTypeError := by
  rcases normBase_cases b sub with ⟨h1, h2, h3⟩ | ⟨h1, h2⟩
  · rw [h3]
    exact ⟨fun h => absurd h1 h.1, fun h => by cases h⟩
  · rw [h2]
    constructor
    · rintro ⟨_, msg, h⟩
      exact breaks_validateBasic h
    · intro h
      rcases validate_breaks b sub with h' | h'
      · exact ⟨h1, h'⟩
      · rw [h'.1] at h; cases h

theorem uncoded_iff (b : List Char) (sub : Sub) (e : Exc) :
    Uncoded b sub e ↔ uncodedExc (normBase b sub) = some e := by
  rcases normBase_cases b sub with ⟨h1, h2, h3⟩ | ⟨h1, h2⟩
  · rw [uncodedExc, if_pos h2]
    constructor
    · intro h
      cases h with
      | function h => exact absurd h1.1 h
      | other _ _ h => exact absurd h1 h
    · intro h; cases h
  · rw [h2, uncodedExc]
    constructor
    · intro h
      cases h with
      | function h => rfl
      | other h h' _ => simp only; rw [if_neg h, if_neg h']
    · intro h
      split at h
      · cases h
      · next hc =>
        split at h
        · next hf =>
          cases h
          simp only at hf
          subst hf
          exact .function fun hs => h1 ⟨hs, _, .function⟩
        · next hf => cases h; exact .other hc hf h1

theorem not_ill_iff (a : ABIType) : (normTy a).validate = .ok () ↔ ∀ p ∈ names a, ¬ Ill p.1 p.2 := by
  rw [validate_names, names_normTy]
  constructor
  · intro h p hp hi
    have := h _ (List.mem_map.2 ⟨p, hp, rfl⟩)
    rw [(ill_iff _ _).1 hi] at this
    cases this
  · intro h q hq
    obtain ⟨p, hp, rfl⟩ := List.mem_map.1 hq
    rcases validateBasic_cases (normBase p.1 p.2).1 (normBase p.1 p.2).2 with h' | h'
    · exact h'
    · exact absurd ((ill_iff _ _).2 h') (h p hp)

/-- The exception for the first name. -/
def firstExc (a : ABIType) : Option Exc := (names a).findSome? uncodedExc

theorem firstUncoded_iff (a : ABIType) (e : Exc) : FirstUncoded a e ↔ firstExc (normTy a) = some e := by
  unfold FirstUncoded firstExc
  rw [names_normTy]
  generalize names a = ps
  induction ps with
  | nil => simp
  | cons p ps ih =>
    rw [List.map_cons, List.findSome?_cons]
    cases hu : uncodedExc (normBase p.1 p.2) with
    | some e' =>
      have hu' := (uncoded_iff _ _ _).2 hu
      simp only [Option.some.injEq]
      constructor
      · rintro ⟨pre, b, s, post, h1, h2, h3⟩
        cases pre with
        | nil =>
          cases h1
          rw [uncoded_iff] at h2
          rw [hu] at h2
          exact Option.some.inj h2
        | cons q pre =>
          cases h1
          exact absurd hu' (h3 _ (by simp) _)
      · rintro rfl
        exact ⟨[], p.1, p.2, ps, rfl, hu', by simp⟩
    | none =>
      simp only
      rw [← ih]
      constructor
      · rintro ⟨pre, b, s, post, h1, h2, h3⟩
        cases pre with
        | nil =>
          cases h1
          rw [uncoded_iff, hu] at h2
          cases h2
        | cons q pre =>
          cases h1
          exact ⟨pre, b, s, post, rfl, h2, fun p hp => h3 p (by simp [hp])⟩
      · rintro ⟨pre, b, s, post, h1, h2, h3⟩
        refine ⟨p :: pre, b, s, post, by rw [h1]; rfl, h2, ?_⟩
        intro q hq e' he'
        rcases List.mem_cons.1 hq with rfl | hq
        · rw [uncoded_iff, hu] at he'; cases he'
        · exact h3 q hq e' he'

/-- The exception of a lookup. -/
def refusal (a : ABIType) (s : TypeStr) : Exc :=
  if s = t!"byte" then .noEntriesFound else
  match a with
  | .basic b sub [] => (uncodedExc (normBase b sub)).getD .abiTypeError
  | a => if (normTy a).validate = .ok () then (firstExc (normTy a)).getD .noEntriesFound else .abiTypeError

theorem sub_pos {b : List Char} {arr : List (Option Nat)} {m : Nat} {s : TypeStr} (hd : Derives (.basic b (.one m) arr) s) :
    0 < m := by
  cases hd with
  | basic _ _ h3 _ => cases h3 with | one h => exact (numeral_iff.1 h).1

theorem norm_pos {b : List Char} {sub : Sub} {arr : List (Option Nat)} {m : Nat} {s : TypeStr}
    (hd : Derives (.basic b sub arr) s) (h : (normBase b sub).2 = .one m) : 0 < m := by
  cases sub with
  | none =>
    simp only [normBase] at h
    split_ifs at h <;> (cases h; decide)
  | one n => cases h; exact sub_pos hd
  | two n k => cases h

/-- A name with a coder and nothing wrong is a type. -/
theorem coded_type {b : List Char} {sub : Sub} (hc : Coded b) (hv : validateBasic b sub = .ok ())
    (hp : ∀ m, sub = .one m → 0 < m) : ∃ t, baseTy b sub = some t := by
  have key : ∀ o : Option Ty, (o = none → validateBasic b sub = .error .abiTypeError) → ∃ t, o = some t := by
    intro o h
    cases o with
    | none => rw [h rfl] at hv; cases hv
    | some t => exact ⟨t, rfl⟩
  apply key
  rcases hc with rfl | rfl | rfl | rfl | rfl | rfl | rfl | rfl
  · intro h
    have := validate_int (b := t!"uint") (Or.inr rfl) .uint sub
    rw [show subInt .uint sub = none from h] at this
    exact this
  · intro h
    have := validate_int (b := t!"int") (Or.inl rfl) .int sub
    rw [show subInt .int sub = none from h] at this
    exact this
  · intro h
    cases sub <;> first | rfl | cases h
  · intro h
    cases h
  · intro h
    have := validate_fixed (b := t!"ufixed") (Or.inr rfl) .ufixed sub
    rw [show subFixed .ufixed sub = none from h] at this
    exact this
  · intro h
    have := validate_fixed (b := t!"fixed") (Or.inl rfl) .fixed sub
    rw [show subFixed .fixed sub = none from h] at this
    exact this
  · intro h
    cases sub with
    | none => cases h
    | one m =>
      have := validate_bytes (hp m rfl)
      rw [show subBytes (.one m) = none from h] at this
      exact this
    | two m n => rfl
  · intro h
    cases sub <;> first | rfl | cases h

theorem not_coded {b : List Char} {sub : Sub} (hc : ¬ Coded b) : baseTy b sub = none := by
  simp only [Coded, not_or] at hc
  obtain ⟨h0, h1, h2, h3, h4, h5, h6, h7⟩ := hc
  rw [baseTy, if_neg h0, if_neg h1, if_neg h2, if_neg h3, if_neg h4, if_neg h5, if_neg h6, if_neg h7]

theorem leaf_refusal [Ext] {C : Type} {k : Kit C} {n : Nat}
    {nested : TypeStr → PyM C} {b : List Char} {sub : Sub} {s : TypeStr}
    (hd : Derives (.basic b sub []) s) (hn : (ABIType.basic b sub []).numsOk = true)
    (hf : found (.basic b sub []) s = none) :
    lookStep k n nested s = .error (refusal (.basic b sub []) s) := by
  have hp : parse s = .ok (.basic b sub []) := parse_ok_iff.2 ⟨hd, hn⟩
  have hs : s = b ++ sub.str := by
    have := derives_str hd
    simpa [ABIType.toTypeStr, arrStr] using this
  have hpos : ∀ m, (normBase b sub).2 = .one m → 0 < m := fun m h => norm_pos hd h
  have hnb : b ≠ t!"byte" → s ≠ t!"byte" := by
    intro hb h
    rw [h] at hd
    cases derives_unique hd (derives_word (b := t!"byte") (by decide))
    exact hb rfl
  -- the registered classes for names with coders
  have known : ∀ (base : List Char) (mk : Sub → PyM C), Coded base → b ≠ t!"byte" →
      ((normBase b sub).1 = base ∨ (b = t!"function" ∧ sub ≠ .none)) → (b = t!"function" → base = t!"bytes") →
      (basicPlan base mk s).exec nested = .error (refusal (.basic b sub []) s) := by
    intro base mk hc hb h1 h2
    have hsb := hnb hb
    unfold found at hf
    rw [if_neg hsb] at hf
    have hm : baseTy (normBase b sub).1 (normBase b sub).2 = none := by
      simpa [normTy, meaning, wrapDims] using hf
    rw [basicPlan_eq _ hd hn, exec_ret]
    unfold refusal
    rw [if_neg hsb]
    simp only
    rcases h1 with h1 | ⟨rfl, h1⟩
    · rw [if_pos h1]
      rw [← h1] at hc
      rcases validateBasic_cases (normBase b sub).1 (normBase b sub).2 with hv | hv
      · obtain ⟨t, ht⟩ := coded_type hc hv hpos
        rw [hm] at ht; cases ht
      · rw [hv, uncodedExc, if_pos hc]; rfl
    · cases h2 rfl
      cases sub with
      | none => exact absurd rfl h1
      | one m => rfl
      | two m m' => rfl
  unfold lookStep
  rw [Kit.regs, getRegistration_parsed n _ _ _ _ _ _ _ _ _ _ _ _ hp]
  by_cases h0 : b = t!"uint"
  · subst h0
    simp only [pick, if_true]
    exact known _ _ (by decide) (by decide) (.inl (by cases sub <;> rfl)) (by decide)
  by_cases h1 : b = t!"int"
  · subst h1
    simp only [pick, if_true, h0, if_false]
    exact known _ _ (by decide) (by decide) (.inl (by cases sub <;> rfl)) (by decide)
  by_cases h2 : b = t!"address"
  · subst h2
    simp only [pick, if_true, h0, h1, if_false]
    exact known _ _ (by decide) (by decide) (.inl (by cases sub <;> rfl)) (by decide)
  by_cases h3 : b = t!"bool"
  · subst h3
    simp only [pick, if_true, h0, h1, h2, if_false]
    exact known _ _ (by decide) (by decide) (.inl (by cases sub <;> rfl)) (by decide)
  by_cases h4 : b = t!"ufixed"
  · subst h4
    simp only [pick, if_true, h0, h1, h2, h3, if_false]
    exact known _ _ (by decide) (by decide) (.inl (by cases sub <;> rfl)) (by decide)
  by_cases h5 : b = t!"fixed"
  · subst h5
    simp only [pick, if_true, h0, h1, h2, h3, h4, if_false]
    exact known _ _ (by decide) (by decide) (.inl (by cases sub <;> rfl)) (by decide)
  by_cases h6 : b = t!"bytes"
  · subst h6
    simp only [pick, if_true, h0, h1, h2, h3, h4, h5, if_false]
    cases sub with
    | none =>
      simp only [if_true]
      exact known _ _ (by decide) (by decide) (.inl rfl) (by decide)
    | two m m' =>
      rw [if_neg (by simp)]
      exact known _ _ (by decide) (by decide) (.inl rfl) (by decide)
    | one m =>
      rw [if_neg (by simp)]
      exact known _ _ (by decide) (by decide) (.inl rfl) (by decide)
  by_cases h7 : b = t!"function"
  · subst h7
    simp only [pick, if_true, h0, h1, h2, h3, h4, h5, h6, if_false]
    refine known _ _ (by decide) (by decide) ?_ (fun _ => rfl)
    cases sub with
    | none => exact .inl rfl
    | one m => exact .inr ⟨rfl, by simp⟩
    | two m m' => exact .inr ⟨rfl, by simp⟩
  by_cases h8 : b = t!"string"
  · subst h8
    simp only [pick, if_true, h0, h1, h2, h3, h4, h5, h6, h7, if_false]
    exact known _ _ (by decide) (by decide) (.inl (by cases sub <;> rfl)) (by decide)
  simp only [pick, h0, h1, h2, h3, h4, h5, h6, h7, h8, if_false]
  congr 1
  symm
  unfold refusal
  split
  · rfl
  · next hsb =>
    simp only
    have hnc : ¬ Coded b := by simp only [Coded, not_or]; exact ⟨h0, h1, h2, h3, h4, h5, h6, h8⟩
    have e : normBase b sub = (b, sub) := by
      cases sub with
      | none =>
        have hb : b ≠ t!"byte" := by rintro rfl; exact hsb (by rw [hs]; rfl)
        rw [normBase, if_neg h1, if_neg h0, if_neg h5, if_neg h4, if_neg h7, if_neg hb]
      | one m => rfl
      | two m m' => rfl
    rw [e, uncodedExc, if_neg hnc, if_neg h7]
    rfl

/-- A part of a type that was looked at. -/
theorem refusal_inner {c : ABIType} (hcn : normTy c = c) (hder : Derives c c.toTypeStr) (hv : c.validate = .ok ())
    (hm : meaning c = none) : refusal c c.toTypeStr = (firstExc c).getD .noEntriesFound := by
  have hnb : c.toTypeStr ≠ t!"byte" := by
    intro h
    rw [h] at hder
    cases derives_unique hder (derives_word (b := t!"byte") (by decide))
    simp [normTy, normBase] at hcn
  unfold refusal
  rw [if_neg hnb]
  split
  · next b sub =>
    have hb : normBase b sub = (b, sub) := by
      simp only [normTy, ABIType.basic.injEq, and_true] at hcn
      exact Prod.ext hcn.1 hcn.2
    have hm' : baseTy b sub = none := by simpa [meaning, wrapDims] using hm
    have hc : ¬ Coded b := by
      intro hc
      obtain ⟨t, ht⟩ := coded_type hc (by simpa [ABIType.validate] using hv) (by rintro m rfl; exact sub_pos hder)
      rw [hm'] at ht; cases ht
    rw [hb]
    simp only [firstExc, names, List.findSome?_cons, List.findSome?_nil, uncodedExc, if_neg hc]
    split <;> rfl
  · rw [hcn, if_pos hv]

theorem names_addDim (a : ABIType) (d : Option Nat) : names (addDim a d) = names a := by
  cases a <;> rfl

mutual
theorem firstExc_none : ∀ {c : ABIType} {t : Ty}, meaning c = some t → ∀ p ∈ names c, uncodedExc p = none
  | .basic b sub arr, t, h => by
    intro p hp
    simp only [names, List.mem_singleton] at hp
    subst hp
    simp only [meaning, Option.map_eq_some_iff] at h
    obtain ⟨u, hu, _⟩ := h
    rw [uncodedExc]
    split
    · rfl
    · next hc => rw [not_coded hc] at hu; cases hu
  | .tuple cs arr, t, h => by
    simp only [meaning, Option.map_eq_some_iff] at h
    obtain ⟨ts, h, _⟩ := h
    rw [names]
    exact firstExcs_none h
theorem firstExcs_none : ∀ {cs : List ABIType} {ts : List Ty}, meanings cs = some ts → ∀ p ∈ namesAll cs, uncodedExc p = none
  | [], _, _ => by simp [namesAll]
  | c :: cs, ts, h => by
    rw [meanings] at h
    cases hc : meaning c with
    | none => rw [hc] at h; cases h
    | some t =>
      cases hcs : meanings cs with
      | none => rw [hc, hcs] at h; cases h
      | some ts' =>
        intro p hp
        rw [namesAll, List.mem_append] at hp
        rcases hp with hp | hp
        · exact firstExc_none hc p hp
        · exact firstExcs_none hcs p hp
end

/-- A type without a meaning has a name without a coder if nothing is wrong. -/
theorem firstExc_some (c : ABIType) : Derives c c.toTypeStr → c.validate = .ok () → meaning c = none → ∃ e, firstExc c = some e := by
  induction c using ABIType.ind with
  | basic b sub arr =>
    intro hd hv hm
    have hm' : baseTy b sub = none := by simpa [meaning] using hm
    have hc : ¬ Coded b := by
      intro hc
      obtain ⟨t, ht⟩ := coded_type hc (by simpa [ABIType.validate] using hv) (by rintro m rfl; exact sub_pos hd)
      rw [hm'] at ht; cases ht
    simp only [firstExc, names, List.findSome?_cons, List.findSome?_nil, uncodedExc, if_neg hc]
    by_cases hf : b = t!"function" <;> simp [hf]
  | tuple cs arr ih =>
    intro hd hv hm
    have hm' : meanings cs = none := by simpa [meaning] using hm
    have hders : ∀ c ∈ cs, Derives c c.toTypeStr := by
      generalize (ABIType.tuple cs arr).toTypeStr = s at hd
      cases hd with
      | tuple h1 _ => exact comps_derive h1
    rw [ABIType.validate] at hv
    rw [firstExc, names]
    clear hm hd
    induction cs with
    | nil => cases hm'
    | cons c cs ih' =>
      rw [ABIType.validateAll] at hv
      have hvc : c.validate = .ok () := by
        rcases validate_cases c with h | h
        · exact h
        · rw [h] at hv; cases hv
      rw [hvc, ok_bind] at hv
      rw [namesAll, List.findSome?_append]
      cases hc : meaning c with
      | none =>
        obtain ⟨e, he⟩ := ih c (by simp) (hders c (by simp)) hvc hc
        rw [firstExc] at he
        exact ⟨e, by rw [he]; rfl⟩
      | some t =>
        have hcs : meanings cs = none := by
          rw [meanings, hc] at hm'
          cases h : meanings cs with
          | none => rfl
          | some ts => rw [h] at hm'; cases hm'
        obtain ⟨e, he⟩ := ih' (fun d hd => ih d (by simp [hd])) hv hcs (fun d hd => hders d (by simp [hd]))
        have h1 : (names c).findSome? uncodedExc = none := List.findSome?_eq_none_iff.2 (firstExc_none hc)
        exact ⟨e, by rw [h1, he]; rfl⟩

theorem exec_askAll_refusal {C : Type} {obj : Ty → C} {nested : TypeStr → PyM C} (cs : List ABIType)
    (h : ∀ c ∈ cs, ∀ t, meaning c = some t → nested c.toTypeStr = .ok (obj t))
    (h' : ∀ c ∈ cs, meaning c = none → ∃ e, firstExc c = some e ∧ nested c.toTypeStr = .error e)
    (hm : meanings cs = none) (f : List C → Plan C) :
    ∃ e, (namesAll cs).findSome? uncodedExc = some e ∧ (Plan.askAll (ABIType.toTypeStrs cs) f).exec nested = .error e := by
  induction cs generalizing f with
  | nil => cases hm
  | cons c cs ih =>
    rw [ABIType.toTypeStrs, Plan.askAll, Plan.exec, namesAll, List.findSome?_append]
    cases hc : meaning c with
    | none =>
      obtain ⟨e, he, hr⟩ := h' c (by simp) hc
      rw [firstExc] at he
      rw [hr]
      exact ⟨e, by rw [he]; rfl, rfl⟩
    | some t =>
      have hcs : meanings cs = none := by
        rw [meanings, hc] at hm
        cases h : meanings cs with
        | none => rfl
        | some ts => rw [h] at hm; cases hm
      obtain ⟨e, he, hr⟩ := ih (fun d hd => h d (by simp [hd])) (fun d hd => h' d (by simp [hd])) hcs
        (fun cs => f (obj t :: cs))
      have h1 : (names c).findSome? uncodedExc = none := List.findSome?_eq_none_iff.2 (firstExc_none hc)
      rw [h c (by simp) t hc]
      exact ⟨e, by rw [h1, he]; rfl, hr⟩

theorem validateAll_mem {cs : List ABIType} (h : ABIType.validateAll cs = .ok ()) : ∀ c ∈ cs, c.validate = .ok () := by
  intro c hc
  rw [validate_names]
  intro p hp
  refine (validateAll_names cs).1 h p ?_
  clear h
  induction cs with
  | nil => cases hc
  | cons d ds ih =>
    rw [namesAll, List.mem_append]
    rcases List.mem_cons.1 hc with rfl | hc
    · exact .inl hp
    · exact .inr (ih hc)

/-- One step of a lookup that finds nothing. -/
theorem lookStep_refusal [Ext] {C : Type} {k : Kit C} {obj : Ty → C} {n : Nat}
    {nested : TypeStr → PyM C} {fuel : Nat}
    (hnest : ∀ a s, Derives a s → a.numsOk = true → depth a ≤ fuel → Outcome obj (found a s) (nested s))
    (hnone : ∀ a s, Derives a s → a.numsOk = true → depth a ≤ fuel → found a s = none → nested s = .error (refusal a s))
    {a : ABIType} {s : TypeStr} (hd : Derives a s) (hn : a.numsOk = true) (hdep : depth a ≤ fuel + 1)
    (hno : found a s = none) :
    lookStep k n nested s = .error (refusal a s) := by
  have hp : parse s = .ok a := parse_ok_iff.2 ⟨hd, hn⟩
  have hd' := normalize_type hd
  have hs' : normalize s = (normTy a).toTypeStr := derives_str hd'
  have hn' : (normTy a).numsOk = true := (normTy_numsOk a).trans hn
  have hp' : parse (normalize s) = .ok (normTy a) := parse_ok_iff.2 ⟨hd', hn'⟩
  by_cases harr : a.isArray = true
  · -- arrays
    have harr' : (normTy a).isArray = true := by
      cases a <;> simpa [normTy, ABIType.isArray, ABIType.arrlist] using harr
    have hsb : s ≠ t!"byte" := by
      rintro rfl
      cases derives_unique hd (derives_word (b := t!"byte") (by decide))
      simp [ABIType.isArray, ABIType.arrlist] at harr
    have hm : meaning (normTy a) = none := by
      unfold found at hno
      rwa [if_neg hsb] at hno
    have href : refusal a s = if (normTy a).validate = .ok () then (firstExc (normTy a)).getD .noEntriesFound
        else .abiTypeError := by
      unfold refusal
      rw [if_neg hsb]
      split
      · simp [ABIType.isArray, ABIType.arrlist] at harr
      · rfl
    obtain ⟨item, d, e1, e2, e3, hi, hdi⟩ := split_dims hd' harr'
    rw [depth_normTy] at hdi
    have hin : normTy item = item := normTy_item (normTy_idem a) e1
    have hni : item.numsOk = true := by
      rw [e1, numsOk_addDim, Bool.and_eq_true] at hn'
      exact hn'.1
    have hreg : lookStep k n nested s = (arrayPlan k.array s).exec nested := by
      unfold lookStep
      rw [Kit.regs, getRegistration_parsed n _ _ _ _ _ _ _ _ _ _ _ _ hp]
      rcases a with ⟨b, sub, (_ | ⟨x, xs⟩)⟩ | ⟨cs, (_ | ⟨x, xs⟩)⟩
      · simp [ABIType.isArray, ABIType.arrlist] at harr
      · rfl
      · simp [ABIType.isArray, ABIType.arrlist] at harr
      · rfl
    rw [hreg, href]
    have hpt : parseTypeStr none true s = ((normTy a).validate >>= fun _ => .ok (normTy a)) := by
      unfold parseTypeStr
      rw [hp']
      simp [harr']
    unfold arrayPlan
    rw [hpt]
    rcases validate_cases (normTy a) with hv | hv
    · rw [hv, if_pos rfl]
      simp only [ok_bind, Plan.bindPyM, e2, Plan.exec, e3]
      have hmi : meaning item = none := by
        rw [e1, meaning_addDim] at hm
        cases h : meaning item with
        | none => rfl
        | some t => rw [h] at hm; cases hm
      have hvi : item.validate = .ok () := by
        rw [validate_names, e1, names_addDim] at hv
        rwa [validate_names]
      rw [hnone item item.toTypeStr hi hni (by omega) (by rw [found_normal hin hi, hmi]),
        refusal_inner hin hi hvi hmi]
      simp only
      rw [firstExc, firstExc, e1, names_addDim]
    · rw [hv, if_neg (by simp)]
      rfl
  · rcases a with ⟨b, sub, (_ | ⟨x, xs⟩)⟩ | ⟨cs, (_ | ⟨x, xs⟩)⟩
    · exact leaf_refusal hd hn hno
    · exact absurd rfl harr
    · -- tuples
      have hsb : s ≠ t!"byte" := by
        rintro rfl
        cases derives_unique hd (derives_word (b := t!"byte") (by decide))
      have hm : meaning (normTy (.tuple cs [])) = none := by
        unfold found at hno
        rwa [if_neg hsb] at hno
      have hreg : lookStep k n nested s = (tuplePlan k.tuple s).exec nested := by
        unfold lookStep
        rw [Kit.regs, getRegistration_parsed n _ _ _ _ _ _ _ _ _ _ _ _ hp]
        rfl
      rw [hreg]
      unfold refusal
      rw [if_neg hsb]
      simp only
      have hnt : normTy (.tuple cs []) = .tuple (normTys cs) [] := by rw [normTy]
      rw [hnt] at hp' hd' hn' hm ⊢
      have hpt : parseTupleTypeStr s = ((ABIType.tuple (normTys cs) []).validate >>= fun _ => .ok (normTys cs)) := by
        unfold parseTupleTypeStr
        rw [hp']
        rfl
      unfold tuplePlan
      rw [hpt]
      have hms : meanings (normTys cs) = none := by
        simp only [meaning, wrapDims, Option.map_eq_none_iff] at hm
        exact hm
      rcases validate_cases (.tuple (normTys cs) []) with hv | hv
      · rw [hv, if_pos rfl]
        simp only [ok_bind, Plan.bindPyM]
        have hcs : ∀ c ∈ normTys cs, Derives c c.toTypeStr ∧ c.numsOk = true ∧ normTy c = c ∧ depth c ≤ fuel ∧
            c.validate = .ok () := by
          intro c hc
          have hder : Derives c c.toTypeStr := by
            generalize normalize s = s' at hd'
            cases hd' with
            | tuple h1 _ => exact comps_derive h1 c hc
          have hnc : c.numsOk = true := by
            simp only [ABIType.numsOk, allNumsOk_eq, Bool.and_eq_true] at hn'
            exact List.all_eq_true.1 hn'.1 c hc
          have hcn : normTy c = c := by
            rw [normTys_eq_map] at hc
            obtain ⟨c', _, rfl⟩ := List.mem_map.1 hc
            exact normTy_idem c'
          have hdc : depth c ≤ fuel := by
            have h1 := depths_mem hc
            have h2 := depth_normTy (.tuple cs [])
            rw [hnt] at h2
            simp only [depth, List.length_nil] at h2 hdep
            omega
          rw [ABIType.validate] at hv
          exact ⟨hder, hnc, hcn, hdc, validateAll_mem hv c hc⟩
        obtain ⟨e, he, hr⟩ := exec_askAll_refusal (obj := obj) (nested := nested) (normTys cs)
          (by
            intro c hc t ht
            obtain ⟨h1, h2, h3, h4, _⟩ := hcs c hc
            have := hnest c _ h1 h2 h4
            rw [found_normal h3 h1, ht] at this
            exact this)
          (by
            intro c hc hcm
            obtain ⟨h1, h2, h3, h4, h5⟩ := hcs c hc
            obtain ⟨e, he⟩ := firstExc_some c h1 h5 hcm
            refine ⟨e, he, ?_⟩
            rw [hnone c _ h1 h2 h4 (by rw [found_normal h3 h1, hcm]), refusal_inner h3 h1 h5 hcm, he]
            rfl)
          hms (fun cs => .ret (.ok (k.tuple cs)))
        rw [hr, firstExc, names, he]
        rfl
      · rw [hv, if_neg (by simp)]
        rfl
    · exact absurd rfl harr

/-- The lookup of an encoder that finds nothing. -/
theorem getEncoderFuel_refusal [Ext] (pk : Bool) (n fuel : Nat) : ∀ a s, Derives a s → a.numsOk = true →
    depth a ≤ fuel → found a s = none →
    getEncoderFuel (mappingOf n defaultPreds (encKit pk).regs) fuel s = .error (refusal a s) := by
  induction fuel with
  | zero =>
    intro a s _ _ h
    cases a <;> simp [depth] at h
  | succ fuel ih =>
    intro a s hd hn hdep hno
    rw [getEncoderFuel_step]
    exact lookStep_refusal (getEncoderFuel_outcome pk n fuel) ih hd hn hdep hno

/-- The lookup of a decoder that finds nothing. -/
theorem getDecoderFuel_refusal [Ext] (n fuel : Nat) : ∀ a s, Derives a s → a.numsOk = true →
    depth a ≤ fuel → found a s = none → ∀ strict,
    getDecoderFuel (mappingOf n defaultPreds (decKit).regs) fuel s strict = .error (refusal a s) := by
  induction fuel with
  | zero =>
    intro a s _ _ h
    cases a <;> simp [depth] at h
  | succ fuel ih =>
    intro a s hd hn hdep hno strict
    rw [getDecoderFuel_step, lookStep_refusal (getDecoderFuel_outcome n fuel)
      (fun a s h1 h2 h3 h4 => ih a s h1 h2 h3 h4 _) hd hn hdep hno]
    rfl

end EthAbi
