import Verif.Lemmas.Declined
import Verif.Lemmas.Pointing
import Verif.Props.Located
import Verif.Props.Grammar
import Verif.Spec.Lookups
import Verif.Lemmas.Calls
import Verif.Props.Declined
import Verif.Props.Pointing

/-! # Lemmas for C83 -/
namespace EthAbi
open Spec

/-- The mapping of a default registry with its texts. -/
def tellMap [Ext] {C : Type} (w : Wording) (k : Kit C) (n : Nat) (c : Nat → List Char) (fn : List Char) :
    Mapping (Telling C) :=
  mappingOf n defaultPreds
    [ ⟨.cls (basicPlan t!"uint" (intPlan k.uint)), typeStrSays w (c 0) (some t!"uint") false⟩,
      ⟨.cls (basicPlan t!"int" (intPlan k.int)), typeStrSays w (c 1) (some t!"int") false⟩,
      ⟨.cls (basicPlan t!"address" fun _ => k.address), typeStrSays w (c 2) (some t!"address") false⟩,
      ⟨.cls (basicPlan t!"bool" fun _ => k.bool), typeStrSays w (c 3) (some t!"bool") false⟩,
      ⟨.cls (basicPlan t!"ufixed" (fixedPlan k.ufixed)), typeStrSays w (c 4) (some t!"ufixed") false⟩,
      ⟨.cls (basicPlan t!"fixed" (fixedPlan k.fixed)), typeStrSays w (c 5) (some t!"fixed") false⟩,
      ⟨.cls (basicPlan t!"bytes" (intPlan k.bytesM)), typeStrSays w (c 6) (some t!"bytes") false⟩,
      ⟨.cls (basicPlan t!"bytes" fun _ => .ok k.bytes), typeStrSays w (c 7) (some t!"bytes") false⟩,
      ⟨.cls (basicPlan t!"bytes" (intPlan k.bytesM)), typeStrSays w fn (some t!"bytes") false⟩,
      ⟨.cls (basicPlan t!"string" fun _ => .ok k.string), typeStrSays w (c 8) (some t!"string") false⟩,
      ⟨.cls (arrayPlan k.array), typeStrSays w (c 9) none true⟩,
      ⟨.cls (tuplePlan k.tuple), tupleStrSays w (c 10)⟩ ]

/-- What is said of a name without a coder, as a function. -/
def uncodedText (k : Coders) (p : List Char × Sub) : Option (List Char) :=
  if Coded p.1 then none
  else if p.1 = t!"function" then
    some (t!"Cannot create " ++ k.functionClass ++ t!" for type '" ++ written p.1 p.2 ++
      t!"': expected type with base 'bytes'")
  else some (t!"No matching entries for '" ++ written p.1 p.2 ++ t!"' in " ++ k.title)

/-- The first such text. -/
def firstText (k : Coders) (a : ABIType) : Option (List Char) := (names a).findSome? (uncodedText k)

/-- What is said of a type without a coder. -/
def explain [Ext] (k : Coders) (a : ABIType) (s : TypeStr) : Option (List Char) :=
  if s = t!"byte" then some (t!"No matching entries for 'byte' in " ++ k.title) else
  match a with
  | .basic b sub [] => (uncodedText k (normBase b sub)).or (validateSays (normalize s))
  | a => if (normTy a).validate = .ok () then firstText k (normTy a) else validateSays (normalize s)

theorem written_eq (b : List Char) (sub : Sub) : written b sub = b ++ sub.str := by
  cases sub <;> simp [written, Sub.str]

theorem infix_noMatching (x y : List Char) : isInfix t!"No matching" (t!"No matching" ++ y) = true := rfl

theorem says_ret {C : Type} {look : TypeStr → PyM C} {nested : TypeStr → Option (List Char)} {own : Option (List Char)}
    {r : PyM C} {e : Exc} (h : r = .error e) : (Plan.ret r).says look nested own = own := by rw [h]; rfl

/-- A lookup that matches nothing. -/
theorem registrationSays_none [Ext] {V : Type} {w : Wording} {name : List Char} {m : Mapping V} {s : TypeStr} {a : ABIType}
    (hp : parse s = .ok a) (h : m.getRegistration s = .error .noEntriesFound)
    (hr : m.values.filter (fun q => q.1.kind.test a) = [])
    (hk : ∀ q ∈ m.values, (∃ b w, q.1.kind = .baseEquals b w) ∨ q.1.kind = .hasArrlist ∨ q.1.kind = .isBaseTuple) :
    m.registrationSays w name s = some (noEntriesText name s) := by
  have hres := results_parsed hp m.values hk
  rw [hr] at hres
  have hf : m.findSays w name s = some (noEntriesText name s) := by
    unfold Mapping.findSays
    rw [hres]
  unfold Mapping.registrationSays
  rw [hf]
  simp only
  have : isInfix t!"No matching" (noEntriesText name s) = true := rfl
  rw [this, if_pos rfl, hp]

theorem typeStrSays_leaf [Ext] {w : Wording} {cls base b : List Char} {sub : Sub} {s : TypeStr}
    (hd : Derives (.basic b sub []) s) (hn : (ABIType.basic b sub []).numsOk = true) :
    typeStrSays w cls (some base) false s =
      if (normBase b sub).1 = base then validateSays (normalize s)
      else some (t!"Cannot create " ++ cls ++ t!" for type " ++ typeRep w s ++ t!": expected type with base '" ++ base ++
        t!"'") := by
  have hp : parse (normalize s) = .ok (.basic (normBase b sub).1 (normBase b sub).2 []) :=
    parse_ok_iff.2 ⟨by simpa [normTy] using normalize_type hd, (normTy_numsOk _).trans hn⟩
  unfold typeStrSays
  rw [hp]
  simp only
  by_cases h : (normBase b sub).1 = base
  · rw [if_neg (by simpa using h), if_pos h]
    rfl
  · rw [if_pos (by simpa using h), if_neg h]

/-- Which registration answers for a name, and what it says. -/
theorem leaf_registration [Ext] {C : Type} (w : Wording) (k : Kit C) (n : Nat) (c : Nat → List Char) (fn : List Char)
    {b : List Char} {sub : Sub} {s : TypeStr} (hp : parse s = .ok (.basic b sub [])) :
    (∃ base mk cls, (tellMap w k n c fn).getRegistration s =
        .ok ⟨.cls (basicPlan base mk), typeStrSays w cls (some base) false⟩ ∧ Coded base ∧ b ≠ t!"byte" ∧
        ((normBase b sub).1 = base ∨ b = t!"function" ∧ sub ≠ .none ∧ base = t!"bytes" ∧ cls = fn)) ∨
    ((tellMap w k n c fn).getRegistration s = .error .noEntriesFound ∧
      (tellMap w k n c fn).values.filter (fun q => q.1.kind.test (.basic b sub [])) = [] ∧ ¬ Coded b ∧
      b ≠ t!"function") := by
  unfold tellMap
  have hreg := getRegistration_parsed n
    (⟨.cls (basicPlan t!"uint" (intPlan k.uint)), typeStrSays w (c 0) (some t!"uint") false⟩ : Telling C)
    ⟨.cls (basicPlan t!"int" (intPlan k.int)), typeStrSays w (c 1) (some t!"int") false⟩
    ⟨.cls (basicPlan t!"address" fun _ => k.address), typeStrSays w (c 2) (some t!"address") false⟩
    ⟨.cls (basicPlan t!"bool" fun _ => k.bool), typeStrSays w (c 3) (some t!"bool") false⟩
    ⟨.cls (basicPlan t!"ufixed" (fixedPlan k.ufixed)), typeStrSays w (c 4) (some t!"ufixed") false⟩
    ⟨.cls (basicPlan t!"fixed" (fixedPlan k.fixed)), typeStrSays w (c 5) (some t!"fixed") false⟩
    ⟨.cls (basicPlan t!"bytes" (intPlan k.bytesM)), typeStrSays w (c 6) (some t!"bytes") false⟩
    ⟨.cls (basicPlan t!"bytes" fun _ => .ok k.bytes), typeStrSays w (c 7) (some t!"bytes") false⟩
    ⟨.cls (basicPlan t!"bytes" (intPlan k.bytesM)), typeStrSays w fn (some t!"bytes") false⟩
    ⟨.cls (basicPlan t!"string" fun _ => .ok k.string), typeStrSays w (c 8) (some t!"string") false⟩
    ⟨.cls (arrayPlan k.array), typeStrSays w (c 9) none true⟩
    ⟨.cls (tuplePlan k.tuple), tupleStrSays w (c 10)⟩ hp
  have hfil := find_pick n
    (⟨.cls (basicPlan t!"uint" (intPlan k.uint)), typeStrSays w (c 0) (some t!"uint") false⟩ : Telling C)
    ⟨.cls (basicPlan t!"int" (intPlan k.int)), typeStrSays w (c 1) (some t!"int") false⟩
    ⟨.cls (basicPlan t!"address" fun _ => k.address), typeStrSays w (c 2) (some t!"address") false⟩
    ⟨.cls (basicPlan t!"bool" fun _ => k.bool), typeStrSays w (c 3) (some t!"bool") false⟩
    ⟨.cls (basicPlan t!"ufixed" (fixedPlan k.ufixed)), typeStrSays w (c 4) (some t!"ufixed") false⟩
    ⟨.cls (basicPlan t!"fixed" (fixedPlan k.fixed)), typeStrSays w (c 5) (some t!"fixed") false⟩
    ⟨.cls (basicPlan t!"bytes" (intPlan k.bytesM)), typeStrSays w (c 6) (some t!"bytes") false⟩
    ⟨.cls (basicPlan t!"bytes" fun _ => .ok k.bytes), typeStrSays w (c 7) (some t!"bytes") false⟩
    ⟨.cls (basicPlan t!"bytes" (intPlan k.bytesM)), typeStrSays w fn (some t!"bytes") false⟩
    ⟨.cls (basicPlan t!"string" fun _ => .ok k.string), typeStrSays w (c 8) (some t!"string") false⟩
    ⟨.cls (arrayPlan k.array), typeStrSays w (c 9) none true⟩
    ⟨.cls (tuplePlan k.tuple), tupleStrSays w (c 10)⟩ (.basic b sub [])
  rw [hreg]
  by_cases h0 : b = t!"uint"
  · subst h0
    exact .inl ⟨_, _, _, rfl, by decide, by decide, .inl (by cases sub <;> rfl)⟩
  by_cases h1 : b = t!"int"
  · subst h1
    exact .inl ⟨_, _, _, rfl, by decide, by decide, .inl (by cases sub <;> rfl)⟩
  by_cases h2 : b = t!"address"
  · subst h2
    exact .inl ⟨_, _, _, rfl, by decide, by decide, .inl (by cases sub <;> rfl)⟩
  by_cases h3 : b = t!"bool"
  · subst h3
    exact .inl ⟨_, _, _, rfl, by decide, by decide, .inl (by cases sub <;> rfl)⟩
  by_cases h4 : b = t!"ufixed"
  · subst h4
    exact .inl ⟨_, _, _, rfl, by decide, by decide, .inl (by cases sub <;> rfl)⟩
  by_cases h5 : b = t!"fixed"
  · subst h5
    exact .inl ⟨_, _, _, rfl, by decide, by decide, .inl (by cases sub <;> rfl)⟩
  by_cases h6 : b = t!"bytes"
  · subst h6
    cases sub with
    | none => exact .inl ⟨_, _, _, rfl, by decide, by decide, .inl rfl⟩
    | one m => exact .inl ⟨_, _, _, rfl, by decide, by decide, .inl rfl⟩
    | two m m' => exact .inl ⟨_, _, _, rfl, by decide, by decide, .inl rfl⟩
  by_cases h7 : b = t!"function"
  · subst h7
    cases sub with
    | none => exact .inl ⟨_, _, _, rfl, by decide, by decide, .inl rfl⟩
    | one m => exact .inl ⟨_, _, _, rfl, by decide, by decide, .inr ⟨rfl, by simp, rfl, rfl⟩⟩
    | two m m' => exact .inl ⟨_, _, _, rfl, by decide, by decide, .inr ⟨rfl, by simp, rfl, rfl⟩⟩
  by_cases h8 : b = t!"string"
  · subst h8
    exact .inl ⟨_, _, _, rfl, by decide, by decide, .inl (by cases sub <;> rfl)⟩
  obtain ⟨p, hfil⟩ := hfil
  refine .inr ?_
  rw [hfil]
  simp only [pick, h0, h1, h2, h3, h4, h5, h6, h7, h8, if_false]
  exact ⟨trivial, trivial, by simp only [Coded, not_or]; exact ⟨h0, h1, h2, h3, h4, h5, h6, h8⟩, h7⟩

theorem numeral_isDigit {n : Nat} {w : List Char} (h : Numeral n w) : ∀ c ∈ w, IsDigit c := by
  induction h with
  | one h1 h2 =>
    intro c hc
    simp only [List.mem_singleton] at hc
    subst hc
    exact ⟨Char.le_trans (show '0' ≤ '1' by decide) h1, h2⟩
  | snoc _ h1 h2 ih =>
    intro c hc
    rw [List.mem_append, List.mem_singleton] at hc
    rcases hc with hc | rfl
    · exact ih c hc
    · exact ⟨h1, h2⟩

theorem plain_name {b : List Char} {sub : Sub} {s : TypeStr} (hd : Derives (.basic b sub []) s) :
    ∀ c ∈ s, IsLetter c ∨ IsDigit c := by
  cases hd with
  | basic h1 h2 h3 h4 =>
    cases h4
    intro c hc
    rw [List.append_nil, List.mem_append] at hc
    rcases hc with hc | hc
    · exact .inl (h2 c hc)
    · cases h3 with
      | none => cases hc
      | one h => exact .inr (numeral_isDigit h c hc)
      | two h h' =>
        rw [List.mem_append, List.mem_append] at hc
        rcases hc with (hc | hc) | hc
        · exact .inr (numeral_isDigit h c hc)
        · rw [List.mem_singleton] at hc
          subst hc
          exact .inl (.inr (by decide))
        · exact .inr (numeral_isDigit h' c hc)

/-- What is said of the type of a string, if anything is. -/
theorem validateSays_cases [Ext] {s : TypeStr} {a : ABIType} (hp : parse s = .ok a) :
    (a.validate = .ok () ∧ validateSays s = none ∧ ∀ p w msg, ¬ FirstWrong s p w msg) ∨
    (a.validate = .error .abiTypeError ∧ ∃ p w msg, FirstWrong s p w msg ∧
      validateSays s = some (t!"For '" ++ w ++ t!"' type at column " ++ natDigits (p + 1) ++ t!" in '" ++ s ++ t!"': " ++
        msg)) := by
  have hN : parseN s = .ok (locate s 0 a) := by rw [parseN_eq, hp]; rfl
  unfold validateSays
  rw [hN]
  simp only
  rcases located_verdict s 0 a with ⟨h1, h2⟩ | ⟨h1, m, h2⟩
  · refine .inl ⟨h1, by rw [h2], fun p w msg h => ?_⟩
    have := (C65_invalid hN).2 ⟨p, w, msg, h, rfl⟩
    rw [h2] at this
    cases this
  · refine .inr ⟨h1, ?_⟩
    obtain ⟨p, w, msg, h3, h4⟩ := (C65_invalid hN).1 h2
    cases h4
    exact ⟨p, w, msg, h3, by rw [h2]⟩

/-- What a lookup says of a name. -/
theorem leaf_says [Ext] {C : Type} {w : Wording} (hw : PrintsPlain w) {k : Kit C} {n : Nat} {c : Nat → List Char} {q : Coders}
    {look : Nat → TypeStr → PyM C} {fuel : Nat} {b : List Char} {sub : Sub} {s : TypeStr}
    (hd : Derives (.basic b sub []) s) (hn : (ABIType.basic b sub []).numsOk = true)
    (hf : found (.basic b sub []) s = none) :
    lookupSays w look q.title (tellMap w k n c q.functionClass) (fuel + 1) s = explain q (.basic b sub []) s := by
  have hp : parse s = .ok (.basic b sub []) := parse_ok_iff.2 ⟨hd, hn⟩
  have hs : s = b ++ sub.str := by
    have := derives_str hd
    simpa [ABIType.toTypeStr, arrStr] using this
  have hnb : b ≠ t!"byte" → s ≠ t!"byte" := by
    intro hb h
    rw [h] at hd
    cases derives_unique hd (derives_word (b := t!"byte") (by decide))
    exact hb rfl
  rw [lookupSays]
  rcases leaf_registration w k n c q.functionClass hp with ⟨base, mk, cls, h1, h2, h3, h4⟩ | ⟨h1, h2, h3, h4⟩
  · rw [h1]
    simp only
    have hsb := hnb h3
    unfold found at hf
    rw [if_neg hsb] at hf
    have hm : baseTy (normBase b sub).1 (normBase b sub).2 = none := by
      simpa [normTy, meaning, wrapDims] using hf
    unfold explain
    rw [if_neg hsb]
    simp only
    rw [basicPlan_eq _ hd hn, typeStrSays_leaf hd hn]
    rcases h4 with h4 | ⟨rfl, h4, rfl, rfl⟩
    · rw [if_pos h4, if_pos h4, uncodedText, h4, if_pos h2]
      have hv : validateBasic (normBase b sub).1 (normBase b sub).2 = .error .abiTypeError := by
        rcases validateBasic_cases (normBase b sub).1 (normBase b sub).2 with hv | hv
        · obtain ⟨t, ht⟩ := coded_type (h4.symm ▸ h2) hv (fun m h => norm_pos hd h)
          rw [hm] at ht; cases ht
        · exact hv
      rw [h4] at hv
      rw [hv]
      rfl
    · have e : normBase t!"function" sub = (t!"function", sub) := by cases sub <;> first | exact absurd rfl h4 | rfl
      have hsn : normalize s = s := by
        rw [derives_str (normalize_type hd), normTy, e, hs]
        simp [ABIType.toTypeStr, arrStr]
      rw [e]
      simp only
      rw [if_neg (by decide), if_neg (by decide), uncodedText]
      simp only
      rw [if_neg (by decide), if_pos trivial, typeRep, hsn,
        if_neg (by simp), hw s (plain_name hd), written_eq, ← hs]
      simp [Plan.says]
  · rw [h1]
    simp only
    rw [registrationSays_none hp h1 h2 (default_kinds n _)]
    unfold explain noEntriesText
    split
    · next hb => rw [hb]; rfl
    · next hsb =>
      simp only
      have e : normBase b sub = (b, sub) := by
        rcases normBase_cases b sub with ⟨⟨rfl, _, ha⟩, hc, _⟩ | ⟨_, h⟩
        · cases ha
          all_goals first
            | exact absurd (by decide) h3
            | exact absurd rfl h4
            | exact absurd (by rw [hs]; rfl) hsb
        · exact h
      rw [e, uncodedText, if_neg h3, if_neg h4, written_eq, ← hs]
      rfl

theorem explain_inner [Ext] {q : Coders} {c : ABIType} (hcn : normTy c = c) (hder : Derives c c.toTypeStr)
    (hv : c.validate = .ok ()) (hm : meaning c = none) : explain q c c.toTypeStr = firstText q c := by
  have hnb : c.toTypeStr ≠ t!"byte" := by
    intro h
    rw [h] at hder
    cases derives_unique hder (derives_word (b := t!"byte") (by decide))
    simp [normTy, normBase] at hcn
  unfold explain
  rw [if_neg hnb]
  split
  · next b sub =>
    have hb : normBase b sub = (b, sub) := by
      simp only [normTy, ABIType.basic.injEq, and_true] at hcn
      exact Prod.ext hcn.1 hcn.2
    have hm' : baseTy b sub = none := by simpa [meaning, wrapDims] using hm
    have hc : ¬ Coded b := by
      intro hc
      obtain ⟨t, ht⟩ := coded_type hc (by simpa [ABIType.validate] using hv) (by rintro m rfl; exact sub_pos hder)
      rw [hm'] at ht; cases ht
    rw [hb]
    simp only [firstText, names, List.findSome?_cons, List.findSome?_nil, uncodedText, if_neg hc]
    split <;> rfl
  · rw [hcn, if_pos hv]

theorem uncodedText_none {q : Coders} {p : List Char × Sub} : uncodedText q p = none ↔ uncodedExc p = none := by
  unfold uncodedText uncodedExc
  split
  · simp
  · split <;> simp

theorem firstText_none {q : Coders} {c : ABIType} {t : Ty} (h : meaning c = some t) :
    (names c).findSome? (uncodedText q) = none :=
  List.findSome?_eq_none_iff.2 fun p hp => uncodedText_none.2 (firstExc_none h p hp)

theorem firstText_some {q : Coders} {c : ABIType} (hd : Derives c c.toTypeStr) (hv : c.validate = .ok ())
    (hm : meaning c = none) : ∃ text, firstText q c = some text := by
  obtain ⟨e, he⟩ := firstExc_some c hd hv hm
  cases h : firstText q c with
  | some text => exact ⟨text, rfl⟩
  | none =>
    exfalso
    unfold firstText at h
    unfold firstExc at he
    have : (names c).findSome? uncodedExc = none :=
      List.findSome?_eq_none_iff.2 fun p hp => uncodedText_none.1 (List.findSome?_eq_none_iff.1 h p hp)
    rw [this] at he
    cases he

theorem askAll_says {C : Type} {obj : Ty → C} {q : Coders} {look : TypeStr → PyM C} {nested : TypeStr → Option (List Char)}
    {own : Option (List Char)} (cs : List ABIType)
    (h : ∀ c ∈ cs, ∀ t, meaning c = some t → look c.toTypeStr = .ok (obj t))
    (h' : ∀ c ∈ cs, meaning c = none → (∃ e, look c.toTypeStr = .error e) ∧ (∃ text, firstText q c = some text) ∧
      nested c.toTypeStr = firstText q c)
    (hm : meanings cs = none) (f : List C → Plan C) :
    (Plan.askAll (ABIType.toTypeStrs cs) f).says look nested own = (namesAll cs).findSome? (uncodedText q) := by
  induction cs generalizing f with
  | nil => cases hm
  | cons c cs ih =>
    rw [ABIType.toTypeStrs, Plan.askAll, Plan.says, namesAll, List.findSome?_append]
    cases hc : meaning c with
    | none =>
      obtain ⟨⟨e, he⟩, ⟨text, ht⟩, hr⟩ := h' c (by simp) hc
      rw [he]
      simp only
      rw [hr, ht]
      rw [firstText] at ht
      rw [ht]
      rfl
    | some t =>
      have hcs : meanings cs = none := by
        rw [meanings, hc] at hm
        cases h : meanings cs with
        | none => rfl
        | some ts => rw [h] at hm; cases hm
      rw [h c (by simp) t hc, firstText_none hc]
      simp only [Option.none_or]
      exact ih (fun d hd => h d (by simp [hd])) (fun d hd => h' d (by simp [hd])) hcs _

/-- What a lookup says of a type without a coder. -/
theorem lookup_says [Ext] {C : Type} {w : Wording} (hw : PrintsPlain w) {k : Kit C} {n : Nat} {c : Nat → List Char}
    {q : Coders} {look : Nat → TypeStr → PyM C} {obj : Ty → C}
    (hlook : ∀ fuel a s, Derives a s → a.numsOk = true → depth a ≤ fuel → Outcome obj (found a s) (look fuel s))
    (fuel : Nat) : ∀ a s, Derives a s → a.numsOk = true → depth a ≤ fuel → found a s = none →
    lookupSays w look q.title (tellMap w k n c q.functionClass) fuel s = explain q a s := by
  induction fuel with
  | zero =>
    intro a s _ _ h
    cases a <;> simp [depth] at h
  | succ fuel ih =>
    intro a s hd hn hdep hno
    have hp : parse s = .ok a := parse_ok_iff.2 ⟨hd, hn⟩
    have hd' := normalize_type hd
    have hs' : normalize s = (normTy a).toTypeStr := derives_str hd'
    have hn' : (normTy a).numsOk = true := (normTy_numsOk a).trans hn
    have hp' : parse (normalize s) = .ok (normTy a) := parse_ok_iff.2 ⟨hd', hn'⟩
    by_cases harr : a.isArray = true
    · have harr' : (normTy a).isArray = true := by
        cases a <;> simpa [normTy, ABIType.isArray, ABIType.arrlist] using harr
      have hsb : s ≠ t!"byte" := by
        rintro rfl
        cases derives_unique hd (derives_word (b := t!"byte") (by decide))
        simp [ABIType.isArray, ABIType.arrlist] at harr
      have hm : meaning (normTy a) = none := by
        unfold found at hno
        rwa [if_neg hsb] at hno
      have href : explain q a s = if (normTy a).validate = .ok () then firstText q (normTy a)
          else validateSays (normalize s) := by
        unfold explain
        rw [if_neg hsb]
        split
        · simp [ABIType.isArray, ABIType.arrlist] at harr
        · rfl
      obtain ⟨item, d, e1, e2, e3, hi, hdi⟩ := split_dims hd' harr'
      rw [depth_normTy] at hdi
      have hin : normTy item = item := normTy_item (normTy_idem a) e1
      have hni : item.numsOk = true := by
        rw [e1, numsOk_addDim, Bool.and_eq_true] at hn'
        exact hn'.1
      have hreg : lookupSays w look q.title (tellMap w k n c q.functionClass) (fuel + 1) s =
          (arrayPlan k.array s).says (look fuel) (lookupSays w look q.title (tellMap w k n c q.functionClass) fuel)
            (typeStrSays w (c 9) none true s) := by
        rw [lookupSays, tellMap, getRegistration_parsed n _ _ _ _ _ _ _ _ _ _ _ _ hp]
        rcases a with ⟨b, sub, (_ | ⟨x, xs⟩)⟩ | ⟨cs, (_ | ⟨x, xs⟩)⟩
        · simp [ABIType.isArray, ABIType.arrlist] at harr
        · rfl
        · simp [ABIType.isArray, ABIType.arrlist] at harr
        · rfl
      have hown : typeStrSays w (c 9) none true s = validateSays (normalize s) := by
        unfold typeStrSays
        rw [hp']
        simp [typeStrSays.arrlistSays, harr']
      rw [hreg, href, hown]
      have hpt : parseTypeStr none true s = ((normTy a).validate >>= fun _ => .ok (normTy a)) := by
        unfold parseTypeStr
        rw [hp']
        simp [harr']
      unfold arrayPlan
      rw [hpt]
      rcases validate_cases (normTy a) with hv | hv
      · rw [hv, if_pos rfl]
        simp only [ok_bind, Plan.bindPyM, e2, Plan.says, e3]
        have hmi : meaning item = none := by
          rw [e1, meaning_addDim] at hm
          cases h : meaning item with
          | none => rfl
          | some t => rw [h] at hm; cases hm
        have hvi : item.validate = .ok () := by
          rw [validate_names, e1, names_addDim] at hv
          rwa [validate_names]
        have hfi : found item item.toTypeStr = none := by rw [found_normal hin hi, hmi]
        have ho := hlook fuel item item.toTypeStr hi hni (by omega)
        rw [hfi] at ho
        obtain ⟨e, he, _⟩ := ho
        rw [he]
        simp only
        rw [ih item item.toTypeStr hi hni (by omega) hfi, explain_inner hin hi hvi hmi]
        rw [firstText, firstText, e1, names_addDim]
      · rw [hv, if_neg (by simp)]
        rfl
    · rcases a with ⟨b, sub, (_ | ⟨x, xs⟩)⟩ | ⟨cs, (_ | ⟨x, xs⟩)⟩
      · exact leaf_says hw hd hn hno
      · exact absurd rfl harr
      · have hsb : s ≠ t!"byte" := by
          rintro rfl
          cases derives_unique hd (derives_word (b := t!"byte") (by decide))
        have hm : meaning (normTy (.tuple cs [])) = none := by
          unfold found at hno
          rwa [if_neg hsb] at hno
        have hreg : lookupSays w look q.title (tellMap w k n c q.functionClass) (fuel + 1) s =
            (tuplePlan k.tuple s).says (look fuel) (lookupSays w look q.title (tellMap w k n c q.functionClass) fuel)
              (tupleStrSays w (c 10) s) := by
          rw [lookupSays, tellMap, getRegistration_parsed n _ _ _ _ _ _ _ _ _ _ _ _ hp]
          rfl
        rw [hreg]
        unfold explain
        rw [if_neg hsb]
        simp only
        have hnt : normTy (.tuple cs []) = .tuple (normTys cs) [] := by rw [normTy]
        rw [hnt] at hp' hd' hn' hm ⊢
        have hown : tupleStrSays w (c 10) s = validateSays (normalize s) := by
          unfold tupleStrSays
          rw [hp']
        rw [hown]
        have hpt : parseTupleTypeStr s = ((ABIType.tuple (normTys cs) []).validate >>= fun _ => .ok (normTys cs)) := by
          unfold parseTupleTypeStr
          rw [hp']
          rfl
        unfold tuplePlan
        rw [hpt]
        have hms : meanings (normTys cs) = none := by
          simp only [meaning, wrapDims, Option.map_eq_none_iff] at hm
          exact hm
        rcases validate_cases (.tuple (normTys cs) []) with hv | hv
        · rw [hv, if_pos rfl]
          simp only [ok_bind, Plan.bindPyM]
          have hcs : ∀ c ∈ normTys cs, Derives c c.toTypeStr ∧ c.numsOk = true ∧ normTy c = c ∧ depth c ≤ fuel ∧
              c.validate = .ok () := by
            intro c hc
            have hder : Derives c c.toTypeStr := by
              generalize normalize s = s' at hd'
              cases hd' with
              | tuple h1 _ => exact comps_derive h1 c hc
            have hnc : c.numsOk = true := by
              simp only [ABIType.numsOk, allNumsOk_eq, Bool.and_eq_true] at hn'
              exact List.all_eq_true.1 hn'.1 c hc
            have hcn : normTy c = c := by
              rw [normTys_eq_map] at hc
              obtain ⟨c', _, rfl⟩ := List.mem_map.1 hc
              exact normTy_idem c'
            have hdc : depth c ≤ fuel := by
              have h1 := depths_mem hc
              have h2 := depth_normTy (.tuple cs [])
              rw [hnt] at h2
              simp only [depth, List.length_nil] at h2 hdep
              omega
            rw [ABIType.validate] at hv
            exact ⟨hder, hnc, hcn, hdc, validateAll_mem hv c hc⟩
          rw [askAll_says (obj := obj) (q := q) (normTys cs)
            (by
              intro c hc t ht
              obtain ⟨h1, h2, h3, h4, _⟩ := hcs c hc
              have := hlook fuel c _ h1 h2 h4
              rw [found_normal h3 h1, ht] at this
              exact this)
            (by
              intro c hc hcm
              obtain ⟨h1, h2, h3, h4, h5⟩ := hcs c hc
              have ho := hlook fuel c _ h1 h2 h4
              rw [found_normal h3 h1, hcm] at ho
              obtain ⟨e, he, _⟩ := ho
              refine ⟨⟨e, he⟩, firstText_some h1 h5 hcm, ?_⟩
              rw [ih c _ h1 h2 h4 (by rw [found_normal h3 h1, hcm]), explain_inner h3 h1 h5 hcm])
            hms]
          rw [firstText, names]
        · rw [hv, if_neg (by simp)]
          rfl
      · exact absurd rfl harr

/-! ## Nothing is said if nothing is raised -/

/-- The registrations without their texts. -/
def Mapping.untold {C : Type} (m : Mapping (Telling C)) : Mapping (Reg C) :=
  ⟨m.values.map fun q => (q.1, q.2.reg), m.labels⟩

theorem results_untold [Ext] {C : Type} (s : TypeStr) (qs : List (Pred × Telling C)) :
    Mapping.results s (qs.map fun q => (q.1, q.2.reg)) =
      (Mapping.results s qs).map (List.map fun q => (q.1, q.2.reg)) := by
  induction qs with
  | nil => rfl
  | cons q qs ih =>
    rw [List.map_cons, Mapping.results, Mapping.results, ih]
    cases q.1.matches s with
    | error e => rfl
    | ok b =>
      simp only [ok_bind]
      cases Mapping.results s qs with
      | error e => rfl
      | ok rs => cases b <;> rfl

theorem find_untold [Ext] {C : Type} (s : TypeStr) (m : Mapping (Telling C)) :
    m.untold.find s = (m.find s).map Telling.reg := by
  unfold Mapping.find
  rw [Mapping.untold, results_untold]
  cases Mapping.results s m.values with
  | error e => rfl
  | ok rs =>
    rcases rs with _ | ⟨r, _ | ⟨r', rs⟩⟩ <;> rfl

theorem getRegistration_untold [Ext] {C : Type} (s : TypeStr) (m : Mapping (Telling C)) :
    m.untold.getRegistration s = (m.getRegistration s).map Telling.reg := by
  unfold Mapping.getRegistration
  rw [find_untold]
  cases m.find s with
  | ok v => rfl
  | error e =>
    cases e
    case noEntriesFound => cases parse s <;> rfl
    case multipleEntriesFound =>
      simp only [Except.map]
      split
      · cases parse s <;> rfl
      · rfl
    all_goals rfl

theorem says_ok {C : Type} {look : TypeStr → PyM C} {nested : TypeStr → Option (List Char)} {own : Option (List Char)} :
    ∀ {p : Plan C} {c : C}, p.exec look = .ok c → p.says look nested own = none
  | .ret (.ok _), _, _ => rfl
  | .ret (.error _), _, h => by cases h
  | .ask s k, c, h => by
    rw [Plan.exec] at h
    rw [Plan.says]
    cases hl : look s with
    | error e => rw [hl] at h; cases h
    | ok d =>
      rw [hl] at h
      exact says_ok h

theorem encoder_silent [Ext] {w : Wording} {name : List Char} {m : Mapping (Telling Encoder)} {fuel : Nat} {s : TypeStr}
    {e : Encoder} (h : getEncoderFuel m.untold fuel s = .ok e) :
    lookupSays w (getEncoderFuel m.untold) name m fuel s = none := by
  cases fuel with
  | zero => rfl
  | succ fuel =>
    rw [getEncoderFuel, getRegistration_untold] at h
    rw [lookupSays]
    cases hr : m.getRegistration s with
    | error e => rw [hr] at h; cases h
    | ok t =>
      rw [hr] at h
      cases ht : t.reg with
      | obj c => simp only [ht]
      | cls plan =>
        simp only [Except.map, ht] at h ⊢
        exact says_ok h

theorem decoder_silent [Ext] {w : Wording} {name : List Char} {m : Mapping (Telling Decoder)} {fuel : Nat} {s : TypeStr}
    {d : Decoder} {strict : Bool} (h : getDecoderFuel m.untold fuel s strict = .ok d) :
    lookupSays w (fun fuel s => getDecoderFuel m.untold fuel s true) name m fuel s = none := by
  cases fuel with
  | zero => rfl
  | succ fuel =>
    rw [getDecoderFuel, getRegistration_untold] at h
    rw [lookupSays]
    cases hr : m.getRegistration s with
    | error e => rw [hr] at h; cases h
    | ok t =>
      rw [hr] at h
      cases ht : t.reg with
      | obj c => simp only [ht]
      | cls plan =>
        simp only [Except.map, ht] at h ⊢
        obtain ⟨d', h', _⟩ := bind_eq_ok.1 h
        exact says_ok h'

/-! ## Strings that do not parse -/

theorem parse_says [Ext] {C : Type} {w : Wording} {look : Nat → TypeStr → PyM C} {name : List Char} {k : Kit C} {n : Nat}
    {c : Nat → List Char} {fn : List Char} {fuel : Nat} {s : TypeStr} {e : Exc} (hp : parse s = .error e) :
    lookupSays w look name (tellMap w k n c fn) (fuel + 1) s = parseSays s := by
  have hr := results_error hp _ _ (default_kinds n
    [(⟨.cls (basicPlan t!"uint" (intPlan k.uint)), typeStrSays w (c 0) (some t!"uint") false⟩ : Telling C),
      ⟨.cls (basicPlan t!"int" (intPlan k.int)), typeStrSays w (c 1) (some t!"int") false⟩,
      ⟨.cls (basicPlan t!"address" fun _ => k.address), typeStrSays w (c 2) (some t!"address") false⟩,
      ⟨.cls (basicPlan t!"bool" fun _ => k.bool), typeStrSays w (c 3) (some t!"bool") false⟩,
      ⟨.cls (basicPlan t!"ufixed" (fixedPlan k.ufixed)), typeStrSays w (c 4) (some t!"ufixed") false⟩,
      ⟨.cls (basicPlan t!"fixed" (fixedPlan k.fixed)), typeStrSays w (c 5) (some t!"fixed") false⟩,
      ⟨.cls (basicPlan t!"bytes" (intPlan k.bytesM)), typeStrSays w (c 6) (some t!"bytes") false⟩,
      ⟨.cls (basicPlan t!"bytes" fun _ => .ok k.bytes), typeStrSays w (c 7) (some t!"bytes") false⟩,
      ⟨.cls (basicPlan t!"bytes" (intPlan k.bytesM)), typeStrSays w fn (some t!"bytes") false⟩,
      ⟨.cls (basicPlan t!"string" fun _ => .ok k.string), typeStrSays w (c 8) (some t!"string") false⟩,
      ⟨.cls (arrayPlan k.array), typeStrSays w (c 9) none true⟩,
      ⟨.cls (tuplePlan k.tuple), tupleStrSays w (c 10)⟩])
  have hr : Mapping.results s (tellMap w k n c fn).values = _ := hr
  have hreg : (tellMap w k n c fn).getRegistration s = .error e := getRegistration_error n _ _ _ _ _ _ _ _ _ _ _ _ hp
  rw [lookupSays, hreg]
  simp only
  unfold Mapping.registrationSays Mapping.findSays
  rw [hr]
  have hi : isInfix t!"No matching" (noEntriesText name s) = true := rfl
  rcases parse_error_exc hp with rfl | rfl | rfl
  · simp [hp, hi]
  · simp [hp, hi, Exc.isValueError]
  · simp [Exc.isValueError, parseSays, hp, parseErrorText]

/-! ## The specification -/

theorem saidOf_iff {q : Coders} {b : List Char} {sub : Sub} {text : List Char} :
    SaidOf q b sub text ↔ uncodedText q (normBase b sub) = some text := by
  rcases normBase_cases b sub with ⟨h1, h2, h3⟩ | ⟨h1, h2⟩
  · rw [uncodedText, if_pos h2]
    constructor
    · intro h
      cases h with
      | function h => exact absurd h1.1 h
      | other _ _ h => exact absurd h1 h
    · intro h; cases h
  · rw [h2, uncodedText]
    constructor
    · intro h
      cases h with
      | function h => exact (if_neg (show ¬ Coded t!"function" by decide)).trans (if_pos rfl)
      | other h h' _ => rw [if_neg h, if_neg h']
    · intro h
      split at h
      · cases h
      · next hc =>
        split at h
        · next hf =>
          simp only at hf hc h
          subst hf
          cases h
          refine .function ?_
          rintro rfl
          exact h1 ⟨rfl, _, .function⟩
        · next hf =>
          cases h
          exact .other hc hf h1

theorem normalize_name [Ext] {b : List Char} {sub : Sub} {s : TypeStr} (hd : Derives (.basic b sub []) s)
    (h : normBase b sub = (b, sub)) : normalize s = s := by
  rw [derives_str (normalize_type hd), normTy, h, derives_str hd]

theorem firstWrong_name {b : List Char} {sub : Sub} {s : TypeStr} (hd : Derives (.basic b sub []) s) {p : Nat}
    {w msg : List Char} : FirstWrong s p w msg ↔ p = 0 ∧ w = s ∧ Breaks b sub msg := by
  have hplain : ∀ c ∈ s, ¬ IsDelimiter c := by
    intro c hc
    rcases plain_name hd c hc with h | h
    · exact letter_plain h
    · rintro (rfl | rfl | rfl) <;> revert h <;> unfold IsDigit <;> decide
  have hhead : ∃ c, s.head? = some c ∧ IsLetter c := by
    cases hd with
    | basic h1 h2 _ _ =>
      cases b with
      | nil => exact absurd rfl h1
      | cons c b => exact ⟨c, rfl, h2 c (by simp)⟩
  have hww : WrongWord s msg ↔ Breaks b sub msg := by
    constructor
    · rintro ⟨b', s', a', h1, h2⟩
      cases derives_unique hd h1
      exact h2
    · exact fun h => ⟨_, _, _, hd, h⟩
  unfold FirstWrong
  rw [wordAt_plain hplain]
  constructor
  · rintro ⟨⟨rfl, rfl, _⟩, h2, _⟩
    exact ⟨rfl, rfl, hww.1 h2⟩
  · rintro ⟨rfl, rfl, h⟩
    exact ⟨⟨rfl, rfl, hhead⟩, hww.2 h, fun q v hq => absurd hq (Nat.not_lt_zero q)⟩

theorem at_column_one (s msg : List Char) :
    t!"For '" ++ s ++ t!"' type at column " ++ natDigits (0 + 1) ++ t!" in '" ++ s ++ t!"': " ++ msg =
      t!"For '" ++ s ++ t!"' type at column 1 in '" ++ s ++ t!"': " ++ msg := by
  rw [show natDigits (0 + 1) = ['1'] from rfl]
  simp

theorem alone_name {a : ABIType} (hd : Derives a t!"byte") : a = .basic t!"byte" .none [] :=
  derives_unique hd (derives_word (b := t!"byte") (by decide))

theorem explain_alone [Ext] {q : Coders} {b : List Char} {sub : Sub} {s : TypeStr} (h : s ≠ t!"byte") :
    explain q (.basic b sub []) s = (uncodedText q (normBase b sub)).or (validateSays (normalize s)) := by
  unfold explain
  rw [if_neg h]

theorem explain_inside [Ext] {q : Coders} {a : ABIType} {s : TypeStr} (h : s ≠ t!"byte") (ha : ¬ Alone a) :
    explain q a s = if (normTy a).validate = .ok () then firstText q (normTy a) else validateSays (normalize s) := by
  unfold explain
  rw [if_neg h]
  split
  · exact absurd ⟨_, _, rfl⟩ ha
  · rfl

theorem inside_not_byte {a : ABIType} {s : TypeStr} (hd : Derives a s) (ha : ¬ Alone a) : s ≠ t!"byte" := by
  rintro rfl
  exact ha ⟨_, _, alone_name hd⟩

theorem explained_iff [Ext] {q : Coders} {a : ABIType} {s : TypeStr} (hd : Derives a s) (hn : a.numsOk = true)
    (hno : found a s = none) (text : List Char) : explain q a s = some text ↔ Explained q s text := by
  have hfit : DigitRunsFit s := ((C21_parse s a).1 (parse_ok_iff.2 ⟨hd, hn⟩)).2
  have hd' := normalize_type hd
  have hn' : (normTy a).numsOk = true := (normTy_numsOk a).trans hn
  have hp' : parse (normalize s) = .ok (normTy a) := parse_ok_iff.2 ⟨hd', hn'⟩
  have hN' : ∃ t, parseN (normalize s) = .ok t := ⟨_, by rw [parseN_eq, hp']; rfl⟩
  constructor
  · intro h
    by_cases hb : s = t!"byte"
    · subst hb
      have : explain q a t!"byte" = some (t!"No matching entries for 'byte' in " ++ q.title) := by
        unfold explain
        rw [if_pos rfl]
      rw [this] at h
      cases h
      exact .byte
    by_cases ha : Alone a
    · obtain ⟨b, sub, rfl⟩ := ha
      rw [explain_alone hb] at h
      cases hu : uncodedText q (normBase b sub) with
      | some text' =>
        rw [hu] at h
        cases h
        exact .uncoded hd hfit (saidOf_iff.2 hu)
      | none =>
        rw [hu] at h
        rw [Option.none_or] at h
        have hc : Coded (normBase b sub).1 := by
          by_contra hc
          rw [uncodedText, if_neg hc] at hu
          split at hu <;> cases hu
        rcases normBase_cases b sub with ⟨h1, h2, h3⟩ | ⟨h1, h2⟩
        · rcases validateSays_cases hp' with ⟨_, h4, _⟩ | ⟨h4, _⟩
          · rw [h4] at h; cases h
          · rw [normTy, ABIType.validate, h3] at h4; cases h4
        · rw [h2] at hc
          rw [normalize_name hd h2] at h hp'
          rcases validateSays_cases hp' with ⟨_, h4, _⟩ | ⟨_, p, w, msg, h4, h5⟩
          · rw [h4] at h; cases h
          · rw [h5] at h
            obtain ⟨rfl, rfl, h6⟩ := (firstWrong_name hd).1 h4
            rw [at_column_one] at h
            cases h
            exact .ill hd hfit hc h1 h6
    · rw [explain_inside hb ha] at h
      split at h
      · next hv =>
        have hv' := (not_ill_iff a).1 hv
        unfold firstText at h
        rw [names_normTy] at h
        obtain ⟨l1, p', l2, e1, e2, e3⟩ := List.findSome?_eq_some_iff.1 h
        obtain ⟨m1, m2, f1, f2, f3⟩ := List.map_eq_append_iff.1 e1
        obtain ⟨p, m3, f4, f5, f6⟩ := List.map_eq_cons_iff.1 f3
        subst f4 f5
        obtain ⟨base, sub⟩ := p
        refine .uncodedInside hd hfit ha hv' f1 ?_ (saidOf_iff.2 e2)
        intro p hp e he
        have := e3 (normBase p.1 p.2) (by rw [← f2]; exact List.mem_map.2 ⟨p, hp, rfl⟩)
        rw [uncodedText_none] at this
        rw [uncoded_iff, this] at he
        cases he
      · rcases validateSays_cases hp' with ⟨_, h4, _⟩ | ⟨_, p, w, msg, h4, h5⟩
        · rw [h4] at h; cases h
        · rw [h5] at h
          cases h
          exact .illInside hd hfit ha ((C23_words _ _).1 rfl) h4
  · intro h
    cases h with
    | parens h _ => exact absurd hd (h a)
    | grammar h _ _ => exact absurd hd (h a)
    | byte => unfold explain; rw [if_pos rfl]
    | @ill _ base sub msg hdb _ hc hab hbr =>
      cases derives_unique hd hdb
      have hb : s ≠ t!"byte" := by
        rintro rfl
        cases alone_name hd
        revert hc; decide
      have e : normBase base sub = (base, sub) := by
        rcases normBase_cases base sub with ⟨h, _⟩ | ⟨_, h⟩
        · exact absurd h hab
        · exact h
      rw [normalize_name hd e] at hp'
      rw [explain_alone hb, e, uncodedText, if_pos hc, Option.none_or, normalize_name hd e]
      rcases validateSays_cases hp' with ⟨_, _, h4⟩ | ⟨_, p, w, msg', h4, h5⟩
      · exact absurd ((firstWrong_name hd).2 ⟨rfl, rfl, hbr⟩) (h4 _ _ _)
      · rw [h5]
        obtain ⟨rfl, rfl, rfl⟩ := C65_one h4 ((firstWrong_name hd).2 ⟨rfl, rfl, hbr⟩) ⟨_, by rw [parseN_eq, hp']; rfl⟩
        rw [at_column_one]
    | @uncoded _ base sub _ hdb _ hsaid =>
      cases derives_unique hd hdb
      have hu := saidOf_iff.1 hsaid
      have hb : s ≠ t!"byte" := by
        rintro rfl
        cases alone_name hd
        have : uncodedText q (normBase t!"byte" .none) = none := by
          unfold uncodedText
          rw [if_pos (by decide)]
        rw [this] at hu
        cases hu
      rw [explain_alone hb, hu]
      rfl
    | @illInside _ s' t p word msg hdt _ ha hrep hfirst =>
      cases derives_unique hd hdt
      rw [explain_inside (inside_not_byte hd ha) ha]
      have hs' := (C23_words _ _).2 hrep
      subst hs'
      rcases validateSays_cases hp' with ⟨_, _, h4⟩ | ⟨h3, p', w', msg', h4, h5⟩
      · exact absurd hfirst (h4 _ _ _)
      · rw [h3, if_neg (by simp), h5]
        obtain ⟨rfl, rfl, rfl⟩ := C65_one h4 hfirst hN'
        rfl
    | @uncodedInside _ t _ pre post base sub hdt _ ha hill hnames hpre hsaid =>
      cases derives_unique hd hdt
      rw [explain_inside (inside_not_byte hd ha) ha, if_pos ((not_ill_iff _).2 hill), firstText, names_normTy, hnames]
      rw [List.map_append, List.findSome?_append]
      have h1 : (pre.map fun p => normBase p.1 p.2).findSome? (uncodedText q) = none := by
        refine List.findSome?_eq_none_iff.2 fun x hx => ?_
        obtain ⟨p, hp, rfl⟩ := List.mem_map.1 hx
        rw [uncodedText_none]
        cases h : uncodedExc (normBase p.1 p.2) with
        | none => rfl
        | some e => exact absurd ((uncoded_iff _ _ _).2 h) (hpre p hp e)
      rw [h1, Option.none_or, List.map_cons, List.findSome?_cons, saidOf_iff.1 hsaid]

/-! ## From the texts of the model to the specification -/

theorem parseSays_iff [Ext] {q : Coders} {s : TypeStr} {e : Exc} (hp : parse s = .error e) (text : List Char) :
    parseSays s = some text ↔ Explained q s text := by
  by_cases h : IsTypeStr s
  · obtain ⟨t, ht⟩ := h
    have hf : ¬ DigitRunsFit s := fun hf => by rw [(C21_parse s t).2 ⟨ht, hf⟩] at hp; cases hp
    rw [C21_too_long ht hf] at hp
    cases hp
    have : parseSays s = none := by unfold parseSays parseErrorText; rw [C21_too_long ht hf]
    rw [this]
    constructor
    · intro h; cases h
    · intro h
      cases h with
      | parens h _ => exact absurd ht (h t)
      | grammar h _ _ => exact absurd ht (h t)
      | byte =>
        exfalso
        have := C21_too_long ht hf
        rw [show parse t!"byte" = .ok (.basic t!"byte" .none []) from rfl] at this
        cases this
      | ill _ h => exact absurd h hf
      | uncoded _ h => exact absurd h hf
      | illInside _ h => exact absurd h hf
      | uncodedInside _ h => exact absurd h hf
  · have h' : ∀ t, ¬ Derives t s := fun t ht => h ⟨t, ht⟩
    by_cases hparen : t!"()" <:+: s
    · have : parseSays s = some t!"Zero-sized tuple types \"()\" are not supported." := by
        unfold parseSays; rw [(C21_rejects h').1 hparen]
      rw [this]
      constructor
      · intro h2; cases h2; exact .parens h' hparen
      · intro h2
        cases h2 with
        | parens _ _ => rfl
        | grammar _ h2 _ => exact absurd hparen h2
        | byte => exact absurd (derives_word (b := t!"byte") (by decide)) (h' _)
        | ill h2 => exact absurd h2 (h' _)
        | uncoded h2 => exact absurd h2 (h' _)
        | illInside h2 => exact absurd h2 (h' _)
        | uncodedInside h2 => exact absurd h2 (h' _)
    · have : parseSays s = parseErrorText s := by unfold parseSays; rw [(C21_rejects h').2 hparen]
      rw [this, C82_text]
      constructor
      · rintro ⟨_, k, hk, rfl⟩
        exact .grammar h' hparen hk
      · intro h2
        cases h2 with
        | parens _ h2 => exact absurd h2 hparen
        | grammar _ _ hk => exact ⟨⟨h, hparen⟩, _, hk, rfl⟩
        | byte => exact absurd (derives_word (b := t!"byte") (by decide)) (h' _)
        | ill h2 => exact absurd h2 (h' _)
        | uncoded h2 => exact absurd h2 (h' _)
        | illInside h2 => exact absurd h2 (h' _)
        | uncodedInside h2 => exact absurd h2 (h' _)

theorem explained_declined [Ext] {q : Coders} {s : TypeStr} {text : List Char} (h : Explained q s text) :
    ∃ e, Declined s e ∧ e ≠ .visitationError := by
  have un : ∀ {base sub text}, SaidOf q base sub text → ∃ e, Uncoded base sub e ∧ e ≠ .visitationError := by
    intro base sub text h
    cases h with
    | function h => exact ⟨_, .function h, by simp⟩
    | other h1 h2 h3 => exact ⟨_, .other h1 h2 h3, by simp⟩
  cases h with
  | parens h1 h2 => exact ⟨_, .parens h1 h2, by simp⟩
  | grammar h1 h2 _ => exact ⟨_, .grammar h1 h2, by simp⟩
  | byte => exact ⟨_, .byte, by simp⟩
  | ill h1 h2 h3 h4 h5 => exact ⟨_, .ill h1 h2 h3 ⟨h4, _, h5⟩, by simp⟩
  | uncoded h1 h2 h3 =>
    obtain ⟨e, he, hv⟩ := un h3
    exact ⟨e, .uncoded h1 h2 he, hv⟩
  | @illInside _ s' t p word msg h1 h2 h3 h4 h5 =>
    have hs' := (C23_words _ _).2 h4
    subst hs'
    have hp : parse s = .ok t := (C21_parse s t).2 ⟨h1, h2⟩
    have hp' : parse (normalize s) = .ok (normTy t) :=
      parse_ok_iff.2 ⟨normalize_type h1, (normTy_numsOk t).trans (parse_ok_iff.1 hp).2⟩
    rcases validateSays_cases hp' with ⟨_, _, h6⟩ | ⟨h6, _⟩
    · exact absurd h5 (h6 _ _ _)
    · have : ¬ ∀ p ∈ names t, ¬ Ill p.1 p.2 := by rw [← not_ill_iff, h6]; simp
      push Not at this
      obtain ⟨p, hp, hi⟩ := this
      exact ⟨_, .illInside h1 h2 h3 hp hi, by simp⟩
  | uncodedInside h1 h2 h3 h4 h5 h6 h7 =>
    obtain ⟨e, he, hv⟩ := un h7
    exact ⟨e, .uncodedInside h1 h2 h3 h4 ⟨_, _, _, _, h5, he, h6⟩, hv⟩

theorem lookupSays_iff [Ext] {C : Type} {w : Wording} (hw : PrintsPlain w) {k : Kit C} {n : Nat} {c : Nat → List Char}
    {q : Coders} {look : Nat → TypeStr → PyM C} {obj : Ty → C}
    (hlook : ∀ fuel a s, Derives a s → a.numsOk = true → depth a ≤ fuel → Outcome obj (found a s) (look fuel s))
    (hsil : ∀ fuel s x, look fuel s = .ok x →
      lookupSays w look q.title (tellMap w k n c q.functionClass) fuel s = none)
    {s : TypeStr} (hdec : ∀ x, look (s.length + 1) s = .ok x → ∀ e, ¬ Declined s e) (text : List Char) :
    lookupSays w look q.title (tellMap w k n c q.functionClass) (s.length + 1) s = some text ↔ Explained q s text := by
  cases hp : parse s with
  | error e => rw [parse_says hp, parseSays_iff hp]
  | ok a =>
    obtain ⟨hd, hn⟩ := parse_ok_iff.1 hp
    have hdep : depth a ≤ s.length + 1 := Nat.le_succ_of_le (depth_le hd)
    have ho := hlook (s.length + 1) a s hd hn hdep
    cases hf : found a s with
    | none => rw [lookup_says hw hlook (s.length + 1) a s hd hn hdep hf, explained_iff hd hn hf]
    | some t =>
      rw [hf] at ho
      have ho : look (s.length + 1) s = .ok (obj t) := ho
      rw [hsil _ _ _ ho]
      constructor
      · intro h; cases h
      · intro h
        obtain ⟨e, he, _⟩ := explained_declined h
        exact absurd he (hdec _ ho e)

theorem lookupsSay_first {C : Type} {look : TypeStr → PyM C} {tells : TypeStr → Option (List Char)} {pre post : List TypeStr}
    {s : TypeStr} (hpre : ∀ x ∈ pre, ∃ c, look x = .ok c) {e : Exc} (hs : look s = .error e) :
    lookupsSay look tells (pre ++ s :: post) = tells s := by
  induction pre with
  | nil => simp only [List.nil_append, lookupsSay, hs]
  | cons x pre ih =>
    obtain ⟨c, hc⟩ := hpre x (by simp)
    simp only [List.cons_append, lookupsSay, hc]
    exact ih fun y hy => hpre y (by simp [hy])

theorem results_filter [Ext] {V : Type} {s : TypeStr} {test : Pred → Bool} (vs : List (Pred × V))
    (h : ∀ q ∈ vs, q.1.matches s = .ok (test q.1)) : Mapping.results s vs = .ok (vs.filter fun q => test q.1) := by
  induction vs with
  | nil => rfl
  | cons q qs ih =>
    rw [Mapping.results, h q (by simp), ih fun r hr => h r (by simp [hr])]
    cases ht : test q.1 <;> simp [ht, pure_eq_ok]

theorem joinReps_eq (w : Wording) (ps : List Pred) : joinReps w ps = List.intercalate t!", " (ps.map (·.rep w)) := by
  induction ps with
  | nil => rfl
  | cons p ps ih =>
    cases ps with
    | nil => simp [joinReps, List.intercalate]
    | cons r rs =>
      rw [joinReps, ih]
      · simp [List.intercalate]
      · simp

theorem delPred_absent {V : Type} {p : Pred} (vs : List (Pred × V)) :
    Mapping.delPred p vs = none ↔ ¬ ∃ q ∈ vs, q.1.pyEq p = true := by
  induction vs with
  | nil => simp [Mapping.delPred]
  | cons q qs ih =>
    rw [Mapping.delPred]
    cases h : q.1.pyEq p with
    | true => simp [h]
    | false => simp [h, ih]

theorem lookup_none {A : Type} {l : List Char} (xs : List (List Char × A)) :
    xs.lookup l = none ↔ ¬ ∃ q ∈ xs, q.1 = l := by
  induction xs with
  | nil => simp
  | cons q qs ih =>
    obtain ⟨k, a⟩ := q
    rw [List.lookup_cons]
    cases h : l == k with
    | true =>
      have := beq_iff_eq.1 h
      simp [this]
    | false =>
      have hne : ¬ k = l := by rintro rfl; simp at h
      simp only [ih, List.mem_cons, exists_eq_or_imp, hne, false_or]

theorem isInfix_iff {x : List Char} (y : List Char) : isInfix x y = true ↔ x <:+: y := by
  induction y with
  | nil => simp [isInfix]
  | cons c cs ih => rw [isInfix, Bool.or_eq_true, ih, List.isPrefixOf_iff_prefix, List.infix_cons_iff]

theorem infix_split {x a b : List Char} {c : Char} (hc : c ∉ x) (h : x <:+: a ++ c :: b) : x <:+: a ∨ x <:+: b := by
  rcases List.infix_append_iff.1 h with h | h | ⟨u, v, rfl, hu, hv⟩
  · exact .inl h
  · rcases List.infix_cons_iff.1 h with h | h
    · cases x with
      | nil => exact .inl (List.nil_infix)
      | cons d x =>
        obtain ⟨r, hr⟩ := h
        injection hr with h1 _
        exact absurd (by simp [h1]) hc
    · exact .inr h
  · cases v with
    | nil => exact .inl (by simpa using hu.isInfix)
    | cons d v =>
      obtain ⟨r, hr⟩ := hv
      injection hr with h1 _
      exact absurd (by simp [h1]) hc

theorem infix_skip {x y : List Char} {c d : Char} (hc : d ≠ c) (h : (d :: x) <:+: c :: y) : (d :: x) <:+: y := by
  rcases List.infix_cons_iff.1 h with ⟨r, hr⟩ | h
  · injection hr with h1 _
    exact absurd h1 hc
  · exact h

theorem results_raise [Ext] {V : Type} {s : TypeStr} {e : Exc} (vs : List (Pred × V)) (h : Mapping.results s vs = .error e) :
    ∃ q ∈ vs, q.1.matches s = .error e := by
  induction vs with
  | nil => cases h
  | cons q qs ih =>
    rw [Mapping.results] at h
    rcases bind_eq_error.1 h with h | ⟨b, _, h⟩
    · exact ⟨q, by simp, h⟩
    · rcases bind_eq_error.1 h with h | ⟨rs, _, h⟩
      · obtain ⟨r, hr, h⟩ := ih h
        exact ⟨r, by simp [hr], h⟩
      · cases h

theorem quotes_only {s name js tail : List Char} (ht : ¬ t!"No matching" <:+: tail) (hn : ¬ t!"No matching" <:+: name)
    (hj : ¬ t!"No matching" <:+: js) :
    t!"No matching" <:+: t!"Multiple matching entries for '" ++ s ++ t!"' in " ++ name ++ t!": " ++ js ++ '.' :: tail ↔
      t!"No matching" <:+: s := by
  have e : t!"Multiple matching entries for '" ++ s ++ t!"' in " ++ name ++ t!": " ++ js ++ '.' :: tail =
      t!"Multiple matching entries for " ++ '\'' :: (s ++ '\'' :: ((t!" in " ++ name) ++
        ':' :: ((' ' :: js) ++ '.' :: tail))) := by
    simp only [List.append_assoc]
    rfl
  rw [e]
  constructor
  · intro h
    rcases infix_split (by decide) h with h | h
    · exact absurd h (by decide)
    rcases infix_split (by decide) h with h | h
    · exact h
    rcases infix_split (by decide) h with h | h
    · exact absurd (infix_skip (by decide) (infix_skip (by decide) (infix_skip (by decide) (infix_skip (by decide) h)))) hn
    rcases infix_split (by decide) h with h | h
    · exact absurd (infix_skip (by decide) h) hj
    · exact absurd h ht
  · intro h
    refine h.trans ⟨t!"Multiple matching entries for " ++ ['\''], '\'' :: ((t!" in " ++ name) ++
        ':' :: ((' ' :: js) ++ '.' :: tail)), ?_⟩
    simp only [List.append_assoc]
    rfl

theorem multipleText_quotes {w : Wording} {name s : List Char} {ps : List Pred} (hn : ¬ t!"No matching" <:+: name)
    (hp : ∀ p ∈ ps, ¬ t!"No matching" <:+: p.rep w) :
    t!"No matching" <:+: multipleText w name s ps ↔ t!"No matching" <:+: s := by
  have hj : ¬ t!"No matching" <:+: joinReps w ps := by
    induction ps with
    | nil => exact (by decide : ¬ t!"No matching" <:+: [])
    | cons p ps ih =>
      cases ps with
      | nil => exact hp p (by simp)
      | cons r rs =>
        rw [joinReps]
        · intro h
          rw [List.append_assoc] at h
          rcases infix_split (by decide) h with h | h
          · exact hp p (by simp) h
          · exact ih (fun p hp' => hp p (by simp [hp'])) (infix_skip (by decide) h)
        · simp
  refine quotes_only ?_ hn hj
  rw [← isInfix_iff, Bool.not_eq_true]
  decide +kernel

theorem typeRep_eq [Ext] (w : Wording) (s : TypeStr) : typeRep w s = displayed w s (normalize s) := by
  unfold typeRep displayed
  by_cases h : s = normalize s
  · rw [if_neg (fun h' => h' h), if_pos h]
  · rw [if_pos h, if_neg h]

theorem validateSays_iff [Ext] {s : TypeStr} {t : ABIType} (hp : parse s = .ok t) (text : List Char) :
    validateSays s = some text ↔ ∃ p word msg, FirstWrong s p word msg ∧
      text = t!"For '" ++ word ++ t!"' type at column " ++ natDigits (p + 1) ++ t!" in '" ++ s ++ t!"': " ++ msg := by
  rcases validateSays_cases hp with ⟨_, h1, h2⟩ | ⟨_, p, word, msg, h1, h2⟩
  · rw [h1]
    exact ⟨(fun h => by cases h), fun ⟨p, word, msg, h, _⟩ => absurd h (h2 _ _ _)⟩
  · rw [h2]
    constructor
    · intro h; cases h; exact ⟨_, _, _, h1, rfl⟩
    · rintro ⟨p', w', m', h3, rfl⟩
      obtain ⟨rfl, rfl, rfl⟩ := C65_one h1 h3 ⟨_, by rw [parseN_eq, hp]; rfl⟩
      rfl

end EthAbi
