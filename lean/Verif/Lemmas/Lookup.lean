import Verif.Lemmas.Meaning
import Verif.Lemmas.Encode
import Verif.Lemmas.DecOf
import Verif.Model.Registry

/-! # What the default registries find -/
namespace EthAbi
open Spec

/-! ## Which registration applies -/

/-- The default registration that applies to a parsed type. -/
def pick {V : Type} (u i a b uf f bm by_ fn s arr tup : V) : ABIType → Option V
  | .tuple _ [] => some tup
  | .tuple _ (_ :: _) => some arr
  | .basic _ _ (_ :: _) => some arr
  | .basic base sub [] =>
    if base = t!"uint" then some u
    else if base = t!"int" then some i
    else if base = t!"address" then some a
    else if base = t!"bool" then some b
    else if base = t!"ufixed" then some uf
    else if base = t!"fixed" then some f
    else if base = t!"bytes" then (if sub = .none then some by_ else some bm)
    else if base = t!"function" then some fn
    else if base = t!"string" then some s
    else none

/-- What a matcher of the default registries answers for a parsed type. -/
def PredKind.test : PredKind → ABIType → Bool
  | .baseEquals b w, a => baseEqualsTest b w a
  | .hasArrlist, a => a.isArray
  | .isBaseTuple, a => baseTupleTest a
  | _, _ => false

theorem results_parsed [Ext] {V : Type} {s : TypeStr} {a : ABIType} (h : parse s = .ok a)
    (qs : List (Pred × V))
    (hq : ∀ q ∈ qs, (∃ b w, q.1.kind = .baseEquals b w) ∨ q.1.kind = .hasArrlist ∨ q.1.kind = .isBaseTuple) :
    Mapping.results s qs = .ok (qs.filter fun q => q.1.kind.test a) := by
  induction qs with
  | nil => rfl
  | cons q qs ih =>
    have hm : q.1.matches s = .ok (q.1.kind.test a) := by
      rcases hq q (by simp) with ⟨b, w, hk⟩ | hk | hk <;> simp [Pred.matches, hk, onParsed, h, PredKind.test]
    simp only [Mapping.results, hm, ok_bind, ih (fun q hq' => hq q (by simp [hq'])), List.filter_cons,
      pure_eq_ok]

theorem results_error [Ext] {V : Type} {s : TypeStr} {e : Exc} (h : parse s = .error e)
    (q : Pred × V) (qs : List (Pred × V))
    (hq : ∀ r ∈ q :: qs, (∃ b w, r.1.kind = .baseEquals b w) ∨ r.1.kind = .hasArrlist ∨ r.1.kind = .isBaseTuple) :
    Mapping.results s (q :: qs) =
      if e = .parseError || e.isValueError then .ok [] else .error e := by
  have hm : ∀ r ∈ q :: qs, r.1.matches s =
      if e = .parseError || e.isValueError then .ok false else .error e := by
    intro r hr
    rcases hq r hr with ⟨b, w, hk⟩ | hk | hk <;> simp [Pred.matches, hk, onParsed, h]
  clear hq
  induction qs generalizing q with
  | nil =>
    simp only [Mapping.results, hm q (by simp)]
    split <;> simp
  | cons q' qs ih =>
    have hm' : ∀ r ∈ q' :: qs, r.1.matches s =
      if e = .parseError || e.isValueError then .ok false else .error e :=
      fun r hr => hm r (by simp [List.mem_cons.1 hr])
    rw [Mapping.results, hm q (by simp), ih q' hm']
    split <;> simp

theorem default_kinds {V : Type} (n : Nat) (vs : List V) (q : Pred × V)
    (hq : q ∈ (mappingOf n defaultPreds vs).values) :
    (∃ b w, q.1.kind = .baseEquals b w) ∨ q.1.kind = .hasArrlist ∨ q.1.kind = .isBaseTuple := by
  have gen : ∀ (ps : List (List Char × PredKind)) (n : Nat) (vs : List V),
      q ∈ (mappingOf n ps vs).values → ∃ p ∈ ps, q.1.kind = p.2 := by
    intro ps
    induction ps with
    | nil => intro n vs h; simp [mappingOf, Mapping.empty] at h
    | cons p ps ih =>
      intro n vs h
      cases vs with
      | nil => simp [mappingOf, Mapping.empty] at h
      | cons v vs =>
        rcases List.mem_cons.1 (by simpa [mappingOf] using h) with rfl | h
        · exact ⟨p, by simp, rfl⟩
        · obtain ⟨p', hp', e⟩ := ih _ _ h
          exact ⟨p', by simp [hp'], e⟩
  obtain ⟨p, hp, e⟩ := gen _ _ _ hq
  rw [e]
  simp only [defaultPreds, List.mem_cons, List.not_mem_nil, or_false] at hp
  rcases hp with rfl | rfl | rfl | rfl | rfl | rfl | rfl | rfl | rfl | rfl | rfl | rfl <;> simp

theorem find_pick {V : Type} (n : Nat) (u i a b uf f bm by_ fn s arr tup : V) (t : ABIType) :
    ∃ p, ((mappingOf n defaultPreds [u, i, a, b, uf, f, bm, by_, fn, s, arr, tup]).values.filter
      fun q => q.1.kind.test t) =
      match pick u i a b uf f bm by_ fn s arr tup t with
      | some v => [(p, v)]
      | none => [] := by
  rcases t with ⟨base, sub, (_ | ⟨d, ds⟩)⟩ | ⟨comps, (_ | ⟨d, ds⟩)⟩
  · by_cases h0 : base = t!"uint"
    · subst h0; cases sub <;> exact ⟨_, rfl⟩
    by_cases h1 : base = t!"int"
    · subst h1; cases sub <;> exact ⟨_, rfl⟩
    by_cases h2 : base = t!"address"
    · subst h2; cases sub <;> exact ⟨_, rfl⟩
    by_cases h3 : base = t!"bool"
    · subst h3; cases sub <;> exact ⟨_, rfl⟩
    by_cases h4 : base = t!"ufixed"
    · subst h4; cases sub <;> exact ⟨_, rfl⟩
    by_cases h5 : base = t!"fixed"
    · subst h5; cases sub <;> exact ⟨_, rfl⟩
    by_cases h6 : base = t!"bytes"
    · subst h6; cases sub <;> exact ⟨_, rfl⟩
    by_cases h7 : base = t!"function"
    · subst h7; cases sub <;> exact ⟨_, rfl⟩
    by_cases h8 : base = t!"string"
    · subst h8; cases sub <;> exact ⟨_, rfl⟩
    refine ⟨⟨0, .hasArrlist⟩, ?_⟩
    have ht : ∀ b' w, b' ≠ base → baseEqualsTest b' w (.basic base sub []) = false := by
      intro b' w hb
      simp only [baseEqualsTest, List.isEmpty_nil, Bool.not_true, Bool.false_eq_true, if_false]
      split
      · rfl
      split
      · rfl
      · simp only [beq_eq_false_iff_ne]; exact fun h => hb h.symm
    simp only [pick, h0, h1, h2, h3, h4, h5, h6, h7, h8, if_false]
    simp only [defaultPreds, mappingOf, Mapping.empty, List.filter_cons, PredKind.test,
      ht _ _ (Ne.symm h0), ht _ _ (Ne.symm h1), ht _ _ (Ne.symm h2), ht _ _ (Ne.symm h3),
      ht _ _ (Ne.symm h4), ht _ _ (Ne.symm h5), ht _ _ (Ne.symm h6), ht _ _ (Ne.symm h7),
      ht _ _ (Ne.symm h8)]
    rfl
  · exact ⟨_, rfl⟩
  · exact ⟨_, rfl⟩
  · exact ⟨_, rfl⟩

theorem getRegistration_parsed [Ext] {V : Type} (n : Nat) (u i a b uf f bm by_ fn s arr tup : V)
    {str : TypeStr} {t : ABIType} (h : parse str = .ok t) :
    (mappingOf n defaultPreds [u, i, a, b, uf, f, bm, by_, fn, s, arr, tup]).getRegistration str =
      match pick u i a b uf f bm by_ fn s arr tup t with
      | some v => .ok v
      | none => .error .noEntriesFound := by
  have hr := results_parsed h _ (default_kinds n [u, i, a, b, uf, f, bm, by_, fn, s, arr, tup])
  obtain ⟨p, hp⟩ := find_pick n u i a b uf f bm by_ fn s arr tup t
  rw [hp] at hr
  unfold Mapping.getRegistration Mapping.find
  rw [hr]
  cases pick u i a b uf f bm by_ fn s arr tup t with
  | none => simp [h]
  | some v => rfl

theorem parse_error_exc [Ext] {s : TypeStr} {e : Exc} (h : parse s = .error e) :
    e = .parseError ∨ e = .valueError ∨ e = .visitationError := by
  unfold parse at h
  split at h
  · split at h
    · cases h
    · cases h; simp
  · split at h <;> cases h <;> simp

theorem getRegistration_error [Ext] {V : Type} (n : Nat) (u i a b uf f bm by_ fn s arr tup : V)
    {str : TypeStr} {e : Exc} (h : parse str = .error e) :
    (mappingOf n defaultPreds [u, i, a, b, uf, f, bm, by_, fn, s, arr, tup]).getRegistration str =
      .error e := by
  have hr := results_error h _ _ (default_kinds n [u, i, a, b, uf, f, bm, by_, fn, s, arr, tup])
  have hr' : Mapping.results str (mappingOf n defaultPreds [u, i, a, b, uf, f, bm, by_, fn, s, arr, tup]).values
      = _ := hr
  unfold Mapping.getRegistration Mapping.find
  rw [hr']
  rcases parse_error_exc h with rfl | rfl | rfl
  · simp [h]
  · simp [h, Exc.isValueError]
  · simp [Exc.isValueError]

/-! ## Coder objects made by the registered classes -/

/-- The classes of a default registry. -/
structure Kit (C : Type) where
  uint : Nat → PyM C
  int : Nat → PyM C
  address : PyM C
  bool : PyM C
  ufixed : Nat → Nat → PyM C
  fixed : Nat → Nat → PyM C
  bytesM : Nat → PyM C
  bytes : C
  string : C
  array : Option Nat → C → PyM C
  tuple : List C → C

namespace Kit
variable {C : Type}

/-- The registered classes in order. -/
def regs [Ext] (k : Kit C) : List (Reg C) :=
  [ .cls (basicPlan t!"uint" (intPlan k.uint)),
    .cls (basicPlan t!"int" (intPlan k.int)),
    .cls (basicPlan t!"address" fun _ => k.address),
    .cls (basicPlan t!"bool" fun _ => k.bool),
    .cls (basicPlan t!"ufixed" (fixedPlan k.ufixed)),
    .cls (basicPlan t!"fixed" (fixedPlan k.fixed)),
    .cls (basicPlan t!"bytes" (intPlan k.bytesM)),
    .cls (basicPlan t!"bytes" fun _ => .ok k.bytes),
    .cls (basicPlan t!"bytes" (intPlan k.bytesM)),
    .cls (basicPlan t!"string" fun _ => .ok k.string),
    .cls (arrayPlan k.array),
    .cls (tuplePlan k.tuple) ]

/-- The classes make the objects `obj`. -/
structure Makes (k : Kit C) (obj : Ty → C) : Prop where
  uint : ∀ n, validBits n → k.uint n = .ok (obj (.uint n))
  int : ∀ n, validBits n → k.int n = .ok (obj (.int n))
  address : k.address = .ok (obj .address)
  bool : k.bool = .ok (obj .bool)
  ufixed : ∀ m n, validBits m → 0 < n → n ≤ 80 → k.ufixed m n = .ok (obj (.ufixed m n))
  fixed : ∀ m n, validBits m → 0 < n → n ≤ 80 → k.fixed m n = .ok (obj (.fixed m n))
  bytesM : ∀ m, 0 < m → m ≤ 32 → k.bytesM m = .ok (obj (.bytesM m))
  bytes : k.bytes = obj .bytes
  string : k.string = obj .string
  array : ∀ d t, k.array d (obj t) = .ok (obj (wrapDim t d))
  tuple : ∀ ts, k.tuple (ts.map obj) = obj (.tuple ts)

end Kit

/-! ## Looking up -/

/-- The nesting depth of lookups. -/
def depth : ABIType → Nat
  | .basic _ _ arr => arr.length + 1
  | .tuple cs arr => depths cs + arr.length + 1
where
  /-- The largest depth of the components. -/
  depths : List ABIType → Nat
    | [] => 0
    | c :: cs => max (depth c) (depths cs)

theorem depths_mem {c : ABIType} {cs : List ABIType} (h : c ∈ cs) : depth c ≤ depth.depths cs := by
  induction cs with
  | nil => cases h
  | cons d ds ih =>
    rw [depth.depths]
    rcases List.mem_cons.1 h with rfl | h
    · omega
    · have := ih h; omega

theorem depth_normTy (a : ABIType) : depth (normTy a) = depth a := by
  induction a using ABIType.ind with
  | basic b s arr => simp [normTy, depth]
  | tuple cs arr ih =>
    simp only [normTy, depth, Nat.add_right_cancel_iff]
    induction cs with
    | nil => rfl
    | cons c cs ih' =>
      simp only [normTys, depth.depths, ih c (by simp), ih' (fun d hd => ih d (by simp [hd]))]

theorem dims_length {ds : List (Option Nat)} {w : List Char} (h : DerivesDims ds w) :
    ds.length ≤ w.length := by
  induction h with
  | nil => simp
  | dynamic _ ih => simp; omega
  | sized _ _ ih => simp; omega

theorem depth_le {a : ABIType} {s : List Char} (h : Derives a s) : depth a ≤ s.length := by
  refine Derives.rec (motive_1 := fun a s _ => depth a ≤ s.length)
    (motive_2 := fun cs s _ => depth.depths cs ≤ s.length) ?_ ?_ ?_ ?_ h
  · intro base s1 s2 sub arr hne _ _ h2
    have := dims_length h2
    have := List.length_pos_iff.2 hne
    simp [depth]; omega
  · intro comps s1 s2 arr _ h2 ih
    have := dims_length h2
    simp [depth]; omega
  · intro t s _ ih
    simpa [depth.depths] using ih
  · intro t ts s s' _ _ ih ih'
    simp [depth.depths]; omega

/-- The exceptions of looking up an unsupported type. -/
def TypeErr (e : Exc) : Prop :=
  e = .parseError ∨ e = .valueError ∨ e = .visitationError ∨ e = .abiTypeError ∨ e = .noEntriesFound

/-- The outcome of a lookup: the object of the type, or an exception if there is no type. -/
def Outcome {C : Type} (obj : Ty → C) (m : Option Ty) (r : PyM C) : Prop :=
  match m with
  | some t => r = .ok (obj t)
  | none => ∃ e, r = .error e ∧ TypeErr e

theorem validate_int {b : List Char} (hb : b = t!"int" ∨ b = t!"uint") (mk : Nat → Ty) (sub : Sub) :
    match subInt mk sub with
    | some t => ∃ n, sub = .one n ∧ validBits n ∧ t = mk n ∧ validateBasic b sub = .ok ()
    | none => validateBasic b sub = .error .abiTypeError := by
  cases sub with
  | none => rcases hb with rfl | rfl <;> rfl
  | two m n => rcases hb with rfl | rfl <;> rfl
  | one n =>
    have hv : validateBasic b (.one n) = if n < 8 ∨ 256 < n then .error .abiTypeError
      else if n % 8 ≠ 0 then .error .abiTypeError else .ok () := by
      rcases hb with rfl | rfl <;> rfl
    rw [hv, subInt]
    by_cases h : validBits n
    · rw [if_pos h]
      obtain ⟨h1, h2, h3⟩ := h
      exact ⟨n, rfl, ⟨h1, h2, h3⟩, rfl, by rw [if_neg (by omega), if_neg (by omega)]⟩
    · rw [if_neg h]
      simp only [validBits] at h
      simp only
      split
      · rfl
      · rw [if_pos (by omega)]

theorem validate_fixed {b : List Char} (hb : b = t!"fixed" ∨ b = t!"ufixed") (mk : Nat → Nat → Ty)
    (sub : Sub) :
    match subFixed mk sub with
    | some t => ∃ m n, sub = .two m n ∧ validBits m ∧ 0 < n ∧ n ≤ 80 ∧ t = mk m n ∧
        validateBasic b sub = .ok ()
    | none => validateBasic b sub = .error .abiTypeError := by
  cases sub with
  | none => rcases hb with rfl | rfl <;> rfl
  | one n => rcases hb with rfl | rfl <;> rfl
  | two m n =>
    have hv : validateBasic b (.two m n) = if m < 8 ∨ 256 < m then .error .abiTypeError
      else if m % 8 ≠ 0 then .error .abiTypeError
      else if n < 1 ∨ 80 < n then .error .abiTypeError else .ok () := by
      rcases hb with rfl | rfl <;> rfl
    rw [hv, subFixed]
    by_cases h : validBits m ∧ 0 < n ∧ n ≤ 80
    · rw [if_pos h]
      obtain ⟨⟨h1, h2, h3⟩, h4, h5⟩ := h
      exact ⟨m, n, rfl, ⟨h1, h2, h3⟩, h4, h5, rfl,
        by rw [if_neg (by omega), if_neg (by omega), if_neg (by omega)]⟩
    · rw [if_neg h]
      simp only [validBits] at h
      simp only
      split
      · rfl
      split
      · rfl
      · rw [if_pos (by omega)]

theorem validate_bytes {n : Nat} (hn : 0 < n) :
    match subBytes (.one n) with
    | some t => n ≤ 32 ∧ t = .bytesM n ∧ validateBasic t!"bytes" (.one n) = .ok ()
    | none => validateBasic t!"bytes" (.one n) = .error .abiTypeError := by
  have hv : validateBasic t!"bytes" (.one n) = if 32 < n then .error .abiTypeError else .ok () := rfl
  rw [hv, subBytes]
  by_cases h : 32 < n
  · rw [if_neg (by omega), if_pos h]
  · rw [if_pos ⟨hn, by omega⟩, if_neg h]
    exact ⟨by omega, rfl, rfl⟩

theorem validate_of_baseTy {b : List Char} {sub : Sub} {t : Ty} (h : baseTy b sub = some t) :
    validateBasic b sub = .ok () := by
  unfold baseTy at h
  split at h
  · next hb =>
    have := validate_int (Or.inr hb) .uint sub
    rw [h] at this
    obtain ⟨_, _, _, _, h⟩ := this
    exact h
  split at h
  · next hb =>
    have := validate_int (Or.inl hb) .int sub
    rw [h] at this
    obtain ⟨_, _, _, _, h⟩ := this
    exact h
  split at h
  · next hb => subst hb; cases sub <;> first | rfl | cases h
  split at h
  · next hb => subst hb; cases sub <;> rfl
  split at h
  · next hb =>
    have := validate_fixed (Or.inr hb) .ufixed sub
    rw [h] at this
    obtain ⟨_, _, _, _, _, _, _, h⟩ := this
    exact h
  split at h
  · next hb =>
    have := validate_fixed (Or.inl hb) .fixed sub
    rw [h] at this
    obtain ⟨_, _, _, _, _, _, _, h⟩ := this
    exact h
  split at h
  · next hb =>
    subst hb
    cases sub with
    | none => rfl
    | two m n => cases h
    | one n =>
      have h0 : 0 < n := by
        rw [subBytes] at h
        split at h
        · omega
        · cases h
      have := validate_bytes h0
      rw [h] at this
      exact this.2.2
  split at h
  · next hb => subst hb; cases sub <;> first | rfl | cases h
  · cases h

theorem validateBasic_cases (b : List Char) (sub : Sub) :
    validateBasic b sub = .ok () ∨ validateBasic b sub = .error .abiTypeError := by
  unfold validateBasic
  repeat' split
  all_goals simp

theorem validate_cases (a : ABIType) : a.validate = .ok () ∨ a.validate = .error .abiTypeError := by
  induction a using ABIType.ind with
  | basic b s arr => exact validateBasic_cases b s
  | tuple cs arr ih =>
    rw [ABIType.validate]
    induction cs with
    | nil => exact Or.inl rfl
    | cons c cs ih' =>
      rw [ABIType.validateAll]
      rcases ih c (by simp) with h | h
      · rw [h]; exact ih' fun d hd => ih d (by simp [hd])
      · rw [h]; exact Or.inr rfl

theorem validate_of_meaning (a : ABIType) : ∀ t, meaning a = some t → a.validate = .ok () := by
  induction a using ABIType.ind with
  | basic b s arr =>
    intro t h
    simp only [meaning, Option.map_eq_some_iff] at h
    obtain ⟨_, h, _⟩ := h
    exact validate_of_baseTy h
  | tuple cs arr ih =>
    intro t h
    simp only [meaning, Option.map_eq_some_iff] at h
    obtain ⟨ts, h, hh⟩ := h
    rw [ABIType.validate]
    clear hh arr t
    induction cs generalizing ts with
    | nil => rfl
    | cons c cs ih' =>
      rw [meanings] at h
      cases hc : meaning c with
      | none => rw [hc] at h; cases h
      | some t =>
        cases hcs : meanings cs with
        | none => rw [hc, hcs] at h; cases h
        | some ts' =>
          rw [ABIType.validateAll, ih c (by simp) t hc]
          exact ih' (fun d hd => ih d (by simp [hd])) ts' hcs

theorem basicPlan_eq [Ext] {C : Type} {base b : List Char} {sub : Sub} {s : TypeStr}
    (mk : Sub → PyM C) (hd : Derives (.basic b sub []) s) (hn : (ABIType.basic b sub []).numsOk = true) :
    basicPlan base mk s = .ret (if (normBase b sub).1 = base then
      (validateBasic (normBase b sub).1 (normBase b sub).2 >>= fun _ => mk (normBase b sub).2)
      else .error .valueError) := by
  have hp : parse (normalize s) = .ok (.basic (normBase b sub).1 (normBase b sub).2 []) :=
    parse_ok_iff.2 ⟨by simpa [normTy] using normalize_type hd, (normTy_numsOk _).trans hn⟩
  unfold basicPlan parseTypeStr
  rw [hp]
  by_cases h : (normBase b sub).1 = base
  · rw [if_pos h]
    simp only [ok_bind, h, ABIType.isArray, ABIType.arrlist, List.isEmpty_nil, Bool.not_true,
      Bool.and_false, Bool.false_and, Bool.false_eq_true, if_false, ne_eq, not_true_eq_false,
      ABIType.validate, pure_eq_ok]
    congr 1
    rcases validateBasic_cases base (normBase b sub).2 with h | h <;> rw [h] <;> rfl
  · rw [if_neg h]
    simp [h]

/-- One lookup, with the nested lookups given. -/
def lookStep [Ext] {C : Type} (k : Kit C) (n : Nat) (nested : TypeStr → PyM C) (s : TypeStr) : PyM C :=
  match (mappingOf n defaultPreds k.regs).getRegistration s with
  | .ok (.cls plan) => (plan s).exec nested
  | .ok (.obj c) => .ok c
  | .error e => .error e

/-- The type of a parsed string; a bare `byte` has none in the registries. -/
def found (a : ABIType) (s : TypeStr) : Option Ty := if s = t!"byte" then none else meaning (normTy a)

theorem found_normal {a : ABIType} (ha : normTy a = a) (h : Derives a a.toTypeStr) :
    found a a.toTypeStr = meaning a := by
  unfold found
  rw [ha, if_neg]
  intro hb
  rw [hb] at h
  cases derives_unique h (derives_word (b := t!"byte") (by decide))
  simp [normTy, normBase] at ha

theorem exec_ret {C : Type} (look : TypeStr → PyM C) (r : PyM C) : (Plan.ret r).exec look = r := rfl

theorem outcome_err {C : Type} {obj : Ty → C} {e : Exc} (h : TypeErr e) :
    Outcome obj none (.error e) := ⟨e, rfl, h⟩

theorem leaf_outcome [Ext] {C : Type} {k : Kit C} {obj : Ty → C} (hk : k.Makes obj) {n : Nat}
    {nested : TypeStr → PyM C} {b : List Char} {sub : Sub} {s : TypeStr}
    (hd : Derives (.basic b sub []) s) (hn : (ABIType.basic b sub []).numsOk = true) :
    Outcome obj (found (.basic b sub []) s) (lookStep k n nested s) := by
  have hp : parse s = .ok (.basic b sub []) := parse_ok_iff.2 ⟨hd, hn⟩
  have hs : s = b ++ sub.str := by
    have := derives_str hd
    simpa [ABIType.toTypeStr, arrStr] using this
  have hm : meaning (normTy (.basic b sub [])) = baseTy (normBase b sub).1 (normBase b sub).2 := by
    simp [normTy, meaning, wrapDims]
  have hvE : TypeErr .abiTypeError := by simp [TypeErr]
  have hvV : TypeErr .valueError := by simp [TypeErr]
  have hvN : TypeErr .noEntriesFound := by simp [TypeErr]
  have hnb : ∀ b', b ≠ b' → b ≠ t!"byte" → found (.basic b sub []) s = meaning (normTy (.basic b sub [])) := by
    intro _ _ hb
    unfold found
    rw [if_neg]
    intro h
    rw [h] at hd
    cases derives_unique hd (derives_word (b := t!"byte") (by decide))
    exact hb rfl
  have hsub : ∀ m, sub = .one m → 0 < m := by
    rintro m rfl
    cases hd with
    | basic _ _ h3 _ => cases h3 with | one h => exact (numeral_iff.1 h).1
  unfold lookStep
  rw [Kit.regs, getRegistration_parsed n _ _ _ _ _ _ _ _ _ _ _ _ hp]
  by_cases h0 : b = t!"uint"
  · subst h0
    rw [hnb [] (by decide) (by decide), hm]
    have e1 : (normBase t!"uint" sub).1 = t!"uint" := by cases sub <;> rfl
    have e2 : baseTy (normBase t!"uint" sub).1 (normBase t!"uint" sub).2 =
      subInt .uint (normBase t!"uint" sub).2 := by rw [e1]; rfl
    rw [e2]
    simp only [pick, if_true]
    rw [basicPlan_eq _ hd hn, exec_ret, if_pos e1, e1]
    have := validate_int (b := t!"uint") (Or.inr rfl) .uint (normBase t!"uint" sub).2
    generalize (normBase t!"uint" sub).2 = sub' at this
    cases hi : subInt .uint sub' with
    | none => rw [hi] at this; simp only at this; rw [this]; exact outcome_err hvE
    | some t =>
      rw [hi] at this
      obtain ⟨m, rfl, hv, rfl, h⟩ := this
      rw [h]
      exact hk.uint m hv
  by_cases h1 : b = t!"int"
  · subst h1
    rw [hnb [] (by decide) (by decide), hm]
    have e1 : (normBase t!"int" sub).1 = t!"int" := by cases sub <;> rfl
    have e2 : baseTy (normBase t!"int" sub).1 (normBase t!"int" sub).2 =
      subInt .int (normBase t!"int" sub).2 := by rw [e1]; rfl
    rw [e2]
    simp only [pick, if_true, h0, if_false]
    rw [basicPlan_eq _ hd hn, exec_ret, if_pos e1, e1]
    have := validate_int (b := t!"int") (Or.inl rfl) .int (normBase t!"int" sub).2
    generalize (normBase t!"int" sub).2 = sub' at this
    cases hi : subInt .int sub' with
    | none => rw [hi] at this; simp only at this; rw [this]; exact outcome_err hvE
    | some t =>
      rw [hi] at this
      obtain ⟨m, rfl, hv, rfl, h⟩ := this
      rw [h]
      exact hk.int m hv
  by_cases h2 : b = t!"address"
  · subst h2
    rw [hnb [] (by decide) (by decide), hm]
    simp only [pick, if_true, h0, h1, if_false]
    rw [basicPlan_eq _ hd hn, exec_ret]
    cases sub
    · exact hk.address
    · exact outcome_err hvE
    · exact outcome_err hvE
  by_cases h3 : b = t!"bool"
  · subst h3
    rw [hnb [] (by decide) (by decide), hm]
    simp only [pick, if_true, h0, h1, h2, if_false]
    rw [basicPlan_eq _ hd hn, exec_ret]
    cases sub <;> exact hk.bool
  by_cases h4 : b = t!"ufixed"
  · subst h4
    rw [hnb [] (by decide) (by decide), hm]
    have e1 : (normBase t!"ufixed" sub).1 = t!"ufixed" := by cases sub <;> rfl
    have e2 : baseTy (normBase t!"ufixed" sub).1 (normBase t!"ufixed" sub).2 =
      subFixed .ufixed (normBase t!"ufixed" sub).2 := by rw [e1]; rfl
    rw [e2]
    simp only [pick, if_true, h0, h1, h2, h3, if_false]
    rw [basicPlan_eq _ hd hn, exec_ret, if_pos e1, e1]
    have := validate_fixed (b := t!"ufixed") (Or.inr rfl) .ufixed (normBase t!"ufixed" sub).2
    generalize (normBase t!"ufixed" sub).2 = sub' at this
    cases hi : subFixed .ufixed sub' with
    | none => rw [hi] at this; simp only at this; rw [this]; exact outcome_err hvE
    | some t =>
      rw [hi] at this
      obtain ⟨m, m', rfl, hv, hv1, hv2, rfl, h⟩ := this
      rw [h]
      exact hk.ufixed m m' hv hv1 hv2
  by_cases h5 : b = t!"fixed"
  · subst h5
    rw [hnb [] (by decide) (by decide), hm]
    have e1 : (normBase t!"fixed" sub).1 = t!"fixed" := by cases sub <;> rfl
    have e2 : baseTy (normBase t!"fixed" sub).1 (normBase t!"fixed" sub).2 =
      subFixed .fixed (normBase t!"fixed" sub).2 := by rw [e1]; rfl
    rw [e2]
    simp only [pick, if_true, h0, h1, h2, h3, h4, if_false]
    rw [basicPlan_eq _ hd hn, exec_ret, if_pos e1, e1]
    have := validate_fixed (b := t!"fixed") (Or.inl rfl) .fixed (normBase t!"fixed" sub).2
    generalize (normBase t!"fixed" sub).2 = sub' at this
    cases hi : subFixed .fixed sub' with
    | none => rw [hi] at this; simp only at this; rw [this]; exact outcome_err hvE
    | some t =>
      rw [hi] at this
      obtain ⟨m, m', rfl, hv, hv1, hv2, rfl, h⟩ := this
      rw [h]
      exact hk.fixed m m' hv hv1 hv2
  by_cases h6 : b = t!"bytes"
  · subst h6
    rw [hnb [] (by decide) (by decide), hm]
    simp only [pick, if_true, h0, h1, h2, h3, h4, h5, if_false]
    cases sub with
    | none =>
      simp only [if_true]
      rw [basicPlan_eq _ hd hn, exec_ret]
      exact congrArg Except.ok hk.bytes
    | two m m' =>
      rw [if_neg (by simp)]
      simp only
      rw [basicPlan_eq _ hd hn, exec_ret]
      exact outcome_err hvE
    | one m =>
      rw [if_neg (by simp)]
      simp only
      have e2 : baseTy (normBase t!"bytes" (.one m)).1 (normBase t!"bytes" (.one m)).2 =
        subBytes (.one m) := rfl
      rw [basicPlan_eq _ hd hn, exec_ret, e2]
      have h0 := hsub m rfl
      have := validate_bytes h0
      have e3 : (normBase t!"bytes" (.one m)).2 = .one m := rfl
      have e4 : (normBase t!"bytes" (.one m)).1 = t!"bytes" := rfl
      rw [e3, e4, if_pos rfl]
      cases hi : subBytes (.one m) with
      | none => rw [hi] at this; simp only at this; rw [this]; exact outcome_err hvE
      | some t =>
        rw [hi] at this
        obtain ⟨hv, rfl, h⟩ := this
        rw [h]
        exact hk.bytesM m h0 hv
  by_cases h7 : b = t!"function"
  · subst h7
    rw [hnb [] (by decide) (by decide), hm]
    simp only [pick, if_true, h0, h1, h2, h3, h4, h5, h6, if_false]
    rw [basicPlan_eq _ hd hn, exec_ret]
    cases sub with
    | none => exact hk.bytesM 24 (by decide) (by decide)
    | one m => exact outcome_err hvV
    | two m m' => exact outcome_err hvV
  by_cases h8 : b = t!"string"
  · subst h8
    rw [hnb [] (by decide) (by decide), hm]
    simp only [pick, if_true, h0, h1, h2, h3, h4, h5, h6, h7, if_false]
    rw [basicPlan_eq _ hd hn, exec_ret]
    cases sub with
    | none => exact congrArg Except.ok hk.string
    | one m => exact outcome_err hvE
    | two m m' => exact outcome_err hvE
  have hf : found (.basic b sub []) s = none := by
    by_cases hb : b = t!"byte"
    · subst hb
      cases sub with
      | none =>
        unfold found
        rw [if_pos]
        rw [hs]; rfl
      | one m => unfold found; rw [hm]; split <;> rfl
      | two m m' => unfold found; rw [hm]; split <;> rfl
    · rw [hnb [] (by
        cases hd with
        | basic h _ _ _ => exact h) hb, hm]
      have e : normBase b sub = (b, sub) := by
        cases sub with
        | none => rw [normBase, if_neg h1, if_neg h0, if_neg h5, if_neg h4, if_neg h7, if_neg hb]
        | one m => rfl
        | two m m' => rfl
      rw [e, baseTy, if_neg h0, if_neg h1, if_neg h2, if_neg h3, if_neg h4, if_neg h5, if_neg h6,
        if_neg h8]
  rw [hf]
  simp only [pick, h0, h1, h2, h3, h4, h5, h6, h7, h8, if_false]
  exact outcome_err hvN

/-- The item type, and the outermost dimension. -/
theorem split_dims {a : ABIType} {s : TypeStr} (hd : Derives a s) (harr : a.isArray = true) :
    ∃ item d, a = addDim item d ∧ a.itemType = .ok item ∧ a.arrlist.getLast? = some d ∧
      Derives item item.toTypeStr ∧ depth item + 1 = depth a := by
  have key : ∀ {ds : List (Option Nat)} {w}, DerivesDims ds w → ds.dropLast = [] ∨ True := fun _ => Or.inr trivial
  clear key
  have drop : ∀ {ds : List (Option Nat)} {d w}, DerivesDims (ds ++ [d]) w → ∃ w', DerivesDims ds w' := by
    intro ds
    induction ds with
    | nil => intro d w _; exact ⟨[], .nil⟩
    | cons x xs ih =>
      intro d w h
      rw [List.cons_append] at h
      cases h with
      | dynamic h => obtain ⟨w', h'⟩ := ih h; exact ⟨_, .dynamic h'⟩
      | sized hn h => obtain ⟨w', h'⟩ := ih h; exact ⟨_, .sized hn h'⟩
  cases hd with
  | @basic base s1 s2 sub arr h1 h2 h3 h4 =>
    have hne : arr ≠ [] := by rintro rfl; simp [ABIType.isArray, ABIType.arrlist] at harr
    obtain ⟨ds, d, rfl⟩ : ∃ ds d, arr = ds ++ [d] :=
      ⟨arr.dropLast, arr.getLast hne, (List.dropLast_append_getLast hne).symm⟩
    obtain ⟨w', h4'⟩ := drop h4
    have hder := Derives.basic h1 h2 h3 h4'
    refine ⟨.basic base sub ds, d, rfl, ?_, by simp [ABIType.arrlist], derives_str hder ▸ hder, ?_⟩
    · rw [ABIType.itemType]
      · simp
      · simp
    · simp [depth]
  | @tuple comps s1 s2 arr h1 h2 =>
    have hne : arr ≠ [] := by rintro rfl; simp [ABIType.isArray, ABIType.arrlist] at harr
    obtain ⟨ds, d, rfl⟩ : ∃ ds d, arr = ds ++ [d] :=
      ⟨arr.dropLast, arr.getLast hne, (List.dropLast_append_getLast hne).symm⟩
    obtain ⟨w', h4'⟩ := drop h2
    have hder := Derives.tuple h1 h4'
    refine ⟨.tuple comps ds, d, rfl, ?_, by simp [ABIType.arrlist], derives_str hder ▸ hder, ?_⟩
    · rw [ABIType.itemType]
      · simp
      · simp
    · simp [depth]; omega

theorem comps_derive {cs : List ABIType} {w : List Char} (h : DerivesComps cs w) :
    ∀ c ∈ cs, Derives c c.toTypeStr := by
  refine DerivesComps.rec (motive_1 := fun c s _ => Derives c c.toTypeStr)
    (motive_2 := fun cs _ _ => ∀ c ∈ cs, Derives c c.toTypeStr) ?_ ?_ ?_ ?_ h
  · intro base s1 s2 sub arr h1 h2 h3 h4
    have := Derives.basic h1 h2 h3 h4
    exact derives_str this ▸ this
  · intro comps s1 s2 arr h1 h2 _
    have := Derives.tuple h1 h2
    exact derives_str this ▸ this
  · intro t s _ ih c hc
    rw [List.mem_singleton] at hc
    subst hc; exact ih
  · intro t ts s s' _ _ ih ih' c hc
    rcases List.mem_cons.1 hc with rfl | hc
    · exact ih
    · exact ih' c hc

theorem exec_askAll {C : Type} {obj : Ty → C} {nested : TypeStr → PyM C} (cs : List ABIType)
    (h : ∀ c ∈ cs, Outcome obj (meaning c) (nested c.toTypeStr)) (f : List C → Plan C) :
    match meanings cs with
    | some ts => (Plan.askAll (ABIType.toTypeStrs cs) f).exec nested = (f (ts.map obj)).exec nested
    | none => ∃ e, (Plan.askAll (ABIType.toTypeStrs cs) f).exec nested = .error e ∧ TypeErr e := by
  induction cs generalizing f with
  | nil => simp [meanings, ABIType.toTypeStrs, Plan.askAll]
  | cons c cs ih =>
    have h1 := h c (by simp)
    rw [ABIType.toTypeStrs, Plan.askAll, Plan.exec, meanings]
    cases hm : meaning c with
    | none =>
      rw [hm] at h1
      obtain ⟨e, he, ht⟩ := h1
      rw [he]
      exact ⟨e, rfl, ht⟩
    | some t =>
      rw [hm] at h1
      simp only [Outcome] at h1
      rw [h1]
      simp only
      have := ih (fun d hd => h d (by simp [hd])) (fun cs => f (obj t :: cs))
      cases hms : meanings cs with
      | none => rw [hms] at this; exact this
      | some ts => rw [hms] at this; exact this

theorem normTy_item {a item : ABIType} {d : Option Nat} (h : normTy a = a) (e : a = addDim item d) :
    normTy item = item := by
  subst e
  rw [normTy_addDim] at h
  cases item <;> simp [addDim, normTy] at h ⊢ <;> exact h

/-- One step of a lookup of a parsed type string. -/
theorem lookStep_outcome [Ext] {C : Type} {k : Kit C} {obj : Ty → C} (hk : k.Makes obj) {n : Nat}
    {nested : TypeStr → PyM C} {fuel : Nat}
    (hnest : ∀ a s, Derives a s → a.numsOk = true → depth a ≤ fuel → Outcome obj (found a s) (nested s))
    {a : ABIType} {s : TypeStr} (hd : Derives a s) (hn : a.numsOk = true) (hdep : depth a ≤ fuel + 1) :
    Outcome obj (found a s) (lookStep k n nested s) := by
  have hp : parse s = .ok a := parse_ok_iff.2 ⟨hd, hn⟩
  have hd' := normalize_type hd
  have hs' : normalize s = (normTy a).toTypeStr := derives_str hd'
  have hn' : (normTy a).numsOk = true := (normTy_numsOk a).trans hn
  have hp' : parse (normalize s) = .ok (normTy a) := parse_ok_iff.2 ⟨hd', hn'⟩
  have hvE : TypeErr .abiTypeError := by simp [TypeErr]
  by_cases harr : a.isArray = true
  · -- arrays
    have harr' : (normTy a).isArray = true := by
      cases a <;> simpa [normTy, ABIType.isArray, ABIType.arrlist] using harr
    have hf : found a s = meaning (normTy a) := by
      unfold found
      rw [if_neg]
      rintro rfl
      cases derives_unique hd (derives_word (b := t!"byte") (by decide))
      simp [ABIType.isArray, ABIType.arrlist] at harr
    obtain ⟨item, d, e1, e2, e3, hi, hdi⟩ := split_dims hd' harr'
    rw [depth_normTy] at hdi
    have hin : normTy item = item := normTy_item (normTy_idem a) e1
    have hni : item.numsOk = true := by
      rw [e1, numsOk_addDim, Bool.and_eq_true] at hn'
      exact hn'.1
    have hout := hnest item item.toTypeStr hi hni (by omega)
    rw [found_normal hin hi] at hout
    have hreg : lookStep k n nested s = (arrayPlan k.array s).exec nested := by
      unfold lookStep
      rw [Kit.regs, getRegistration_parsed n _ _ _ _ _ _ _ _ _ _ _ _ hp]
      rcases a with ⟨b, sub, (_ | ⟨x, xs⟩)⟩ | ⟨cs, (_ | ⟨x, xs⟩)⟩
      · simp [ABIType.isArray, ABIType.arrlist] at harr
      · rfl
      · simp [ABIType.isArray, ABIType.arrlist] at harr
      · rfl
    rw [hreg, hf]
    have hpt : parseTypeStr none true s = ((normTy a).validate >>= fun _ => .ok (normTy a)) := by
      unfold parseTypeStr
      rw [hp']
      simp [harr']
    unfold arrayPlan
    rw [hpt]
    rcases validate_cases (normTy a) with hv | hv
    · rw [hv]
      simp only [ok_bind, Plan.bindPyM, e2, Plan.exec, e3]
      rw [e1, meaning_addDim]
      cases hm : meaning item with
      | none =>
        rw [hm] at hout
        obtain ⟨e, he, ht⟩ := hout
        rw [he]
        exact ⟨e, rfl, ht⟩
      | some t =>
        rw [hm] at hout
        simp only [Outcome] at hout
        rw [hout]
        exact hk.array d t
    · have hm : meaning (normTy a) = none := by
        cases hm : meaning (normTy a) with
        | none => rfl
        | some t => rw [validate_of_meaning _ _ hm] at hv; cases hv
      rw [hm, hv]
      exact outcome_err hvE
  · rcases a with ⟨b, sub, (_ | ⟨x, xs⟩)⟩ | ⟨cs, (_ | ⟨x, xs⟩)⟩
    · exact leaf_outcome hk hd hn
    · exact absurd rfl harr
    · -- tuples
      have hf : found (.tuple cs []) s = meaning (normTy (.tuple cs [])) := by
        unfold found
        rw [if_neg]
        rintro rfl
        cases derives_unique hd (derives_word (b := t!"byte") (by decide))
      have hreg : lookStep k n nested s = (tuplePlan k.tuple s).exec nested := by
        unfold lookStep
        rw [Kit.regs, getRegistration_parsed n _ _ _ _ _ _ _ _ _ _ _ _ hp]
        rfl
      rw [hreg, hf]
      have hnt : normTy (.tuple cs []) = .tuple (normTys cs) [] := by rw [normTy]
      rw [hnt] at hp' hd' hn' ⊢
      have hpt : parseTupleTypeStr s = ((ABIType.tuple (normTys cs) []).validate >>= fun _ => .ok (normTys cs)) := by
        unfold parseTupleTypeStr
        rw [hp']
        rfl
      unfold tuplePlan
      rw [hpt]
      have hm : meaning (.tuple (normTys cs) []) = (meanings (normTys cs)).map .tuple := by
        simp [meaning, wrapDims]
      rcases validate_cases (.tuple (normTys cs) []) with hv | hv
      · rw [hv]
        simp only [ok_bind, Plan.bindPyM]
        have hcs : ∀ c ∈ normTys cs, Outcome obj (meaning c) (nested c.toTypeStr) := by
          intro c hc
          have hder : Derives c c.toTypeStr := by
            generalize normalize s = s' at hd'
            cases hd' with
            | tuple h1 _ => exact comps_derive h1 c hc
          have hnc : c.numsOk = true := by
            simp only [ABIType.numsOk, allNumsOk_eq, Bool.and_eq_true] at hn'
            exact List.all_eq_true.1 hn'.1 c hc
          have hcn : normTy c = c := by
            rw [normTys_eq_map] at hc
            obtain ⟨c', _, rfl⟩ := List.mem_map.1 hc
            exact normTy_idem c'
          have hdc : depth c ≤ fuel := by
            have h1 := depths_mem hc
            have h2 := depth_normTy (.tuple cs [])
            rw [hnt] at h2
            simp only [depth, List.length_nil] at h2 hdep
            omega
          rw [← found_normal hcn hder]
          exact hnest c _ hder hnc hdc
        have := exec_askAll (normTys cs) hcs (fun cs => .ret (.ok (k.tuple cs)))
        rw [hm]
        cases hms : meanings (normTys cs) with
        | none => rw [hms] at this; exact this
        | some ts =>
          rw [hms] at this
          simp only at this
          simp only [Option.map_some, Outcome]
          rw [this, exec_ret, hk.tuple]
      · have hm' : meaning (.tuple (normTys cs) []) = none := by
          cases hm : meaning (.tuple (normTys cs) []) with
          | none => rfl
          | some t => rw [validate_of_meaning _ _ hm] at hv; cases hv
        rw [hm', hv]
        exact outcome_err hvE
    · exact absurd rfl harr

theorem lookStep_error [Ext] {C : Type} (k : Kit C) (n : Nat) (nested : TypeStr → PyM C) {s : TypeStr}
    {e : Exc} (h : parse s = .error e) : lookStep k n nested s = .error e := by
  unfold lookStep
  rw [Kit.regs, getRegistration_error n _ _ _ _ _ _ _ _ _ _ _ _ h]

/-! ## The default registries -/

/-- The encoder classes of the default (`pk = false`) and the packed registry. -/
def encKit [Ext] (pk : Bool) : Kit Encoder where
  uint n := mkUInt n (if pk then n / 8 else 32)
  int n := mkSInt n (if pk then n / 8 else 32)
  address := mkAddress (if pk then 20 else 32)
  bool := mkBool (if pk then 1 else 32)
  ufixed m n := mkUFixed m n (if pk then m / 8 else 32)
  fixed m n := mkSFixed m n (if pk then m / 8 else 32)
  bytesM n := mkBytesM (n * 8) (if pk then n else 32)
  bytes := if pk then packedByteStringEncoder else byteStringEncoder
  string := if pk then packedTextStringEncoder else textStringEncoder
  array d e := if pk then .ok (mkPackedArray d e) else mkArray d e
  tuple := mkTuple

/-- The decoder classes of the default registry. -/
def decKit [Ext] : Kit Decoder where
  uint := mkUIntD
  int := mkSIntD
  address := .ok addressDecoder
  bool := .ok boolDecoder
  ufixed := mkUFixedD
  fixed := mkSFixedD
  bytesM n := mkBytesMD (n * 8)
  bytes := byteStringDecoder (.own true)
  string := stringDecoder (.own true)
  array := mkArrayD
  tuple := mkTupleD

theorem encKit_regs [Ext] : (encKit false).regs = defaultEncoders := rfl
theorem encKit_packed [Ext] : (encKit true).regs = packedEncoders := rfl
theorem decKit_regs [Ext] : (decKit).regs = defaultDecoders := rfl

theorem encsOf_map [Ext] (pk : Bool) (ts : List Ty) : encsOf pk ts = ts.map (encOf pk) := by
  induction ts with
  | nil => rfl
  | cons t ts ih => simp [encsOf, ih]

theorem decsOf_map (ts : List Ty) : decsOf ts = ts.map decOf := by
  induction ts with
  | nil => rfl
  | cons t ts ih => simp [decsOf, ih]

theorem encOf_isDynamic [Ext] (pk : Bool) (t : Ty) :
    (encOf pk t).isDynamic = some (encOf pk t).dyn := by
  have : ∃ d, (encOf pk t).isDynamic = some d := by
    cases t <;> cases pk <;> exact ⟨_, rfl⟩
  obtain ⟨d, h⟩ := this
  simp [Encoder.dyn, h]

theorem checkSizes_ok {n d : Nat} (h1 : n % 8 = 0) (h2 : n ≤ d * 8) : checkSizes n d = .ok () := by
  unfold checkSizes
  rw [if_neg (by omega), if_neg (by omega)]

theorem checkSizesD_ok {n d : Nat} (h1 : n % 8 = 0) (h2 : n ≤ d * 8) : checkSizesD n d = .ok () := by
  unfold checkSizesD
  rw [if_neg (by omega), if_neg (by omega)]

theorem encKit_makes [Ext] (pk : Bool) : (encKit pk).Makes (encOf pk) where
  uint n h := by
    obtain ⟨h1, h2, h3⟩ := h
    simp only [encKit, mkUInt]
    rw [checkSizes_ok h3 (by cases pk <;> simp <;> omega)]
    rfl
  int n h := by
    obtain ⟨h1, h2, h3⟩ := h
    simp only [encKit, mkSInt]
    rw [checkSizes_ok h3 (by cases pk <;> simp <;> omega)]
    rfl
  address := by cases pk <;> rfl
  bool := by cases pk <;> rfl
  ufixed m n h h4 h5 := by
    obtain ⟨h1, h2, h3⟩ := h
    simp only [encKit, mkUFixed]
    rw [checkSizes_ok h3 (by cases pk <;> simp <;> omega)]
    simp only [ok_bind, checkFrac]
    rw [if_neg (by omega)]
    rfl
  fixed m n h h4 h5 := by
    obtain ⟨h1, h2, h3⟩ := h
    simp only [encKit, mkSFixed]
    rw [checkSizes_ok h3 (by cases pk <;> simp <;> omega)]
    simp only [ok_bind, checkFrac]
    rw [if_neg (by omega)]
    rfl
  bytesM m h1 h2 := by
    simp only [encKit, mkBytesM]
    rw [checkSizes_ok (by omega) (by cases pk <;> simp <;> omega)]
    rfl
  bytes := by cases pk <;> rfl
  string := by cases pk <;> rfl
  array d t := by
    cases pk with
    | true => cases d <;> rfl
    | false =>
      cases d with
      | none => rfl
      | some k =>
        simp only [encKit, Bool.false_eq_true, if_false, mkArray, mkSizedArray, encOf_isDynamic]
        rfl
  tuple ts := by
    simp only [encKit, encOf, encsOf_map]

theorem decKit_makes [Ext] : (decKit).Makes decOf where
  uint n h := by
    obtain ⟨h1, h2, h3⟩ := h
    simp only [decKit, mkUIntD]
    rw [checkSizesD_ok h3 (by omega)]
    rfl
  int n h := by
    obtain ⟨h1, h2, h3⟩ := h
    simp only [decKit, mkSIntD]
    rw [checkSizesD_ok h3 (by omega)]
    rfl
  address := rfl
  bool := rfl
  ufixed m n h h4 h5 := by
    obtain ⟨h1, h2, h3⟩ := h
    simp only [decKit, mkUFixedD]
    rw [checkSizesD_ok h3 (by omega)]
    simp only [ok_bind, checkFracD]
    rw [if_neg (by omega)]
    rfl
  fixed m n h h4 h5 := by
    obtain ⟨h1, h2, h3⟩ := h
    simp only [decKit, mkSFixedD]
    rw [checkSizesD_ok h3 (by omega)]
    simp only [ok_bind, checkFracD]
    rw [if_neg (by omega)]
    rfl
  bytesM m h1 h2 := by
    simp only [decKit, mkBytesMD]
    rw [checkSizesD_ok (by omega) (by omega)]
    rfl
  bytes := rfl
  string := rfl
  array d t := by
    have hd := (decOf_good t).isDyn
    have hw : wrapItem (decOf t) = .ok (if t.dynamic then headTail (decOf t) else decOf t) := by
      simp only [wrapItem, hd]
    cases d with
    | none =>
      simp only [decKit, mkArrayD, mkDynamicArrayD, hw, ok_bind]
      rfl
    | some k =>
      simp only [decKit, mkArrayD, mkSizedArrayD, hw, ok_bind, pure_eq_ok, wrapDim, decOf, sizedDec]
      cases hdy : t.dynamic
      · simp [hd, hdy]
      · simp [headTail]
  tuple ts := by
    simp only [decKit, decOf, decsOf_map]

theorem setStrict_true (t : Ty) : (decOf t).setStrict true = decOf t := by
  cases t <;> simp only [Decoder.setStrict] <;> split <;> rfl

theorem getEncoderFuel_step [Ext] (pk : Bool) (n fuel : Nat) (s : TypeStr) :
    getEncoderFuel (mappingOf n defaultPreds (encKit pk).regs) (fuel + 1) s =
      lookStep (encKit pk) n (getEncoderFuel (mappingOf n defaultPreds (encKit pk).regs) fuel) s := by
  rw [getEncoderFuel, lookStep]
  split <;> simp_all

theorem getEncoderFuel_outcome [Ext] (pk : Bool) (n fuel : Nat) : ∀ a s, Derives a s →
    a.numsOk = true → depth a ≤ fuel →
    Outcome (encOf pk) (found a s) (getEncoderFuel (mappingOf n defaultPreds (encKit pk).regs) fuel s) := by
  induction fuel with
  | zero =>
    intro a s _ _ h
    cases a <;> simp [depth] at h
  | succ fuel ih =>
    intro a s hd hn hdep
    rw [getEncoderFuel_step]
    exact lookStep_outcome (encKit_makes pk) ih hd hn hdep

theorem getDecoderFuel_step [Ext] (n fuel : Nat) (s : TypeStr) (strict : Bool) :
    getDecoderFuel (mappingOf n defaultPreds (decKit).regs) (fuel + 1) s strict =
      (lookStep decKit n (fun s' => getDecoderFuel (mappingOf n defaultPreds (decKit).regs) fuel s' true) s
        >>= fun d => .ok (d.setStrict strict)) := by
  rw [getDecoderFuel, lookStep]
  split <;> simp_all

theorem getDecoderFuel_outcome [Ext] (n fuel : Nat) : ∀ a s, Derives a s →
    a.numsOk = true → depth a ≤ fuel →
    Outcome decOf (found a s) (getDecoderFuel (mappingOf n defaultPreds (decKit).regs) fuel s true) := by
  induction fuel with
  | zero =>
    intro a s _ _ h
    cases a <;> simp [depth] at h
  | succ fuel ih =>
    intro a s hd hn hdep
    rw [getDecoderFuel_step]
    have := lookStep_outcome (n := n) (decKit_makes) ih hd hn hdep
    cases hf : found a s with
    | none =>
      rw [hf] at this
      obtain ⟨e, he, ht⟩ := this
      rw [he]
      exact ⟨e, rfl, ht⟩
    | some t =>
      rw [hf] at this
      simp only [Outcome] at this ⊢
      rw [this, ok_bind, setStrict_true]

theorem found_iff [Ext] {a : ABIType} {s : TypeStr} {t : Ty} (hd : Derives a s) (hn : a.numsOk = true) :
    found a s = some t ↔ Supported s t := by
  unfold found Supported
  constructor
  · intro h
    split at h
    · cases h
    · next hb => exact ⟨parsed_spells hd hn h, hb⟩
  · rintro ⟨h, hb⟩
    rw [if_neg hb]
    obtain ⟨a', h1, _, h3⟩ := spells_parsed h
    cases derives_unique hd h1
    exact h3

theorem not_supported [Ext] {s : TypeStr} {e : Exc} (h : parse s = .error e) (t : Ty) : ¬ Supported s t := by
  rintro ⟨hs, _⟩
  obtain ⟨a, h1, h2, _⟩ := spells_parsed hs
  rw [parse_ok_iff.2 ⟨h1, h2⟩] at h
  cases h

theorem parseErr_typeErr [Ext] {s : TypeStr} {e : Exc} (h : parse s = .error e) : TypeErr e := by
  rcases parse_error_exc h with rfl | rfl | rfl <;> simp [TypeErr]

theorem supported_unique [Ext] {s : TypeStr} {t u : Ty} (h : Supported s t) (h' : Supported s u) : t = u :=
  spells_unique h.1 h'.1

/-- What `get_encoder` finds: the encoder of the type, or nothing for an unsupported string. -/
theorem encoder_lookup [Ext] (pk : Bool) (n : Nat) (s : TypeStr) :
    (∃ t, Supported s t ∧
      getEncoderFuel (mappingOf n defaultPreds (encKit pk).regs) (s.length + 1) s = .ok (encOf pk t)) ∨
    ((∀ t, ¬ Supported s t) ∧ ∃ e,
      getEncoderFuel (mappingOf n defaultPreds (encKit pk).regs) (s.length + 1) s = .error e ∧ TypeErr e) := by
  cases hp : parse s with
  | error e =>
    refine Or.inr ⟨not_supported hp, e, ?_, parseErr_typeErr hp⟩
    rw [getEncoderFuel_step]
    exact lookStep_error _ _ _ hp
  | ok a =>
    obtain ⟨hd, hn⟩ := parse_ok_iff.1 hp
    have := getEncoderFuel_outcome pk n (s.length + 1) a s hd hn (by have := depth_le hd; omega)
    cases hf : found a s with
    | none =>
      rw [hf] at this
      refine Or.inr ⟨fun t ht => ?_, this⟩
      rw [(found_iff hd hn).2 ht] at hf
      cases hf
    | some t =>
      rw [hf] at this
      exact Or.inl ⟨t, (found_iff hd hn).1 hf, this⟩

/-- What `get_decoder` finds. -/
theorem decoder_lookup [Ext] (n : Nat) (s : TypeStr) (strict : Bool) :
    (∃ t, Supported s t ∧
      getDecoderFuel (mappingOf n defaultPreds (decKit).regs) (s.length + 1) s strict =
        .ok ((decOf t).setStrict strict)) ∨
    ((∀ t, ¬ Supported s t) ∧ ∃ e,
      getDecoderFuel (mappingOf n defaultPreds (decKit).regs) (s.length + 1) s strict = .error e ∧
        TypeErr e) := by
  cases hp : parse s with
  | error e =>
    refine Or.inr ⟨not_supported hp, e, ?_, parseErr_typeErr hp⟩
    rw [getDecoderFuel_step, lookStep_error _ _ _ hp]
    rfl
  | ok a =>
    obtain ⟨hd, hn⟩ := parse_ok_iff.1 hp
    have := lookStep_outcome (n := n) (decKit_makes) (getDecoderFuel_outcome n s.length) hd hn
      (by have := depth_le hd; omega)
    rw [getDecoderFuel_step]
    cases hf : found a s with
    | none =>
      rw [hf] at this
      obtain ⟨e, he, ht⟩ := this
      refine Or.inr ⟨fun t ht => ?_, e, ?_, ht⟩
      · rw [(found_iff hd hn).2 ht] at hf
        cases hf
      · rw [he]; rfl
    | some t =>
      rw [hf] at this
      simp only [Outcome] at this
      refine Or.inl ⟨t, (found_iff hd hn).1 hf, ?_⟩
      rw [this]; rfl

theorem getEncoder_default [Ext] (s : TypeStr) :
    (∃ t, Supported s t ∧ getEncoder defaultRegistry s = .ok (encOf false t)) ∨
    ((∀ t, ¬ Supported s t) ∧ ∃ e, getEncoder defaultRegistry s = .error e ∧ TypeErr e) :=
  encoder_lookup false 0 s

theorem getEncoder_packed [Ext] (s : TypeStr) :
    (∃ t, Supported s t ∧ getEncoder packedRegistry s = .ok (encOf true t)) ∨
    ((∀ t, ¬ Supported s t) ∧ ∃ e, getEncoder packedRegistry s = .error e ∧ TypeErr e) :=
  encoder_lookup true 100 s

theorem getDecoder_default [Ext] (s : TypeStr) (strict : Bool) :
    (∃ t, Supported s t ∧ getDecoder defaultRegistry s strict = .ok ((decOf t).setStrict strict)) ∨
    ((∀ t, ¬ Supported s t) ∧ ∃ e, getDecoder defaultRegistry s strict = .error e ∧ TypeErr e) :=
  decoder_lookup 0 s strict

end EthAbi
