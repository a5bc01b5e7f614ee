import Verif.Lemmas.Strings

/-!
# A lookup depends on the replaced string only
-/
namespace EthAbi
open Spec

theorem exec_askAll_congr {C : Type} {look look' : TypeStr → PyM C} (cs : List ABIType)
    (h : ∀ c ∈ cs, look c.toTypeStr = look' c.toTypeStr) (f : List C → Plan C)
    (hf : ∀ xs, (f xs).exec look = (f xs).exec look') :
    (Plan.askAll (ABIType.toTypeStrs cs) f).exec look =
      (Plan.askAll (ABIType.toTypeStrs cs) f).exec look' := by
  induction cs generalizing f with
  | nil => exact hf []
  | cons c cs ih =>
    rw [ABIType.toTypeStrs, Plan.askAll, Plan.exec, Plan.exec, h c (by simp)]
    cases look' c.toTypeStr with
    | error e => rfl
    | ok x => exact ih (fun d hd => h d (by simp [hd])) _ fun xs => hf _

theorem pick_leaf {V : Type} (u i a b uf f bm by_ fn s arr tup : V) (base : List Char) (sub : Sub) :
    ∃ o, pick u i a b uf f bm by_ fn s arr tup (.basic base sub []) = o ∧ (o = none ∨ o = some u ∨
      o = some i ∨ o = some a ∨ o = some b ∨ o = some uf ∨ o = some f ∨ o = some bm ∨ o = some by_ ∨
      o = some fn ∨ o = some s) := by
  refine ⟨_, rfl, ?_⟩
  have hdef : pick u i a b uf f bm by_ fn s arr tup (.basic base sub []) =
    if base = t!"uint" then some u
    else if base = t!"int" then some i
    else if base = t!"address" then some a
    else if base = t!"bool" then some b
    else if base = t!"ufixed" then some uf
    else if base = t!"fixed" then some f
    else if base = t!"bytes" then (if sub = .none then some by_ else some bm)
    else if base = t!"function" then some fn
    else if base = t!"string" then some s
    else none := rfl
  rw [hdef]
  repeat' split
  all_goals simp

/-- The nested lookups of one step are of smaller types. -/
theorem lookStep_congr [Ext] {C : Type} (k : Kit C) (n : Nat) {nested nested' : TypeStr → PyM C}
    {fuel : Nat}
    (hnest : ∀ a s, Derives a s → a.numsOk = true → depth a ≤ fuel → nested s = nested' s)
    {a : ABIType} {s : TypeStr} (hd : Derives a s) (hn : a.numsOk = true) (hdep : depth a ≤ fuel + 1) :
    lookStep k n nested s = lookStep k n nested' s := by
  have hp : parse s = .ok a := parse_ok_iff.2 ⟨hd, hn⟩
  have hd' := normalize_type hd
  have hn' : (normTy a).numsOk = true := (normTy_numsOk a).trans hn
  have hp' : parse (normalize s) = .ok (normTy a) := parse_ok_iff.2 ⟨hd', hn'⟩
  unfold lookStep
  rw [Kit.regs, getRegistration_parsed n _ _ _ _ _ _ _ _ _ _ _ _ hp]
  have harray : a.isArray = true → (arrayPlan k.array s).exec nested = (arrayPlan k.array s).exec nested' := by
    intro harr
    have harr' : (normTy a).isArray = true := by
      cases a <;> simpa [normTy, ABIType.isArray, ABIType.arrlist] using harr
    obtain ⟨item, d, e1, e2, e3, hi, hdi⟩ := split_dims hd' harr'
    rw [depth_normTy] at hdi
    have hni : item.numsOk = true := by
      rw [e1, numsOk_addDim, Bool.and_eq_true] at hn'
      exact hn'.1
    have hpt : parseTypeStr none true s = ((normTy a).validate >>= fun _ => .ok (normTy a)) := by
      unfold parseTypeStr
      rw [hp']
      simp [harr']
    unfold arrayPlan
    rw [hpt]
    rcases validate_cases (normTy a) with hv | hv
    · rw [hv]
      simp only [ok_bind, Plan.bindPyM, e2, Plan.exec, e3]
      rw [hnest item _ hi hni (by omega)]
    · rw [hv]; rfl
  rcases a with ⟨b, sub, (_ | ⟨x, xs⟩)⟩ | ⟨cs, (_ | ⟨x, xs⟩)⟩
  · obtain ⟨o, ho, h⟩ := pick_leaf (Reg.cls (basicPlan t!"uint" (intPlan k.uint))) _ _ _ _ _ _ _ _ _ _ _ b sub
    rw [ho]
    rcases h with h | h | h | h | h | h | h | h | h | h | h <;> rw [h] <;> rfl
  · exact harray rfl
  · have hnt : normTy (.tuple cs []) = .tuple (normTys cs) [] := by rw [normTy]
    rw [hnt] at hp' hd' hn'
    have hpt : parseTupleTypeStr s = ((ABIType.tuple (normTys cs) []).validate >>= fun _ => .ok (normTys cs)) := by
      unfold parseTupleTypeStr
      rw [hp']
      rfl
    simp only [pick]
    unfold tuplePlan
    rw [hpt]
    rcases validate_cases (.tuple (normTys cs) []) with hv | hv
    · rw [hv]
      simp only [ok_bind, Plan.bindPyM]
      refine exec_askAll_congr _ (fun c hc => ?_) _ fun _ => rfl
      have hder : Derives c c.toTypeStr := by
        generalize normalize s = s' at hd'
        cases hd' with
        | tuple h1 _ => exact comps_derive h1 c hc
      have hnc : c.numsOk = true := by
        simp only [ABIType.numsOk, allNumsOk_eq, Bool.and_eq_true] at hn'
        exact List.all_eq_true.1 hn'.1 c hc
      have hdc : depth c ≤ fuel := by
        have h1 := depths_mem hc
        have h2 := depth_normTy (.tuple cs [])
        rw [hnt] at h2
        simp only [depth, List.length_nil] at h2 hdep
        omega
      exact hnest c _ hder hnc hdc
    · rw [hv]; rfl
  · exact harray rfl

theorem plan_normalize [Ext] {C : Type} (base : List Char) (mk : Sub → PyM C) (s : TypeStr) :
    basicPlan base mk (normalize s) = basicPlan base mk s := by
  simp only [basicPlan, parseTypeStr, normalize_idem]

/-- One step of a lookup of the replaced string. -/
theorem lookStep_normalize [Ext] {C : Type} (k : Kit C) (n : Nat) (nested : TypeStr → PyM C)
    {s : TypeStr} (hs : s ≠ t!"byte") :
    lookStep k n nested (normalize s) = lookStep k n nested s := by
  have hpn := parse_normalize s
  cases hp : parse s with
  | error e =>
    rw [hp] at hpn
    rw [lookStep_error k n nested hp, lookStep_error k n nested hpn]
  | ok a =>
    rw [hp] at hpn
    simp only at hpn
    unfold lookStep
    rw [Kit.regs, getRegistration_parsed n _ _ _ _ _ _ _ _ _ _ _ _ hp,
      getRegistration_parsed n _ _ _ _ _ _ _ _ _ _ _ _ hpn]
    have harray : (arrayPlan k.array (normalize s)).exec nested = (arrayPlan k.array s).exec nested := by
      simp only [arrayPlan, parseTypeStr, normalize_idem]
    have htuple : (tuplePlan k.tuple (normalize s)).exec nested = (tuplePlan k.tuple s).exec nested := by
      simp only [tuplePlan, parseTupleTypeStr, normalize_idem]
    rcases a with ⟨b, sub, (_ | ⟨x, xs⟩)⟩ | ⟨cs, (_ | ⟨x, xs⟩)⟩
    · have hb : ¬ (b = t!"byte" ∧ sub = .none) := by
        rintro ⟨rfl, rfl⟩
        have := derives_str (parse_ok_iff.1 hp).1
        exact hs (this.trans (by decide))
      cases sub with
      | none =>
        have hb : b ≠ t!"byte" := fun h => hb ⟨h, rfl⟩
        by_cases h1 : b = t!"int"
        · subst h1; exact congrArg (Plan.exec nested) (plan_normalize ..)
        by_cases h2 : b = t!"uint"
        · subst h2; exact congrArg (Plan.exec nested) (plan_normalize ..)
        by_cases h3 : b = t!"fixed"
        · subst h3; exact congrArg (Plan.exec nested) (plan_normalize ..)
        by_cases h4 : b = t!"ufixed"
        · subst h4; exact congrArg (Plan.exec nested) (plan_normalize ..)
        by_cases h5 : b = t!"function"
        · subst h5; exact congrArg (Plan.exec nested) (plan_normalize ..)
        have e : normTy (.basic b .none []) = .basic b .none [] := by
          rw [normTy, normBase, if_neg h1, if_neg h2, if_neg h3, if_neg h4, if_neg h5, if_neg hb]
        rw [e]
        obtain ⟨o, ho, h⟩ := pick_leaf _ _ _ _ _ _ _ _ _ _ _ _ b _
        rw [ho]
        rcases h with h | h | h | h | h | h | h | h | h | h | h <;> rw [h] <;>
          first | rfl | exact congrArg (Plan.exec nested) (plan_normalize ..)
      | one m =>
        rw [show normTy (.basic b (.one m) []) = .basic b (.one m) [] from rfl]
        obtain ⟨o, ho, h⟩ := pick_leaf _ _ _ _ _ _ _ _ _ _ _ _ b _
        rw [ho]
        rcases h with h | h | h | h | h | h | h | h | h | h | h <;> rw [h] <;>
          first | rfl | exact congrArg (Plan.exec nested) (plan_normalize ..)
      | two m m' =>
        rw [show normTy (.basic b (.two m m') []) = .basic b (.two m m') [] from rfl]
        obtain ⟨o, ho, h⟩ := pick_leaf _ _ _ _ _ _ _ _ _ _ _ _ b _
        rw [ho]
        rcases h with h | h | h | h | h | h | h | h | h | h | h <;> rw [h] <;>
          first | rfl | exact congrArg (Plan.exec nested) (plan_normalize ..)
    · exact harray
    · exact htuple
    · exact harray

/-! ## The registries -/

theorem encoderFuel_indep [Ext] (pk : Bool) (n : Nat) (fuel : Nat) : ∀ fuel' a s, Derives a s →
    a.numsOk = true → depth a ≤ fuel → depth a ≤ fuel' →
    getEncoderFuel (mappingOf n defaultPreds (encKit pk).regs) fuel s =
      getEncoderFuel (mappingOf n defaultPreds (encKit pk).regs) fuel' s := by
  induction fuel with
  | zero =>
    intro fuel' a s _ _ h
    cases a <;> simp [depth] at h
  | succ fuel ih =>
    intro fuel' a s hd hn h1 h2
    cases fuel' with
    | zero => cases a <;> simp [depth] at h2
    | succ fuel' =>
      rw [getEncoderFuel_step, getEncoderFuel_step]
      refine lookStep_congr _ _ (fuel := depth a - 1) ?_ hd hn (by omega)
      intro a' s' hd' hn' h'
      exact ih fuel' a' s' hd' hn' (by omega) (by omega)

theorem decoderFuel_indep [Ext] (n : Nat) (fuel : Nat) : ∀ fuel' a s strict, Derives a s →
    a.numsOk = true → depth a ≤ fuel → depth a ≤ fuel' →
    getDecoderFuel (mappingOf n defaultPreds (decKit).regs) fuel s strict =
      getDecoderFuel (mappingOf n defaultPreds (decKit).regs) fuel' s strict := by
  induction fuel with
  | zero =>
    intro fuel' a s _ _ _ h
    cases a <;> simp [depth] at h
  | succ fuel ih =>
    intro fuel' a s strict hd hn h1 h2
    cases fuel' with
    | zero => cases a <;> simp [depth] at h2
    | succ fuel' =>
      rw [getDecoderFuel_step, getDecoderFuel_step]
      congr 1
      refine lookStep_congr _ _ (fuel := depth a - 1) ?_ hd hn (by omega)
      intro a' s' hd' hn' h'
      exact ih fuel' a' s' true hd' hn' (by omega) (by omega)

theorem getEncoder_normalize [Ext] (pk : Bool) {s : TypeStr} (hs : s ≠ t!"byte") :
    getEncoder (regBy pk) (normalize s) = getEncoder (regBy pk) s := by
  have key : ∀ n, getEncoderFuel (mappingOf n defaultPreds (encKit pk).regs) ((normalize s).length + 1) (normalize s)
      = getEncoderFuel (mappingOf n defaultPreds (encKit pk).regs) (s.length + 1) s := by
    intro n
    rw [getEncoderFuel_step, lookStep_normalize _ _ _ hs, getEncoderFuel_step]
    cases hp : parse s with
    | error e => rw [lookStep_error _ _ _ hp, lookStep_error _ _ _ hp]
    | ok a =>
      obtain ⟨hd, hn⟩ := parse_ok_iff.1 hp
      have h1 := depth_le hd
      have h2 := depth_le (normalize_type hd)
      rw [depth_normTy] at h2
      refine lookStep_congr _ _ (fuel := depth a - 1) ?_ hd hn (by omega)
      intro a' s' hd' hn' h'
      exact encoderFuel_indep pk n _ _ a' s' hd' hn' (by omega) (by omega)
  cases pk
  · exact key 0
  · exact key 100

theorem getDecoder_normalize [Ext] {s : TypeStr} (hs : s ≠ t!"byte") (strict : Bool) :
    getDecoder defaultRegistry (normalize s) strict = getDecoder defaultRegistry s strict := by
  have key : ∀ n, getDecoderFuel (mappingOf n defaultPreds (decKit).regs) ((normalize s).length + 1) (normalize s) strict
      = getDecoderFuel (mappingOf n defaultPreds (decKit).regs) (s.length + 1) s strict := by
    intro n
    rw [getDecoderFuel_step, lookStep_normalize _ _ _ hs, getDecoderFuel_step]
    congr 1
    cases hp : parse s with
    | error e => rw [lookStep_error _ _ _ hp, lookStep_error _ _ _ hp]
    | ok a =>
      obtain ⟨hd, hn⟩ := parse_ok_iff.1 hp
      have h1 := depth_le hd
      have h2 := depth_le (normalize_type hd)
      rw [depth_normTy] at h2
      refine lookStep_congr _ _ (fuel := depth a - 1) ?_ hd hn (by omega)
      intro a' s' hd' hn' h'
      exact decoderFuel_indep n _ _ a' s' true hd' hn' (by omega) (by omega)
  exact key 0

/-! ## Dynamic types -/

theorem wrapDims_dynamic (t : Ty) (ds : List (Option Nat)) :
    (wrapDims t ds).dynamic = (t.dynamic || ds.any (·.isNone)) := by
  induction ds generalizing t with
  | nil => simp [wrapDims]
  | cons d ds ih =>
    have := ih (wrapDim t d)
    simp only [wrapDims, List.foldl_cons] at this ⊢
    rw [this]
    cases d <;> simp [wrapDim, Ty.dynamic]

theorem hasDyn_eq (a : ABIType) : a.hasDynamicArrlist = a.arrlist.any (·.isNone) := by
  unfold ABIType.hasDynamicArrlist ABIType.isArray
  cases a.arrlist <;> simp

theorem isDynamic_basic (b : List Char) (s : Sub) (a : List (Option Nat)) :
    (ABIType.basic b s a).isDynamic =
      (a.any (·.isNone) || decide (b = t!"string") || decide (b = t!"bytes" ∧ s = .none)) := by
  have hdef : (ABIType.basic b s a).isDynamic = if (ABIType.basic b s a).hasDynamicArrlist then true
    else if b = t!"string" then true else if b = t!"bytes" ∧ s = .none then true else false := by
      rw [ABIType.isDynamic]
  have hdy : (ABIType.basic b s a).hasDynamicArrlist = a.any (·.isNone) := hasDyn_eq _
  rw [hdef]
  by_cases ha : a.any (·.isNone) = true
  · rw [if_pos (hdy.trans ha), ha]; rfl
  · rw [if_neg (by rw [hdy]; exact ha), Bool.eq_false_iff.2 ha]
    by_cases h : b = t!"string"
    · simp [h]
    · rw [if_neg h]
      by_cases h' : b = t!"bytes" ∧ s = .none
      · rw [if_pos h']; simp [h']
      · rw [if_neg h']; simp only [h, h', decide_false, Bool.or_false]

theorem isDynamic_tuple (cs : List ABIType) (a : List (Option Nat)) :
    (ABIType.tuple cs a).isDynamic = (a.any (·.isNone) || cs.any ABIType.isDynamic) := by
  have hany : ABIType.anyDynamic cs = cs.any ABIType.isDynamic := by
    induction cs with
    | nil => rfl
    | cons c cs ih => rw [ABIType.anyDynamic, ih]; rfl
  have hdy : (ABIType.tuple cs a).hasDynamicArrlist = a.any (·.isNone) := hasDyn_eq _
  rw [ABIType.isDynamic, hany]
  by_cases ha : a.any (·.isNone) = true
  · rw [if_pos (hdy.trans ha), ha]; rfl
  · rw [if_neg (by rw [hdy]; exact ha), Bool.eq_false_iff.2 ha]; rfl

theorem baseTy_dynamic {b : List Char} {sub : Sub} {t : Ty} (h : baseTy b sub = some t) :
    t.dynamic = (decide (b = t!"string") || decide (b = t!"bytes" ∧ sub = .none)) := by
  unfold baseTy subInt subFixed subNone subBytes at h
  repeat' split at h
  all_goals first | (cases h; done) | skip
  all_goals (injection h with h; subst h; subst_vars; rfl)

theorem anyDynamic_spec (ts : List Ty) : Ty.dynamic (.tuple ts) = ts.any Ty.dynamic := by
  induction ts with
  | nil => rfl
  | cons t ts ih => rw [List.any_cons, ← ih]; rfl

theorem meaning_dynamic (a : ABIType) : ∀ t, meaning a = some t → a.isDynamic = t.dynamic := by
  induction a using ABIType.ind with
  | basic b s arr =>
    intro t h
    simp only [meaning, Option.map_eq_some_iff] at h
    obtain ⟨u, h1, rfl⟩ := h
    rw [isDynamic_basic, wrapDims_dynamic, baseTy_dynamic h1, Bool.or_assoc, Bool.or_comm]
  | tuple cs arr ih =>
    intro t h
    simp only [meaning, Option.map_eq_some_iff] at h
    obtain ⟨ts, h1, rfl⟩ := h
    rw [isDynamic_tuple, wrapDims_dynamic, anyDynamic_spec, Bool.or_comm]
    congr 1
    clear arr
    induction cs generalizing ts with
    | nil => simp only [meanings, Option.some.injEq] at h1; subst h1; rfl
    | cons c cs ih' =>
      simp only [meanings] at h1
      split at h1
      · next t us hm hms =>
        injection h1 with h1
        subst h1
        rw [List.any_cons, List.any_cons, ih c (by simp) t hm, ih' (fun d hd => ih d (by simp [hd])) us hms]
      · cases h1

theorem normTy_dynamic (a : ABIType) : (normTy a).isDynamic = a.isDynamic := by
  induction a using ABIType.ind with
  | basic b s arr =>
    rw [normTy, isDynamic_basic, isDynamic_basic]
    cases s with
    | one n => rfl
    | two m n => rfl
    | none =>
      by_cases h1 : b = t!"int"; · subst h1; simp [normBase]
      by_cases h2 : b = t!"uint"; · subst h2; simp [normBase]
      by_cases h3 : b = t!"fixed"; · subst h3; simp [normBase]
      by_cases h4 : b = t!"ufixed"; · subst h4; simp [normBase]
      by_cases h5 : b = t!"function"; · subst h5; simp [normBase]
      by_cases h6 : b = t!"byte"; · subst h6; simp [normBase]
      rw [normBase, if_neg h1, if_neg h2, if_neg h3, if_neg h4, if_neg h5, if_neg h6]
  | tuple cs arr ih =>
    rw [normTy, isDynamic_tuple, isDynamic_tuple, normTys_eq_map, List.any_map]
    congr 1
    induction cs with
    | nil => rfl
    | cons c cs ih' =>
      simp only [List.any_cons, Function.comp_apply, ih c (by simp)]
      rw [← ih' fun d hd => ih d (by simp [hd])]

end EthAbi
