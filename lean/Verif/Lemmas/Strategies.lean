import Verif.Model.Strategies
import Verif.Lemmas.Lookup

/-! # What `get_abi_strategy` finds -/
namespace EthAbi
open Spec

/-- The registration of `strategy_registry` that applies to a parsed type. -/
def spick {V : Type} (u i a b uf f bm by_ fn s arr tup : V) : ABIType → Option V
  | .tuple _ [] => some tup
  | .tuple _ (_ :: _) => some arr
  | .basic _ _ (_ :: _) => some arr
  | .basic base sub [] =>
    if base = t!"uint" then some u
    else if base = t!"int" then some i
    else if base = t!"address" then (if sub = .none then some a else none)
    else if base = t!"bool" then (if sub = .none then some b else none)
    else if base = t!"ufixed" then some uf
    else if base = t!"fixed" then some f
    else if base = t!"bytes" then (if sub = .none then some by_ else some bm)
    else if base = t!"function" then (if sub = .none then some fn else none)
    else if base = t!"string" then (if sub = .none then some s else none)
    else none

theorem strategy_kinds {V : Type} (n : Nat) (vs : List V) (q : Pred × V)
    (hq : q ∈ (mappingOf n strategyPreds vs).values) :
    (∃ b w, q.1.kind = .baseEquals b w) ∨ q.1.kind = .hasArrlist ∨ q.1.kind = .isBaseTuple := by
  have gen : ∀ (ps : List (List Char × PredKind)) (n : Nat) (vs : List V),
      q ∈ (mappingOf n ps vs).values → ∃ p ∈ ps, q.1.kind = p.2 := by
    intro ps
    induction ps with
    | nil => intro n vs h; simp [mappingOf, Mapping.empty] at h
    | cons p ps ih =>
      intro n vs h
      cases vs with
      | nil => simp [mappingOf, Mapping.empty] at h
      | cons v vs =>
        rcases List.mem_cons.1 (by simpa [mappingOf] using h) with rfl | h
        · exact ⟨p, by simp, rfl⟩
        · obtain ⟨p', hp', e⟩ := ih _ _ h
          exact ⟨p', by simp [hp'], e⟩
  obtain ⟨p, hp, e⟩ := gen _ _ _ hq
  rw [e]
  simp only [strategyPreds, List.mem_cons, List.not_mem_nil, or_false] at hp
  rcases hp with rfl | rfl | rfl | rfl | rfl | rfl | rfl | rfl | rfl | rfl | rfl | rfl <;> simp

theorem find_spick {V : Type} (n : Nat) (u i a b uf f bm by_ fn s arr tup : V) (t : ABIType) :
    ∃ p, ((mappingOf n strategyPreds [u, i, a, b, uf, f, bm, by_, fn, s, arr, tup]).values.filter
      fun q => q.1.kind.test t) =
      match spick u i a b uf f bm by_ fn s arr tup t with
      | some v => [(p, v)]
      | none => [] := by
  rcases t with ⟨base, sub, (_ | ⟨d, ds⟩)⟩ | ⟨comps, (_ | ⟨d, ds⟩)⟩
  · by_cases h0 : base = t!"uint"
    · subst h0; cases sub <;> exact ⟨_, rfl⟩
    by_cases h1 : base = t!"int"
    · subst h1; cases sub <;> exact ⟨_, rfl⟩
    by_cases h2 : base = t!"address"
    · subst h2; cases sub
      · exact ⟨_, rfl⟩
      all_goals exact ⟨⟨0, .hasArrlist⟩, rfl⟩
    by_cases h3 : base = t!"bool"
    · subst h3; cases sub
      · exact ⟨_, rfl⟩
      all_goals exact ⟨⟨0, .hasArrlist⟩, rfl⟩
    by_cases h4 : base = t!"ufixed"
    · subst h4; cases sub <;> exact ⟨_, rfl⟩
    by_cases h5 : base = t!"fixed"
    · subst h5; cases sub <;> exact ⟨_, rfl⟩
    by_cases h6 : base = t!"bytes"
    · subst h6; cases sub <;> exact ⟨_, rfl⟩
    by_cases h7 : base = t!"function"
    · subst h7; cases sub
      · exact ⟨_, rfl⟩
      all_goals exact ⟨⟨0, .hasArrlist⟩, rfl⟩
    by_cases h8 : base = t!"string"
    · subst h8; cases sub
      · exact ⟨_, rfl⟩
      all_goals exact ⟨⟨0, .hasArrlist⟩, rfl⟩
    refine ⟨⟨0, .hasArrlist⟩, ?_⟩
    have ht : ∀ b' w, b' ≠ base → baseEqualsTest b' w (.basic base sub []) = false := by
      intro b' w hb
      simp only [baseEqualsTest, List.isEmpty_nil, Bool.not_true, Bool.false_eq_true, if_false]
      split
      · rfl
      split
      · rfl
      · simp only [beq_eq_false_iff_ne]; exact fun h => hb h.symm
    simp only [spick, h0, h1, h2, h3, h4, h5, h6, h7, h8, if_false]
    simp only [strategyPreds, mappingOf, Mapping.empty, List.filter_cons, PredKind.test,
      ht _ _ (Ne.symm h0), ht _ _ (Ne.symm h1), ht _ _ (Ne.symm h2), ht _ _ (Ne.symm h3),
      ht _ _ (Ne.symm h4), ht _ _ (Ne.symm h5), ht _ _ (Ne.symm h6), ht _ _ (Ne.symm h7),
      ht _ _ (Ne.symm h8)]
    rfl
  · exact ⟨_, rfl⟩
  · exact ⟨_, rfl⟩
  · exact ⟨_, rfl⟩

theorem getStrategy_parsed [Ext] {V : Type} (n : Nat) (u i a b uf f bm by_ fn s arr tup : V)
    {str : TypeStr} {t : ABIType} (h : parse str = .ok t) :
    (mappingOf n strategyPreds [u, i, a, b, uf, f, bm, by_, fn, s, arr, tup]).getRegistration str =
      match spick u i a b uf f bm by_ fn s arr tup t with
      | some v => .ok v
      | none => .error .noEntriesFound := by
  have hr := results_parsed h _ (strategy_kinds n [u, i, a, b, uf, f, bm, by_, fn, s, arr, tup])
  obtain ⟨p, hp⟩ := find_spick n u i a b uf f bm by_ fn s arr tup t
  rw [hp] at hr
  unfold Mapping.getRegistration Mapping.find
  rw [hr]
  cases spick u i a b uf f bm by_ fn s arr tup t with
  | none => simp [h]
  | some v => rfl

theorem getStrategy_error [Ext] {V : Type} (n : Nat) (u i a b uf f bm by_ fn s arr tup : V)
    {str : TypeStr} {e : Exc} (h : parse str = .error e) :
    (mappingOf n strategyPreds [u, i, a, b, uf, f, bm, by_, fn, s, arr, tup]).getRegistration str =
      .error e := by
  have hr := results_error h _ _ (strategy_kinds n [u, i, a, b, uf, f, bm, by_, fn, s, arr, tup])
  have hr' : Mapping.results str (mappingOf n strategyPreds [u, i, a, b, uf, f, bm, by_, fn, s, arr, tup]).values
      = _ := hr
  unfold Mapping.getRegistration Mapping.find
  rw [hr']
  rcases parse_error_exc h with rfl | rfl | rfl
  · simp [h]
  · simp [h, Exc.isValueError]
  · simp [Exc.isValueError]

/-! ## The strategies of the types -/

mutual
/-- The strategy of a type. -/
def stratOf [Ext] : Ty → Strategy
  | .uint n => .integers 0 (2 ^ n - 1)
  | .int n => .integers (-(2 ^ (n - 1))) (2 ^ (n - 1) - 1)
  | .address => addressStrategy
  | .bool => .booleans
  | .ufixed m n => (Strategy.decimals0 0 (2 ^ m - 1)).map (scaleDraw n)
  | .fixed m n => (Strategy.decimals0 (-(2 ^ (m - 1))) (2 ^ (m - 1) - 1)).map (scaleDraw n)
  | .bytesM m => .binary m m
  | .bytes => .binary 0 4096
  | .string => .text
  | .sized k t => .lists (stratOf t) k (some k)
  | .dyn t => .lists (stratOf t) 0 none
  | .tuple ts => .tuples (stratsOf ts)
/-- The strategies of a list of types. -/
def stratsOf [Ext] : List Ty → List Strategy
  | [] => []
  | t :: ts => stratOf t :: stratsOf ts
end

theorem stratsOf_map [Ext] (ts : List Ty) : stratsOf ts = ts.map stratOf := by
  induction ts with
  | nil => rfl
  | cons t ts ih => simp [stratsOf, ih]

mutual
/-- No `bool` with a size anywhere. -/
def plainBool : ABIType → Bool
  | .basic b sub _ => !(b == t!"bool") || sub == .none
  | .tuple cs _ => plainBools cs
/-- The same for a list of types. -/
def plainBools : List ABIType → Bool
  | [] => true
  | c :: cs => plainBool c && plainBools cs
end

theorem plainBools_all (cs : List ABIType) : plainBools cs = cs.all plainBool := by
  induction cs with
  | nil => rfl
  | cons c cs ih => simp [plainBools, ih]

theorem plainBool_normTy (a : ABIType) : plainBool (normTy a) = plainBool a := by
  induction a using ABIType.ind with
  | basic b s arr =>
    simp only [normTy, plainBool]
    cases s with
    | none =>
      simp only [normBase]
      repeat' split
      all_goals simp_all
    | one n => rfl
    | two m n => rfl
  | tuple cs arr ih =>
    simp only [normTy, plainBool]
    induction cs with
    | nil => rfl
    | cons c cs ih' =>
      simp only [normTys, plainBools, ih c (by simp), ih' (fun d hd => ih d (by simp [hd]))]

/-- The outcome of looking for the strategy of a type. -/
def stratResult [Ext] (a : ABIType) (t : Ty) : PyM Strategy :=
  if plainBool a then .ok (stratOf t) else .error .noEntriesFound

theorem strat_leaf [Ext] {b : List Char} {sub : Sub} {s : TypeStr} {t : Ty} {fuel : Nat}
    (hd : Derives (.basic b sub []) s) (hn : (ABIType.basic b sub []).numsOk = true)
    (hf : found (.basic b sub []) s = some t) :
    getStrategyFuel strategyRegistry (fuel + 1) s = stratResult (.basic b sub []) t := by
  have hp : parse s = .ok (.basic b sub []) := parse_ok_iff.2 ⟨hd, hn⟩
  have hp' : parse (normalize s) = .ok (.basic (normBase b sub).1 (normBase b sub).2 []) :=
    parse_ok_iff.2 ⟨by simpa [normTy] using normalize_type hd, (normTy_numsOk _).trans hn⟩
  have hs : s = b ++ sub.str := by
    have := derives_str hd
    simpa [ABIType.toTypeStr, arrStr] using this
  have hm : baseTy (normBase b sub).1 (normBase b sub).2 = some t := by
    unfold found at hf
    split at hf
    · cases hf
    · simpa [normTy, meaning, wrapDims] using hf
  have hbyte : ¬ (b = t!"byte" ∧ sub = .none) := by
    rintro ⟨rfl, rfl⟩
    unfold found at hf
    rw [hs] at hf
    simp [Sub.str] at hf
  rw [getStrategyFuel, strategyRegistry, strategyRegs, getStrategy_parsed 200 _ _ _ _ _ _ _ _ _ _ _ _ hp]
  by_cases h0 : b = t!"uint"
  · subst h0
    cases sub with
    | none =>
      cases hm
      simp only [spick, if_true, factoryPlan, hp', Plan.bindPyM]
      rfl
    | one n =>
      simp only [normBase, baseTy, subInt, if_true] at hm
      split at hm
      · cases hm
        simp only [spick, if_true, factoryPlan, hp', Plan.bindPyM]
        rfl
      · cases hm
    | two m n => cases hm
  by_cases h1 : b = t!"int"
  · subst h1
    cases sub with
    | none =>
      cases hm
      rw [show spick _ _ _ _ _ _ _ _ _ _ _ _ (.basic t!"int" .none []) = some _ from rfl]
      simp only [factoryPlan, hp', Plan.bindPyM]
      rfl
    | one n =>
      have hm : subInt .int (.one n) = some t := hm
      simp only [subInt] at hm
      split at hm
      · cases hm
        rw [show spick _ _ _ _ _ _ _ _ _ _ _ _ (.basic t!"int" (.one n) []) = some _ from rfl]
        simp only [factoryPlan, hp', Plan.bindPyM]
        rfl
      · cases hm
    | two m n => cases hm
  by_cases h2 : b = t!"address"
  · subst h2
    cases sub <;> cases hm
    rfl
  by_cases h3 : b = t!"bool"
  · subst h3
    cases sub <;> cases hm <;> rfl
  by_cases h4 : b = t!"ufixed"
  · subst h4
    cases sub with
    | none =>
      cases hm
      rw [show spick _ _ _ _ _ _ _ _ _ _ _ _ (.basic t!"ufixed" .none []) = some _ from rfl]
      simp only [factoryPlan, hp', Plan.bindPyM]
      rfl
    | one n => cases hm
    | two m n =>
      have hm : subFixed .ufixed (.two m n) = some t := hm
      simp only [subFixed] at hm
      split at hm
      · cases hm
        rw [show spick _ _ _ _ _ _ _ _ _ _ _ _ (.basic t!"ufixed" (.two m n) []) = some _ from rfl]
        simp only [factoryPlan, hp', Plan.bindPyM]
        rfl
      · cases hm
  by_cases h5 : b = t!"fixed"
  · subst h5
    cases sub with
    | none =>
      cases hm
      rw [show spick _ _ _ _ _ _ _ _ _ _ _ _ (.basic t!"fixed" .none []) = some _ from rfl]
      simp only [factoryPlan, hp', Plan.bindPyM]
      rfl
    | one n => cases hm
    | two m n =>
      have hm : subFixed .fixed (.two m n) = some t := hm
      simp only [subFixed] at hm
      split at hm
      · cases hm
        rw [show spick _ _ _ _ _ _ _ _ _ _ _ _ (.basic t!"fixed" (.two m n) []) = some _ from rfl]
        simp only [factoryPlan, hp', Plan.bindPyM]
        rfl
      · cases hm
  by_cases h6 : b = t!"bytes"
  · subst h6
    cases sub with
    | none => cases hm; rfl
    | one n =>
      have hm : subBytes (.one n) = some t := hm
      simp only [subBytes] at hm
      split at hm
      · cases hm
        rw [show spick _ _ _ _ _ _ _ _ _ _ _ _ (.basic t!"bytes" (.one n) []) = some _ from rfl]
        simp only [factoryPlan, hp', Plan.bindPyM]
        rfl
      · cases hm
    | two m n => cases hm
  by_cases h7 : b = t!"function"
  · subst h7
    cases sub with
    | none =>
      cases hm
      rw [show spick _ _ _ _ _ _ _ _ _ _ _ _ (.basic t!"function" .none []) = some _ from rfl]
      simp only [factoryPlan, hp', Plan.bindPyM]
      rfl
    | one n => cases hm
    | two m n => cases hm
  by_cases h8 : b = t!"string"
  · subst h8
    cases sub <;> cases hm
    rfl
  exfalso
  have hnb : normBase b sub = (b, sub) := by
    cases sub with
    | none =>
      have h9 : b ≠ t!"byte" := fun h => hbyte ⟨h, rfl⟩
      simp only [normBase, h0, h1, h4, h5, h7, h9, if_false]
    | one n => rfl
    | two m n => rfl
  rw [hnb] at hm
  simp only [baseTy, h0, h1, h2, h3, h4, h5, h6, h8, if_false] at hm
  cases hm

theorem strat_askAll [Ext] {nested : TypeStr → PyM Strategy} (cs : List ABIType) (ts : List Ty)
    (hts : meanings cs = some ts)
    (h : ∀ c ∈ cs, ∀ t, meaning c = some t → nested c.toTypeStr = stratResult c t)
    (f : List Strategy → Plan Strategy) :
    (Plan.askAll (ABIType.toTypeStrs cs) f).exec nested =
      if plainBools cs then (f (stratsOf ts)).exec nested else .error .noEntriesFound := by
  induction cs generalizing f ts with
  | nil =>
    cases hts
    simp [ABIType.toTypeStrs, Plan.askAll, plainBools, stratsOf]
  | cons c cs ih =>
    rw [meanings] at hts
    cases hm : meaning c with
    | none => simp [hm] at hts
    | some t =>
      cases hms : meanings cs with
      | none => simp [hm, hms] at hts
      | some ts' =>
        simp only [hm, hms] at hts
        cases hts
        rw [ABIType.toTypeStrs, Plan.askAll, Plan.exec, h c (by simp) t hm, stratResult, plainBools]
        cases hb : plainBool c with
        | false => rfl
        | true =>
          simp only [if_true, Bool.true_and]
          exact ih ts' hms (fun d hd => h d (by simp [hd])) fun cs => f (stratOf t :: cs)

/-- What `get_strategy` finds for the name of a type. -/
theorem getStrategyFuel_found [Ext] (fuel : Nat) : ∀ a s, Derives a s → a.numsOk = true →
    depth a ≤ fuel → ∀ t, found a s = some t →
    getStrategyFuel strategyRegistry fuel s = stratResult a t := by
  induction fuel with
  | zero =>
    intro a s _ _ h
    cases a <;> simp [depth] at h
  | succ fuel ih =>
    intro a s hd hn hdep t hft
    have hp : parse s = .ok a := parse_ok_iff.2 ⟨hd, hn⟩
    have hd' := normalize_type hd
    have hn' : (normTy a).numsOk = true := (normTy_numsOk a).trans hn
    have hp' : parse (normalize s) = .ok (normTy a) := parse_ok_iff.2 ⟨hd', hn'⟩
    by_cases harr : a.isArray = true
    · have harr' : (normTy a).isArray = true := by
        cases a <;> simpa [normTy, ABIType.isArray, ABIType.arrlist] using harr
      have hf : found a s = meaning (normTy a) := by
        unfold found
        rw [if_neg]
        rintro rfl
        cases derives_unique hd (derives_word (b := t!"byte") (by decide))
        simp [ABIType.isArray, ABIType.arrlist] at harr
      obtain ⟨item, d, e1, e2, e3, hi, hdi⟩ := split_dims hd' harr'
      rw [depth_normTy] at hdi
      have hin : normTy item = item := normTy_item (normTy_idem a) e1
      have hni : item.numsOk = true := by
        rw [e1, numsOk_addDim, Bool.and_eq_true] at hn'
        exact hn'.1
      rw [hf, e1, meaning_addDim] at hft
      cases hm : meaning item with
      | none => rw [hm] at hft; cases hft
      | some t' =>
        rw [hm] at hft
        cases hft
        have hout := ih item item.toTypeStr hi hni (by omega) t' (by rw [found_normal hin hi, hm])
        have hreg : getStrategyFuel strategyRegistry (fuel + 1) s =
            (factoryPlan getArrayStrategy s).exec (getStrategyFuel strategyRegistry fuel) := by
          rw [getStrategyFuel]
          conv_lhs => rw [strategyRegistry, strategyRegs]
          rw [getStrategy_parsed 200 _ _ _ _ _ _ _ _ _ _ _ _ hp]
          rcases a with ⟨b, sub, (_ | ⟨x, xs⟩)⟩ | ⟨cs, (_ | ⟨x, xs⟩)⟩
          · simp [ABIType.isArray, ABIType.arrlist] at harr
          · rfl
          · simp [ABIType.isArray, ABIType.arrlist] at harr
          · rfl
        have hpb : plainBool item = plainBool a := by
          rw [← plainBool_normTy a, e1]
          cases item <;> rfl
        rw [hreg, factoryPlan, hp']
        simp only [Plan.bindPyM, getArrayStrategy, e2, Plan.exec, hout, stratResult, hpb, e3]
        cases plainBool a with
        | false => rfl
        | true => cases d <;> rfl
    · rcases a with ⟨b, sub, (_ | ⟨x, xs⟩)⟩ | ⟨cs, (_ | ⟨x, xs⟩)⟩
      · exact strat_leaf hd hn hft
      · exact absurd rfl harr
      · have hf : found (.tuple cs []) s = meaning (normTy (.tuple cs [])) := by
          unfold found
          rw [if_neg]
          rintro rfl
          cases derives_unique hd (derives_word (b := t!"byte") (by decide))
        have hreg : getStrategyFuel strategyRegistry (fuel + 1) s =
            (factoryPlan getTupleStrategy s).exec (getStrategyFuel strategyRegistry fuel) := by
          rw [getStrategyFuel]
          conv_lhs => rw [strategyRegistry, strategyRegs]
          rw [getStrategy_parsed 200 _ _ _ _ _ _ _ _ _ _ _ _ hp]
          rfl
        have hnt : normTy (.tuple cs []) = .tuple (normTys cs) [] := by rw [normTy]
        rw [hnt] at hp' hd' hn'
        have hm : meaning (.tuple (normTys cs) []) = (meanings (normTys cs)).map .tuple := by
          simp [meaning, wrapDims]
        rw [hf, hnt, hm] at hft
        cases hms : meanings (normTys cs) with
        | none => rw [hms] at hft; cases hft
        | some ts =>
          rw [hms] at hft
          cases hft
          have hcs : ∀ c ∈ normTys cs, ∀ t, meaning c = some t →
              getStrategyFuel strategyRegistry fuel c.toTypeStr = stratResult c t := by
            intro c hc t hct
            have hder : Derives c c.toTypeStr := by
              generalize normalize s = s' at hd'
              cases hd' with
              | tuple h1 _ => exact comps_derive h1 c hc
            have hnc : c.numsOk = true := by
              simp only [ABIType.numsOk, allNumsOk_eq, Bool.and_eq_true] at hn'
              exact List.all_eq_true.1 hn'.1 c hc
            have hcn : normTy c = c := by
              rw [normTys_eq_map] at hc
              obtain ⟨c', _, rfl⟩ := List.mem_map.1 hc
              exact normTy_idem c'
            have hdc : depth c ≤ fuel := by
              have h1 := depths_mem hc
              have h2 := depth_normTy (.tuple cs [])
              rw [hnt] at h2
              simp only [depth, List.length_nil] at h2 hdep
              omega
            exact ih c _ hder hnc hdc t (by rw [found_normal hcn hder, hct])
          rw [hreg, factoryPlan, hp']
          simp only [Plan.bindPyM, getTupleStrategy]
          rw [strat_askAll _ ts hms hcs, exec_ret]
          have hpb := plainBool_normTy (.tuple cs [])
          rw [hnt] at hpb
          rw [stratResult, ← hpb, plainBool, stratOf]
      · exact absurd rfl harr

/-! ## Names with a sized `bool` -/

theorem plainBool_addDim (a : ABIType) (d : Option Nat) : plainBool (addDim a d) = plainBool a := by
  cases a <;> rfl

theorem base_plain {b s : List Char} {sub : Sub} (hb : b ≠ [] ∧ b.all isAlph = true)
    (hs : DerivesSub sub s) (h : b ≠ t!"bool" ∨ sub = .none) :
    ∃ a, Derives a (b ++ s) ∧ plainBool a = true := by
  refine ⟨_, derives_base hb hs, ?_⟩
  rcases h with h | h
  · simp [plainBool, h]
  · simp [plainBool, h]

theorem spells_plain [Ext] {s : TypeStr} {t : Ty} (h : Spells false s t) :
    ∃ a, Derives a s ∧ plainBool a = true := by
  have num : ∀ {n}, 0 < n → Numeral n (natDigits n) := fun hn => numeral_natDigits _ hn
  refine Spells.rec
    (motive_1 := fun s t _ => ∃ a, Derives a s ∧ plainBool a = true)
    (motive_2 := fun s ts _ => ∃ cs, DerivesComps cs s ∧ plainBools cs = true)
    ?_ ?_ ?_ ?_ ?_ ?_ ?_ ?_ ?_ ?_ ?_ ?_ ?_ ?_ ?_ ?_ ?_ ?_ ?_ ?_ ?_ h
  · intro n hn
    exact base_plain (by decide) (.one (num (validBits_pos hn).1)) (.inl (by decide))
  · intro n hn
    exact base_plain (by decide) (.one (num (validBits_pos hn).1)) (.inl (by decide))
  · exact List.append_nil t!"uint" ▸ base_plain (by decide) .none (by simp)
  · exact List.append_nil t!"int" ▸ base_plain (by decide) .none (by simp)
  · exact List.append_nil t!"address" ▸ base_plain (by decide) .none (by simp)
  · exact List.append_nil t!"bool" ▸ base_plain (by decide) .none (by simp)
  · intro sub s hl; cases hl
  · intro m n hm h1 h2
    have := base_plain (b := t!"ufixed") (by decide) (.two (num (validBits_pos hm).1) (num h1)) (.inl (by decide))
    simpa using this
  · intro m n hm h1 h2
    have := base_plain (b := t!"fixed") (by decide) (.two (num (validBits_pos hm).1) (num h1)) (.inl (by decide))
    simpa using this
  · exact List.append_nil t!"ufixed" ▸ base_plain (by decide) .none (by simp)
  · exact List.append_nil t!"fixed" ▸ base_plain (by decide) .none (by simp)
  · intro m h1 h2
    exact base_plain (by decide) (.one (num h1)) (.inl (by decide))
  · exact List.append_nil t!"byte" ▸ base_plain (by decide) .none (by simp)
  · exact List.append_nil t!"function" ▸ base_plain (by decide) .none (by simp)
  · exact List.append_nil t!"bytes" ▸ base_plain (by decide) .none (by simp)
  · exact List.append_nil t!"string" ▸ base_plain (by decide) .none (by simp)
  · rintro s t k _ hk hn ⟨a, ha, hb⟩
    refine ⟨addDim a (some k), ?_, by rw [plainBool_addDim, hb]⟩
    have := derives_addDim ha (dims_one hk)
    simpa using this
  · rintro s t _ ⟨a, ha, hb⟩
    exact ⟨addDim a none, derives_addDim ha (DerivesDims.dynamic DerivesDims.nil), by rw [plainBool_addDim, hb]⟩
  · rintro s ts _ ⟨cs, hc, hb⟩
    refine ⟨.tuple cs [], ?_, hb⟩
    have := Derives.tuple hc DerivesDims.nil
    simpa using this
  · rintro s t _ ⟨a, ha, hb⟩
    exact ⟨[a], .one ha, by simp [plainBools, hb]⟩
  · rintro s s' t ts _ _ ⟨a, ha, hb⟩ ⟨cs, hc, hbs⟩
    exact ⟨a :: cs, .cons ha hc, by simp [plainBools, hb, hbs]⟩

theorem plain_spells [Ext] {s : TypeStr} {t : Ty} (h : Spells true s t) :
    ∃ a, Derives a s ∧ (plainBool a = true → Spells false s t) := by
  have num : ∀ {n}, 0 < n → Numeral n (natDigits n) := fun hn => numeral_natDigits _ hn
  have base : ∀ {b s : List Char} {sub : Sub} {t : Ty}, b ≠ [] ∧ b.all isAlph = true →
      DerivesSub sub s → Spells false (b ++ s) t →
      ∃ a, Derives a (b ++ s) ∧ (plainBool a = true → Spells false (b ++ s) t) :=
    fun hb hs h => ⟨_, derives_base hb hs, fun _ => h⟩
  refine Spells.rec
    (motive_1 := fun s t _ => ∃ a, Derives a s ∧ (plainBool a = true → Spells false s t))
    (motive_2 := fun s ts _ => ∃ cs, DerivesComps cs s ∧ (plainBools cs = true → SpellsComps false s ts))
    ?_ ?_ ?_ ?_ ?_ ?_ ?_ ?_ ?_ ?_ ?_ ?_ ?_ ?_ ?_ ?_ ?_ ?_ ?_ ?_ ?_ h
  · intro n hn
    exact base (by decide) (.one (num (validBits_pos hn).1)) (.uint hn)
  · intro n hn
    exact base (by decide) (.one (num (validBits_pos hn).1)) (.int hn)
  · exact ⟨_, derives_word (by decide), fun _ => .uint256⟩
  · exact ⟨_, derives_word (by decide), fun _ => .int256⟩
  · exact ⟨_, derives_word (by decide), fun _ => .address⟩
  · exact ⟨_, derives_word (by decide), fun _ => .bool⟩
  · intro sub s _ hs hn
    refine ⟨_, derives_base (by decide) hs, fun h => ?_⟩
    have : sub = .none := by simpa [plainBool] using h
    subst this
    cases hs
    exact .bool
  · intro m n hm h1 h2
    have := base (b := t!"ufixed") (t := .ufixed m n) (by decide) (.two (num (validBits_pos hm).1) (num h1))
      (by simpa using Spells.ufixed hm h1 h2)
    simpa using this
  · intro m n hm h1 h2
    have := base (b := t!"fixed") (t := .fixed m n) (by decide) (.two (num (validBits_pos hm).1) (num h1))
      (by simpa using Spells.fixed hm h1 h2)
    simpa using this
  · exact ⟨_, derives_word (by decide), fun _ => .ufixed128x18⟩
  · exact ⟨_, derives_word (by decide), fun _ => .fixed128x18⟩
  · intro m h1 h2
    exact base (by decide) (.one (num h1)) (.bytesM h1 h2)
  · exact ⟨_, derives_word (by decide), fun _ => .byte⟩
  · exact ⟨_, derives_word (by decide), fun _ => .function⟩
  · exact ⟨_, derives_word (by decide), fun _ => .bytes⟩
  · exact ⟨_, derives_word (by decide), fun _ => .string⟩
  · rintro s t k _ hk hn ⟨a, ha, hb⟩
    refine ⟨addDim a (some k), ?_, fun h => .sized (hb (by rwa [plainBool_addDim] at h)) hk hn⟩
    have := derives_addDim ha (dims_one hk)
    simpa using this
  · rintro s t _ ⟨a, ha, hb⟩
    exact ⟨addDim a none, derives_addDim ha (DerivesDims.dynamic DerivesDims.nil),
      fun h => .dyn (hb (by rwa [plainBool_addDim] at h))⟩
  · rintro s ts _ ⟨cs, hc, hb⟩
    refine ⟨.tuple cs [], ?_, fun h => .tuple (hb h)⟩
    have := Derives.tuple hc DerivesDims.nil
    simpa using this
  · rintro s t _ ⟨a, ha, hb⟩
    exact ⟨[a], .one ha, fun h => .one (hb (by simpa [plainBools] using h))⟩
  · rintro s s' t ts _ _ ⟨a, ha, hb⟩ ⟨cs, hc, hbs⟩
    refine ⟨a :: cs, .cons ha hc, fun h => ?_⟩
    simp only [plainBools, Bool.and_eq_true] at h
    exact .cons (hb h.1) (hbs h.2)

/-- What `get_abi_strategy` gives for the name of a type. -/
theorem getAbiStrategy_supported [Ext] {s : TypeStr} {t : Ty} (h : Supported s t) :
    (Spells false s t ∧ getAbiStrategy s = .ok (stratOf t)) ∨
    (¬ Spells false s t ∧ getAbiStrategy s = .error .noEntriesFound) := by
  obtain ⟨a, h1, h2, h3⟩ := spells_parsed h.1
  have hf : found a s = some t := by unfold found; rw [if_neg h.2, h3]
  have := getStrategyFuel_found (s.length + 1) a s h1 h2 (by have := depth_le h1; omega) t hf
  unfold getAbiStrategy
  rw [this, stratResult]
  cases hb : plainBool a with
  | true =>
    obtain ⟨a', h1', h4⟩ := plain_spells h.1
    cases derives_unique h1 h1'
    exact Or.inl ⟨h4 hb, rfl⟩
  | false =>
    refine Or.inr ⟨fun hs => ?_, rfl⟩
    obtain ⟨a', h1', h4⟩ := spells_plain hs
    cases derives_unique h1 h1'
    rw [h4] at hb; cases hb

end EthAbi
