import Verif.Lemmas.Codec
import Verif.Lemmas.Strings
import Verif.Spec.Classes

/-! # `from_type_str` of the library's classes -/
namespace EthAbi
open Spec

/-- `from_type_str` of the classes of a kit. -/
def Kit.plan [Ext] {C : Type} (k : Kit C) : CoderClass → TypeStr → Plan C
  | .uint => basicPlan t!"uint" (intPlan k.uint)
  | .int => basicPlan t!"int" (intPlan k.int)
  | .address => basicPlan t!"address" fun _ => k.address
  | .bool => basicPlan t!"bool" fun _ => k.bool
  | .ufixed => basicPlan t!"ufixed" (fixedPlan k.ufixed)
  | .fixed => basicPlan t!"fixed" (fixedPlan k.fixed)
  | .bytes => basicPlan t!"bytes" (intPlan k.bytesM)
  | .byteString => basicPlan t!"bytes" fun _ => .ok k.bytes
  | .textString => basicPlan t!"string" fun _ => .ok k.string
  | .array => arrayPlan k.array
  | .tuple => tuplePlan k.tuple

theorem encoderFromTypeStr_plan [Ext] (c : CoderClass) (look : TypeStr → PyM Encoder) (s : TypeStr) :
    encoderFromTypeStr c look s = ((encKit false).plan c s).exec look := by cases c <;> rfl

theorem packedFromTypeStr_plan [Ext] (c : CoderClass) (look : TypeStr → PyM Encoder) (s : TypeStr) :
    packedFromTypeStr c look s = ((encKit true).plan c s).exec look := by cases c <;> rfl

theorem decoderFromTypeStr_plan [Ext] (c : CoderClass) (look : TypeStr → PyM Decoder) (s : TypeStr) :
    decoderFromTypeStr c look s = (decKit.plan c s).exec look := by cases c <;> rfl

/-- The type inside all array dimensions. -/
def innermost : Ty → Ty
  | .sized _ t => innermost t
  | .dyn t => innermost t
  | t => t

/-- The type whose coder a class makes from the name of a type, or what it raises. -/
def made : CoderClass → Ty → PyM Ty
  | .uint, .uint n => .ok (.uint n)
  | .int, .int n => .ok (.int n)
  | .address, .address => .ok .address
  | .bool, .bool => .ok .bool
  | .ufixed, .ufixed m n => .ok (.ufixed m n)
  | .fixed, .fixed m n => .ok (.fixed m n)
  | .bytes, .bytesM m => .ok (.bytesM m)
  | .bytes, .bytes => .error .typeError
  | .byteString, .bytes => .ok .bytes
  | .byteString, .bytesM _ => .ok .bytes
  | .textString, .string => .ok .string
  | .array, .sized k t => .ok (.sized k t)
  | .array, .dyn t => .ok (.dyn t)
  | .tuple, t =>
    match innermost t with
    | .tuple ts => .ok (.tuple ts)
    | _ => .error .valueError
  | _, _ => .error .valueError

theorem basicPlan_any [Ext] {C : Type} {base : List Char} (mk : Sub → PyM C) {a : ABIType} {s : TypeStr}
    (hd : Derives a s) (hn : a.numsOk = true) :
    basicPlan base mk s = .ret (match normTy a with
      | .basic b sub [] => if b = base then (validateBasic b sub >>= fun _ => mk sub) else .error .valueError
      | _ => .error .valueError) := by
  have hp : parse (normalize s) = .ok (normTy a) :=
    parse_ok_iff.2 ⟨normalize_type hd, (normTy_numsOk _).trans hn⟩
  unfold basicPlan parseTypeStr
  rw [hp]
  generalize normTy a = a'
  rcases a' with ⟨b, sub, (_ | ⟨x, xs⟩)⟩ | ⟨cs, arr⟩
  · by_cases h : b = base
    · subst h
      simp only [if_true]
      simp only [ok_bind, ABIType.isArray, ABIType.arrlist, List.isEmpty_nil, Bool.not_true,
        Bool.and_false, Bool.false_and, Bool.false_eq_true, if_false, ne_eq, not_true_eq_false,
        ABIType.validate, pure_eq_ok]
      congr 1
      rcases validateBasic_cases b sub with h | h <;> rw [h] <;> rfl
    · simp [h]
  · by_cases h : b = base
    · subst h
      simp [ABIType.isArray, ABIType.arrlist]
    · simp [h]
  · simp

theorem wrapDims_ne {t : Ty} (x : Option Nat) (xs : List (Option Nat)) :
    (∃ k u, wrapDims t (x :: xs) = .sized k u) ∨ ∃ u, wrapDims t (x :: xs) = .dyn u := by
  obtain ⟨ds, d, h⟩ : ∃ ds d, x :: xs = ds ++ [d] :=
    ⟨(x :: xs).dropLast, (x :: xs).getLast (by simp), (List.dropLast_append_getLast (by simp)).symm⟩
  rw [h, wrapDims, List.foldl_append]
  cases d with
  | none => exact Or.inr ⟨_, rfl⟩
  | some k => exact Or.inl ⟨_, _, rfl⟩

theorem innermost_wrapDims (t : Ty) (arr : List (Option Nat)) : innermost (wrapDims t arr) = innermost t := by
  induction arr using List.reverseRecOn with
  | nil => rfl
  | append_singleton ds d ih =>
    rw [wrapDims, List.foldl_append]
    cases d <;> exact ih

/-- The base of the names of an elementary type. -/
def tyBase : Ty → Option (List Char)
  | .uint _ => some t!"uint"
  | .int _ => some t!"int"
  | .address => some t!"address"
  | .bool => some t!"bool"
  | .ufixed _ _ => some t!"ufixed"
  | .fixed _ _ => some t!"fixed"
  | .bytesM _ => some t!"bytes"
  | .bytes => some t!"bytes"
  | .string => some t!"string"
  | _ => none

/-- The base that a class expects. -/
def CoderClass.base : CoderClass → List Char
  | .uint => t!"uint"
  | .int => t!"int"
  | .address => t!"address"
  | .bool => t!"bool"
  | .ufixed => t!"ufixed"
  | .fixed => t!"fixed"
  | .bytes => t!"bytes"
  | .byteString => t!"bytes"
  | .textString => t!"string"
  | _ => []

theorem baseTy_base {b : List Char} {sub : Sub} {t : Ty} (h : baseTy b sub = some t) : tyBase t = some b := by
  unfold baseTy at h
  repeat' split at h
  all_goals first
    | (cases h; done)
    | (subst_vars; cases sub <;> (try simp only [subInt, subFixed, subNone, subBytes] at h) <;>
        (first | (cases h; done) | (cases h; rfl) | (split at h <;> first | (cases h; done) | (cases h; rfl))))

theorem made_other {c : CoderClass} {t : Ty} (h1 : c ≠ .array) (h2 : c ≠ .tuple) (h : tyBase t ≠ some c.base) :
    made c t = .error .valueError := by
  cases c <;> cases t <;> first | rfl | exact absurd rfl h1 | exact absurd rfl h2 | exact absurd rfl h

/-- A class for elementary types, by the type that the base and the sub part of a string have. -/
theorem leaf_plan [Ext] {C : Type} {k : Kit C} {obj : Ty → C} (hk : k.Makes obj) {nested : TypeStr → PyM C}
    {a : ABIType} {s : TypeStr} (hd : Derives a s) (hn : a.numsOk = true) {c : CoderClass} (h1 : c ≠ .array)
    (h2 : c ≠ .tuple) :
    match meaning (normTy a) with
    | some t => (k.plan c s).exec nested = (made c t).map obj
    | none => ∃ e, (k.plan c s).exec nested = .error e ∧ TypeErr e := by
  have hpos : ∀ b m arr, normTy a = .basic b (.one m) arr → 0 < m := by
    intro b m arr h
    have := normalize_type hd
    rw [h] at this
    generalize normalize s = s' at this
    cases this with
    | basic _ _ h3 _ => cases h3 with | one h => exact (numeral_iff.1 h).1
  have hb : ∀ {base : List Char} (mk : Sub → PyM C), _ := fun {base} mk => basicPlan_any (base := base) mk hd hn
  generalize normTy a = a' at hb hpos
  rcases a' with ⟨b, sub, (_ | ⟨x, xs⟩)⟩ | ⟨cs, arr⟩
  · -- no array
    simp only [meaning, wrapDims, List.foldl_nil, Option.map_id']
    simp only at hb
    by_cases hbase : b = c.base
    · cases c with
      | array => exact absurd rfl h1
      | tuple => exact absurd rfl h2
      | uint =>
        simp only [CoderClass.base] at hbase
        subst hbase
        have e2 : baseTy t!"uint" sub = subInt .uint sub := rfl
        rw [Kit.plan, hb, exec_ret, if_pos rfl, e2]
        have := validate_int (b := t!"uint") (Or.inr rfl) .uint sub
        cases hi : subInt .uint sub with
        | none => rw [hi] at this; simp only at this; exact ⟨_, by rw [this]; rfl, by simp [TypeErr]⟩
        | some t =>
          rw [hi] at this
          obtain ⟨m, rfl, hv, rfl, h⟩ := this
          rw [h]
          exact hk.uint m hv
      | int =>
        simp only [CoderClass.base] at hbase
        subst hbase
        have e2 : baseTy t!"int" sub = subInt .int sub := rfl
        rw [Kit.plan, hb, exec_ret, if_pos rfl, e2]
        have := validate_int (b := t!"int") (Or.inl rfl) .int sub
        cases hi : subInt .int sub with
        | none => rw [hi] at this; simp only at this; exact ⟨_, by rw [this]; rfl, by simp [TypeErr]⟩
        | some t =>
          rw [hi] at this
          obtain ⟨m, rfl, hv, rfl, h⟩ := this
          rw [h]
          exact hk.int m hv
      | address =>
        simp only [CoderClass.base] at hbase
        subst hbase
        rw [Kit.plan, hb, exec_ret, if_pos rfl]
        cases sub with
        | none => exact hk.address
        | one m => exact ⟨_, rfl, by simp [TypeErr]⟩
        | two m n => exact ⟨_, rfl, by simp [TypeErr]⟩
      | bool =>
        simp only [CoderClass.base] at hbase
        subst hbase
        rw [Kit.plan, hb, exec_ret, if_pos rfl]
        cases sub <;> exact hk.bool
      | ufixed =>
        simp only [CoderClass.base] at hbase
        subst hbase
        have e2 : baseTy t!"ufixed" sub = subFixed .ufixed sub := rfl
        rw [Kit.plan, hb, exec_ret, if_pos rfl, e2]
        have := validate_fixed (b := t!"ufixed") (Or.inr rfl) .ufixed sub
        cases hi : subFixed .ufixed sub with
        | none => rw [hi] at this; simp only at this; exact ⟨_, by rw [this]; rfl, by simp [TypeErr]⟩
        | some t =>
          rw [hi] at this
          obtain ⟨m, m', rfl, hv, hv1, hv2, rfl, h⟩ := this
          rw [h]
          exact hk.ufixed m m' hv hv1 hv2
      | fixed =>
        simp only [CoderClass.base] at hbase
        subst hbase
        have e2 : baseTy t!"fixed" sub = subFixed .fixed sub := rfl
        rw [Kit.plan, hb, exec_ret, if_pos rfl, e2]
        have := validate_fixed (b := t!"fixed") (Or.inl rfl) .fixed sub
        cases hi : subFixed .fixed sub with
        | none => rw [hi] at this; simp only at this; exact ⟨_, by rw [this]; rfl, by simp [TypeErr]⟩
        | some t =>
          rw [hi] at this
          obtain ⟨m, m', rfl, hv, hv1, hv2, rfl, h⟩ := this
          rw [h]
          exact hk.fixed m m' hv hv1 hv2
      | bytes =>
        simp only [CoderClass.base] at hbase
        subst hbase
        have e2 : baseTy t!"bytes" sub = subBytes sub := rfl
        rw [Kit.plan, hb, exec_ret, if_pos rfl, e2]
        cases sub with
        | none => rfl
        | two m m' => exact ⟨_, rfl, by simp [TypeErr]⟩
        | one m =>
          have h0 := hpos _ m _ rfl
          have := validate_bytes h0
          cases hi : subBytes (.one m) with
          | none => rw [hi] at this; simp only at this; exact ⟨_, by rw [this]; rfl, by simp [TypeErr]⟩
          | some t =>
            rw [hi] at this
            obtain ⟨hv, rfl, h⟩ := this
            rw [h]
            exact hk.bytesM m h0 hv
      | byteString =>
        simp only [CoderClass.base] at hbase
        subst hbase
        have e2 : baseTy t!"bytes" sub = subBytes sub := rfl
        rw [Kit.plan, hb, exec_ret, if_pos rfl, e2]
        cases sub with
        | none => exact congrArg Except.ok hk.bytes
        | two m m' => exact ⟨_, rfl, by simp [TypeErr]⟩
        | one m =>
          have h0 := hpos _ m _ rfl
          have := validate_bytes h0
          cases hi : subBytes (.one m) with
          | none => rw [hi] at this; simp only at this; exact ⟨_, by rw [this]; rfl, by simp [TypeErr]⟩
          | some t =>
            rw [hi] at this
            obtain ⟨hv, rfl, h⟩ := this
            rw [h]
            exact congrArg Except.ok hk.bytes
      | textString =>
        simp only [CoderClass.base] at hbase
        subst hbase
        rw [Kit.plan, hb, exec_ret, if_pos rfl]
        cases sub with
        | none => exact congrArg Except.ok hk.string
        | one m => exact ⟨_, rfl, by simp [TypeErr]⟩
        | two m n => exact ⟨_, rfl, by simp [TypeErr]⟩
    · have herr : (k.plan c s).exec nested = .error .valueError := by
        cases c with
        | array => exact absurd rfl h1
        | tuple => exact absurd rfl h2
        | _ => simp only [CoderClass.base] at hbase; simp only [Kit.plan]; rw [hb, if_neg hbase]; rfl
      rw [herr]
      cases hbt : baseTy b sub with
      | none => exact ⟨_, rfl, by simp [TypeErr]⟩
      | some t =>
        simp only
        rw [made_other h1 h2 (by rw [baseTy_base hbt]; simpa using hbase)]
        rfl
  · have herr : (k.plan c s).exec nested = .error .valueError := by
      cases c with
      | array => exact absurd rfl h1
      | tuple => exact absurd rfl h2
      | _ => simp only [Kit.plan]; rw [hb]; rfl
    rw [meaning]
    cases baseTy b sub with
    | none => exact ⟨_, herr, by simp [TypeErr]⟩
    | some t =>
      simp only [Option.map_some]
      rw [herr]
      rcases wrapDims_ne (t := t) x xs with ⟨n, u, h⟩ | ⟨u, h⟩ <;> rw [h]
      · cases c <;> first | rfl | exact absurd rfl h1 | exact absurd rfl h2
      · cases c <;> first | rfl | exact absurd rfl h1 | exact absurd rfl h2
  · have herr : (k.plan c s).exec nested = .error .valueError := by
      cases c with
      | array => exact absurd rfl h1
      | tuple => exact absurd rfl h2
      | _ => simp only [Kit.plan]; rw [hb]; rfl
    rw [meaning]
    cases meanings cs with
    | none => exact ⟨_, herr, by simp [TypeErr]⟩
    | some ts =>
      simp only [Option.map_some]
      rw [herr]
      rcases arr with _ | ⟨x, xs⟩
      · cases c <;> first | rfl | exact absurd rfl h1 | exact absurd rfl h2
      · rcases wrapDims_ne (t := .tuple ts) x xs with ⟨n, u, h⟩ | ⟨u, h⟩ <;> rw [h]
        · cases c <;> first | rfl | exact absurd rfl h1 | exact absurd rfl h2
        · cases c <;> first | rfl | exact absurd rfl h1 | exact absurd rfl h2

/-- The array class. -/
theorem array_plan [Ext] {C : Type} {k : Kit C} {obj : Ty → C} (hk : k.Makes obj) {nested : TypeStr → PyM C}
    (hnest : ∀ a s, Derives a s → a.numsOk = true → Outcome obj (found a s) (nested s))
    {a : ABIType} {s : TypeStr} (hd : Derives a s) (hn : a.numsOk = true) :
    match meaning (normTy a) with
    | some t => (k.plan .array s).exec nested = (made .array t).map obj
    | none => ∃ e, (k.plan .array s).exec nested = .error e ∧ TypeErr e := by
  have hd' := normalize_type hd
  have hn' : (normTy a).numsOk = true := (normTy_numsOk a).trans hn
  have hp' : parse (normalize s) = .ok (normTy a) := parse_ok_iff.2 ⟨hd', hn'⟩
  by_cases harr : (normTy a).isArray = true
  · obtain ⟨item, d, e1, e2, e3, hi, _⟩ := split_dims hd' harr
    have hin : normTy item = item := normTy_item (normTy_idem a) e1
    have hni : item.numsOk = true := by
      rw [e1, numsOk_addDim, Bool.and_eq_true] at hn'
      exact hn'.1
    have hout := hnest item item.toTypeStr hi hni
    rw [found_normal hin hi] at hout
    have hpt : parseTypeStr none true s = ((normTy a).validate >>= fun _ => .ok (normTy a)) := by
      unfold parseTypeStr
      rw [hp']
      simp [harr]
    rw [Kit.plan, arrayPlan, hpt]
    rcases validate_cases (normTy a) with hv | hv
    · rw [hv]
      simp only [ok_bind, Plan.bindPyM, e2, Plan.exec, e3]
      rw [e1, meaning_addDim]
      cases hm : meaning item with
      | none =>
        rw [hm] at hout
        obtain ⟨e, he, ht⟩ := hout
        rw [he]
        exact ⟨e, rfl, ht⟩
      | some t =>
        rw [hm] at hout
        simp only [Outcome] at hout
        rw [hout]
        simp only [Option.map_some]
        refine (hk.array d t).trans ?_
        cases d <;> rfl
    · have hm : meaning (normTy a) = none := by
        cases hm : meaning (normTy a) with
        | none => rfl
        | some t => rw [validate_of_meaning _ _ hm] at hv; cases hv
      rw [hm, hv]
      exact ⟨_, rfl, by simp [TypeErr]⟩
  · have harr : (normTy a).isArray = false := by simpa using harr
    have hpt : parseTypeStr none true s = .error .valueError := by
      unfold parseTypeStr
      rw [hp']
      simp [harr]
    have herr : (k.plan .array s).exec nested = .error .valueError := by
      rw [Kit.plan, arrayPlan, hpt]; rfl
    rw [herr]
    generalize normTy a = a' at harr
    cases hm : meaning a' with
    | none => exact ⟨_, rfl, by simp [TypeErr]⟩
    | some t =>
      simp only
      have : made .array t = .error .valueError := by
        rcases a' with ⟨b, sub, (_ | ⟨x, xs⟩)⟩ | ⟨cs, (_ | ⟨x, xs⟩)⟩
        · simp only [meaning, wrapDims, List.foldl_nil, Option.map_id'] at hm
          have := baseTy_base hm
          cases t <;> first | rfl | cases this
        · simp [ABIType.isArray, ABIType.arrlist] at harr
        · simp only [meaning, wrapDims, List.foldl_nil, Option.map_eq_some_iff] at hm
          obtain ⟨ts, _, rfl⟩ := hm
          rfl
        · simp [ABIType.isArray, ABIType.arrlist] at harr
      rw [this]
      rfl

theorem made_tuple_base {t : Ty} {arr : List (Option Nat)} {b : List Char} (h : tyBase t = some b) :
    made .tuple (wrapDims t arr) = .error .valueError := by
  rw [made, innermost_wrapDims]
  cases t <;> first | rfl | cases h

/-- The tuple class. -/
theorem tuple_plan [Ext] {C : Type} {k : Kit C} {obj : Ty → C} (hk : k.Makes obj) {nested : TypeStr → PyM C}
    (hnest : ∀ a s, Derives a s → a.numsOk = true → Outcome obj (found a s) (nested s))
    {a : ABIType} {s : TypeStr} (hd : Derives a s) (hn : a.numsOk = true) :
    match meaning (normTy a) with
    | some t => (k.plan .tuple s).exec nested = (made .tuple t).map obj
    | none => ∃ e, (k.plan .tuple s).exec nested = .error e ∧ TypeErr e := by
  have hd' := normalize_type hd
  have hn' : (normTy a).numsOk = true := (normTy_numsOk a).trans hn
  have hp' : parse (normalize s) = .ok (normTy a) := parse_ok_iff.2 ⟨hd', hn'⟩
  rcases a with ⟨b, sub, arr⟩ | ⟨cs, arr⟩
  · rw [normTy] at hp' ⊢
    have hpt : parseTupleTypeStr s = .error .valueError := by
      unfold parseTupleTypeStr
      rw [hp']
      rfl
    have herr : (k.plan .tuple s).exec nested = .error .valueError := by
      rw [Kit.plan, tuplePlan, hpt]; rfl
    rw [herr, meaning]
    cases hb : baseTy (normBase b sub).1 (normBase b sub).2 with
    | none => exact ⟨_, rfl, by simp [TypeErr]⟩
    | some t =>
      simp only [Option.map_some]
      rw [made_tuple_base (baseTy_base hb)]
      rfl
  · have hnt : normTy (.tuple cs arr) = .tuple (normTys cs) arr := by rw [normTy]
    rw [hnt] at hp' hd' hn' ⊢
    have hpt : parseTupleTypeStr s = ((ABIType.tuple (normTys cs) arr).validate >>= fun _ => .ok (normTys cs)) := by
      unfold parseTupleTypeStr
      rw [hp']
      rfl
    rw [Kit.plan, tuplePlan, hpt]
    have hm : meaning (.tuple (normTys cs) arr) =
        (meanings (normTys cs)).map fun ts => wrapDims (.tuple ts) arr := by simp [meaning]
    rcases validate_cases (.tuple (normTys cs) arr) with hv | hv
    · rw [hv]
      simp only [ok_bind, Plan.bindPyM]
      have hcs : ∀ c ∈ normTys cs, Outcome obj (meaning c) (nested c.toTypeStr) := by
        intro c hc
        have hder : Derives c c.toTypeStr := by
          generalize normalize s = s' at hd'
          cases hd' with
          | tuple h1 _ => exact comps_derive h1 c hc
        have hnc : c.numsOk = true := by
          simp only [ABIType.numsOk, allNumsOk_eq, Bool.and_eq_true] at hn'
          exact List.all_eq_true.1 hn'.1 c hc
        have hcn : normTy c = c := by
          rw [normTys_eq_map] at hc
          obtain ⟨c', _, rfl⟩ := List.mem_map.1 hc
          exact normTy_idem c'
        rw [← found_normal hcn hder]
        exact hnest c _ hder hnc
      have := exec_askAll (normTys cs) hcs (fun cs => .ret (.ok (k.tuple cs)))
      rw [hm]
      cases hms : meanings (normTys cs) with
      | none => rw [hms] at this; exact this
      | some ts =>
        rw [hms] at this
        simp only at this
        simp only [Option.map_some]
        rw [this, exec_ret, hk.tuple, made, innermost_wrapDims]
        rfl
    · have hm' : meaning (.tuple (normTys cs) arr) = none := by
        cases hm : meaning (.tuple (normTys cs) arr) with
        | none => rfl
        | some t => rw [validate_of_meaning _ _ hm] at hv; cases hv
      rw [hm', hv]
      exact ⟨_, rfl, by simp [TypeErr]⟩

/-- What `from_type_str` of each class does with each string. -/
theorem class_plan [Ext] {C : Type} {k : Kit C} {obj : Ty → C} (hk : k.Makes obj) {nested : TypeStr → PyM C}
    (c : CoderClass) (s : TypeStr)
    (hnest : c = .array ∨ c = .tuple → ∀ a s, Derives a s → a.numsOk = true → Outcome obj (found a s) (nested s)) :
    (∀ t, Spells true s t → (k.plan c s).exec nested = (made c t).map obj) ∧
    ((∀ t, ¬ Spells true s t) → ∃ e, (k.plan c s).exec nested = .error e ∧ TypeErr e) := by
  cases hp : parse s with
  | error e =>
    have hp' : parse (normalize s) = .error e := by rw [parse_normalize, hp]
    constructor
    · intro t ht
      obtain ⟨a, h1, h2, _⟩ := spells_iff.1 ht
      rw [parse_ok_iff.2 ⟨h1, h2⟩] at hp
      cases hp
    · intro _
      refine ⟨e, ?_, parseErr_typeErr hp⟩
      have h1 : ∀ b w, parseTypeStr b w s = .error e := by
        intro b w
        unfold parseTypeStr
        rw [hp']
        rfl
      have h2 : parseTupleTypeStr s = .error e := by
        unfold parseTupleTypeStr
        rw [hp']
        rfl
      cases c <;> simp only [Kit.plan, basicPlan, arrayPlan, tuplePlan, h1, h2] <;> rfl
  | ok a =>
    obtain ⟨hd, hn⟩ := parse_ok_iff.1 hp
    have key : match meaning (normTy a) with
        | some t => (k.plan c s).exec nested = (made c t).map obj
        | none => ∃ e, (k.plan c s).exec nested = .error e ∧ TypeErr e := by
      by_cases h1 : c = .array
      · subst h1; exact array_plan hk (hnest (Or.inl rfl)) hd hn
      by_cases h2 : c = .tuple
      · subst h2; exact tuple_plan hk (hnest (Or.inr rfl)) hd hn
      exact leaf_plan hk hd hn h1 h2
    cases hm : meaning (normTy a) with
    | none =>
      rw [hm] at key
      refine ⟨fun t ht => ?_, fun _ => key⟩
      obtain ⟨a', h1, h2, h3⟩ := spells_iff.1 ht
      cases derives_unique hd h1
      rw [hm] at h3
      cases h3
    | some t =>
      rw [hm] at key
      refine ⟨fun u hu => ?_, fun h => absurd (parsed_spells hd hn hm) (h t)⟩
      cases spells_unique (parsed_spells hd hn hm) hu
      exact key

theorem encoder_nested [Ext] (pk : Bool) : ∀ a s, Derives a s → a.numsOk = true →
    Outcome (encOf pk) (found a s) (getEncoder (regBy pk) s) := by
  intro a s hd hn
  rcases getEncoder_by pk s with ⟨t, h1, h2⟩ | ⟨h1, h2⟩
  · rw [(found_iff hd hn).2 h1]; exact h2
  · cases hf : found a s with
    | none => exact h2
    | some t => exact absurd ((found_iff hd hn).1 hf) (h1 t)

theorem decoder_nested [Ext] : ∀ a s, Derives a s → a.numsOk = true →
    Outcome decOf (found a s) (getDecoder defaultRegistry s true) := by
  intro a s hd hn
  rcases getDecoder_default s true with ⟨t, h1, h2⟩ | ⟨h1, h2⟩
  · rw [(found_iff hd hn).2 h1, h2, setStrict_true]; rfl
  · cases hf : found a s with
    | none => exact h2
    | some t => exact absurd ((found_iff hd hn).1 hf) (h1 t)

theorem encoder_class [Ext] {c : CoderClass} {s : TypeStr} {t : Ty} (hs : Spells true s t) :
    encoderFromTypeStr c (getEncoder defaultRegistry) s = (made c t).map (encOf false) :=
  (encoderFromTypeStr_plan c _ s).trans
    ((class_plan (encKit_makes false) c s fun _ => encoder_nested false).1 t hs)

theorem packed_class [Ext] {c : CoderClass} {s : TypeStr} {t : Ty} (hs : Spells true s t) :
    packedFromTypeStr c (getEncoder packedRegistry) s = (made c t).map (encOf true) :=
  (packedFromTypeStr_plan c _ s).trans
    ((class_plan (encKit_makes true) c s fun _ => encoder_nested true).1 t hs)

theorem decoder_class [Ext] {c : CoderClass} {s : TypeStr} {t : Ty} (hs : Spells true s t) :
    decoderFromTypeStr c (getDecoder defaultRegistry · true) s = (made c t).map fun t => (decOf t).setStrict true := by
  have : (fun t => (decOf t).setStrict true) = decOf := funext setStrict_true
  rw [this]
  exact (decoderFromTypeStr_plan c _ s).trans ((class_plan decKit_makes c s fun _ => decoder_nested).1 t hs)

theorem innermost_arrayOf {u t : Ty} (h : ArrayOf u t) : innermost t = innermost u := by
  induction h <;> simp only [innermost, *]

theorem innermost_cases (t : Ty) : innermost t = t ∨ ArrayOf (innermost t) t := by
  induction t using Ty.ind with
  | sized k t ih => rcases ih with h | h
                    · right; simp only [innermost]; rw [h]; exact .sized
                    · right; exact .sizedMore h
  | dyn t ih => rcases ih with h | h
                · right; simp only [innermost]; rw [h]; exact .dyn
                · right; exact .dynMore h
  | _ => left; rfl

theorem made_refused {c : CoderClass} {t : Ty} (hc : ¬ IsFor c t) (ho : ¬ Overlooked c t) :
    made c t = .error .valueError := by
  by_cases h : c = .tuple
  · subst h
    rw [made]
    rcases innermost_cases t with h | h
    · rw [h]
      cases t <;> first | rfl | exact absurd .tuple hc
    · generalize hu : innermost t = u at h
      cases u <;> first | rfl | exact absurd (.tuple h) ho
  · cases c <;> cases t <;> first
      | rfl
      | exact absurd rfl h
      | (refine absurd ?_ hc; constructor)
      | (refine absurd ?_ ho; constructor)

/-! ## Words without a meaning -/

theorem own_normBase {base b : List Char} {sub : Sub} (hb : OwnWord base) :
    ((normBase b sub).1 = base ↔ b = base) ∧ normBase base sub = (base, sub) := by
  obtain ⟨_, _, h⟩ := hb
  simp only [List.mem_cons, List.not_mem_nil, or_false, not_or] at h
  obtain ⟨h1, h2, h3, h4, h5, h6, h7, h8, h9, h10⟩ := h
  constructor
  · cases sub with
    | none =>
      simp only [normBase]
      split
      · next e => subst e; exact ⟨fun e => absurd e.symm h1, fun e => absurd e.symm h1⟩
      split
      · next e => subst e; exact ⟨fun e => absurd e.symm h2, fun e => absurd e.symm h2⟩
      split
      · next e => subst e; exact ⟨fun e => absurd e.symm h3, fun e => absurd e.symm h3⟩
      split
      · next e => subst e; exact ⟨fun e => absurd e.symm h4, fun e => absurd e.symm h4⟩
      split
      · next e => subst e; exact ⟨fun e => absurd e.symm h5, fun e => absurd e.symm h7⟩
      split
      · next e => subst e; exact ⟨fun e => absurd e.symm h5, fun e => absurd e.symm h6⟩
      exact Iff.rfl
    | one n => exact Iff.rfl
    | two m n => exact Iff.rfl
  · cases sub with
    | none => simp only [normBase, h1, h2, h3, h4, h6, h7, if_false]
    | one n => rfl
    | two m n => rfl

theorem own_validate {base : List Char} (hb : OwnWord base) (sub : Sub) : validateBasic base sub = .ok () := by
  obtain ⟨_, _, h⟩ := hb
  simp only [List.mem_cons, List.not_mem_nil, or_false, not_or] at h
  obtain ⟨h1, h2, h3, h4, h5, h6, h7, h8, h9, h10⟩ := h
  unfold validateBasic
  rw [if_neg h8, if_neg h5, if_neg (by simp [h1, h2]), if_neg (by simp [h3, h4]), if_neg h10, if_neg h9]

/-- What the decorator passes on, for a word without a meaning. -/
theorem own_parse [Ext] {base : List Char} (hb : OwnWord base) (w : Bool) (s : TypeStr) :
    parseTypeStr (some base) w s =
      match parse s with
      | .error e => .error e
      | .ok (.basic b sub arr) =>
        if b = base ∧ (arr ≠ [] ↔ w = true) then .ok (.basic b sub arr) else .error .valueError
      | .ok (.tuple _ _) => .error .valueError := by
  cases hp : parse s with
  | error e =>
    unfold parseTypeStr
    rw [parse_normalize, hp]
    rfl
  | ok a =>
    obtain ⟨hd, hn⟩ := parse_ok_iff.1 hp
    have hp' : parse (normalize s) = .ok (normTy a) :=
      parse_ok_iff.2 ⟨normalize_type hd, (normTy_numsOk _).trans hn⟩
    unfold parseTypeStr
    rw [hp']
    rcases a with ⟨b, sub, arr⟩ | ⟨cs, arr⟩
    · rw [normTy]
      by_cases h : b = base
      · subst h
        rw [(own_normBase (b := b) hb).2]
        cases arr <;> cases w <;> simp [ABIType.isArray, ABIType.arrlist, ABIType.validate, own_validate hb]
      · have h' : ¬ (normBase b sub).1 = base := fun e => h ((own_normBase hb).1.1 e)
        simp [h, h']
    · rw [normTy]; rfl

end EthAbi
