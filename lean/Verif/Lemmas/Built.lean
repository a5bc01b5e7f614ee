import Verif.Lemmas.Compose

/-! # Lookups of the types built from registered coders -/
namespace EthAbi
open Spec
variable [Ext]

theorem wellformed_iff {s : TypeStr} : Wellformed s ↔
    ∃ t, Derives t s ∧ t.numsOk = true ∧ normTy t = t ∧ t.validate = .ok () := by
  constructor
  · rintro ⟨t, h1, h2, h3⟩
    obtain ⟨hd, hn⟩ := parse_ok_iff.1 h1
    have := normalize_type hd
    rw [h2] at this
    exact ⟨t, hd, hn, derives_unique this hd, h3⟩
  · rintro ⟨t, hd, hn, ht, hv⟩
    refine ⟨t, parse_ok_iff.2 ⟨hd, hn⟩, ?_, hv⟩
    have := normalize_type hd
    rw [ht] at this
    rw [derives_str this, ← derives_str hd]

omit [Ext] in
theorem validate_addDim (a : ABIType) (d : Option Nat) : (addDim a d).validate = a.validate := by
  cases a <;> rfl

omit [Ext] in
theorem itemType_addDim (a : ABIType) (d : Option Nat) : (addDim a d).itemType = .ok a := by
  cases a with
  | basic b s arr => simp only [addDim]; rw [ABIType.itemType] <;> simp
  | tuple cs arr => simp only [addDim]; rw [ABIType.itemType] <;> simp

omit [Ext] in
theorem arrlist_addDim (a : ABIType) (d : Option Nat) : (addDim a d).arrlist.getLast? = some d ∧
    (addDim a d).isArray = true := by
  cases a <;> simp [addDim, ABIType.arrlist, ABIType.isArray]

/-- One more dimension: the class asks for the coder of the item type. -/
theorem array_ask {s w : TypeStr} {dim : Option Nat} (hs : Wellformed s) (hw : DerivesDims [dim] w)
    (hn : arrNumsOk [dim] = true) : Wellformed (s ++ w) ∧
    ∀ {C : Type} (mk : Option Nat → C → PyM C),
      arrayPlan mk (s ++ w) = .ask s fun c => .ret (mk dim c) := by
  obtain ⟨t, h1, h2, h3, h4⟩ := wellformed_iff.1 hs
  have hwf : Wellformed (s ++ w) := wellformed_iff.2 ⟨addDim t dim, derives_addDim h1 hw,
    by rw [numsOk_addDim, h2, hn]; rfl, by rw [normTy_addDim, h3], by rw [validate_addDim, h4]⟩
  refine ⟨hwf, fun mk => ?_⟩
  obtain ⟨u, hu1, hu2, hu3⟩ := hwf
  have hu : u = addDim t dim := derives_unique (parse_ok_iff.1 hu1).1 (derives_addDim h1 hw)
  subst hu
  have hp : parseTypeStr none true (s ++ w) = .ok (addDim t dim) := by
    unfold parseTypeStr
    rw [hu2, hu1]
    simp only [ok_bind, (arrlist_addDim t dim).2, hu3]
    rfl
  unfold arrayPlan
  rw [hp]
  simp only [Plan.bindPyM, itemType_addDim, (arrlist_addDim t dim).1, ← derives_str h1]

omit [Ext] in
theorem own_setStrict {d : Decoder} (h : d.strict = .own true) : d.setStrict true = d := by
  unfold Decoder.setStrict
  split
  · rw [h]
    cases d
    cases h
    rfl
  · rfl

theorem serves_exec_enc {m : Mapping (Reg Encoder)} {s : TypeStr} {plan : TypeStr → Plan Encoder}
    (h : OnlyMatch m s (.cls plan)) (n : Nat) :
    getEncoderFuel m (n + 1) s = (plan s).exec (getEncoderFuel m n) := by
  rw [getEncoderFuel, (getRegistration_ok _ _ _).2 ((find_iff _ _ _).2 h)]

theorem serves_exec_dec {m : Mapping (Reg Decoder)} {s : TypeStr} {plan : TypeStr → Plan Decoder}
    (h : OnlyMatch m s (.cls plan)) (n : Nat) (strict : Bool) :
    getDecoderFuel m (n + 1) s strict =
      (do let d ← (plan s).exec (fun s' => getDecoderFuel m n s' true); return d.setStrict strict) := by
  rw [getDecoderFuel, (getRegistration_ok _ _ _).2 ((find_iff _ _ _).2 h)]

theorem serves_array {g : Registry} {s w : TypeStr} {dim : Option Nat} (hs : Wellformed s)
    (hw : DerivesDims [dim] w) (hn : arrNumsOk [dim] = true) {e E : Encoder} {d D : Decoder}
    (h : Serves g s e d) (ha : ServedAsArray g (s ++ w)) (hE : mkArray dim e = .ok E)
    (hD : mkArrayD dim d = .ok D) (hst : D.strict = .own true) : Serves g (s ++ w) E D := by
  obtain ⟨_, hplan⟩ := array_ask hs hw hn
  obtain ⟨⟨n, h1⟩, ⟨m, h2⟩⟩ := h
  constructor
  · refine ⟨n + 1, fun f hf => ?_⟩
    obtain ⟨f, rfl⟩ : ∃ f', f = f' + 1 := ⟨f - 1, by omega⟩
    have h1 : getEncoderFuel g.encoders f s = .ok e := h1 f (by omega)
    show getEncoderFuel g.encoders (f + 1) (s ++ w) = _
    rw [serves_exec_enc ha.1, hplan]
    simp only [Plan.exec, h1, hE]
  · refine ⟨m + 1, fun f hf => ?_⟩
    obtain ⟨f, rfl⟩ : ∃ f', f = f' + 1 := ⟨f - 1, by omega⟩
    have h2 : getDecoderFuel g.decoders f s true = .ok d := h2 f (by omega)
    show getDecoderFuel g.decoders (f + 1) (s ++ w) true = _
    rw [serves_exec_dec ha.2, hplan]
    simp only [Plan.exec, h2, hD, ok_bind, own_setStrict hst]
    rfl

omit [Ext] in
theorem exec_askAll_ok {C : Type} {look : TypeStr → PyM C} {ss : List TypeStr} {cs : List C}
    (h : List.Forall₂ (fun s c => look s = .ok c) ss cs) (f : List C → Plan C) :
    (Plan.askAll ss f).exec look = (f cs).exec look := by
  induction h generalizing f with
  | nil => rfl
  | cons h1 _ ih =>
    simp only [Plan.askAll, Plan.exec, h1]
    exact ih _

/-- The components of a tuple, as strings. -/
inductive Joined : List TypeStr → TypeStr → Prop where
  | one {s : TypeStr} : Joined [s] s
  | cons {s s' : TypeStr} {ss : List TypeStr} : Joined ss s' → Joined (s :: ss) (s ++ t!"," ++ s')

omit [Ext] in
theorem allNormal {ts : List ABIType} (h : ∀ t ∈ ts, normTy t = t) : normTys ts = ts := by
  rw [normTys_eq_map]
  induction ts with
  | nil => rfl
  | cons t ts ih =>
    rw [List.map_cons, h t (List.mem_cons_self ..), ih fun u hu => h u (List.mem_cons_of_mem _ hu)]

omit [Ext] in
theorem validateAll_ok {ts : List ABIType} (h : ∀ t ∈ ts, t.validate = .ok ()) :
    ABIType.validateAll ts = .ok () := by
  induction ts with
  | nil => rfl
  | cons t ts ih =>
    rw [ABIType.validateAll, h t (List.mem_cons_self ..), ok_bind, ih fun u hu => h u (List.mem_cons_of_mem _ hu)]

theorem joined_comps {ss : List TypeStr} {s : TypeStr} (h : Joined ss s) (hw : ∀ x ∈ ss, Wellformed x) :
    ∃ ts, DerivesComps ts s ∧ ABIType.allNumsOk ts = true ∧ (∀ t ∈ ts, normTy t = t) ∧
      (∀ t ∈ ts, t.validate = .ok ()) ∧ ABIType.toTypeStrs ts = ss := by
  induction h with
  | @one s =>
    obtain ⟨t, h1, h2, h3, h4⟩ := wellformed_iff.1 (hw s (List.mem_cons_self ..))
    refine ⟨[t], .one h1, by simp [ABIType.allNumsOk, h2], ?_, ?_, ?_⟩
    · intro u hu; rw [List.mem_singleton.1 hu]; exact h3
    · intro u hu; rw [List.mem_singleton.1 hu]; exact h4
    · simp [ABIType.toTypeStrs, ← derives_str h1]
  | @cons s s' ss _ ih =>
    obtain ⟨t, h1, h2, h3, h4⟩ := wellformed_iff.1 (hw s (List.mem_cons_self ..))
    obtain ⟨ts, g1, g2, g3, g4, g5⟩ := ih fun x hx => hw x (List.mem_cons_of_mem _ hx)
    refine ⟨t :: ts, .cons h1 g1, by simp [ABIType.allNumsOk, h2, g2], ?_, ?_, ?_⟩
    · intro u hu
      rcases List.mem_cons.1 hu with rfl | hu
      · exact h3
      · exact g3 u hu
    · intro u hu
      rcases List.mem_cons.1 hu with rfl | hu
      · exact h4
      · exact g4 u hu
    · simp [ABIType.toTypeStrs, ← derives_str h1, g5]

theorem tuple_ask {ss : List TypeStr} {s : TypeStr} (h : Joined ss s) (hw : ∀ x ∈ ss, Wellformed x) :
    Wellformed (t!"(" ++ s ++ t!")") ∧ ∀ {C : Type} (mk : List C → C),
      tuplePlan mk (t!"(" ++ s ++ t!")") = .askAll ss fun cs => .ret (.ok (mk cs)) := by
  obtain ⟨ts, h1, h2, h3, h4, h5⟩ := joined_comps h hw
  have hd : Derives (.tuple ts []) (t!"(" ++ s ++ t!")") := by
    have := Derives.tuple h1 DerivesDims.nil
    rwa [List.append_nil] at this
  have hn : (ABIType.tuple ts []).numsOk = true := by simp [ABIType.numsOk, h2, arrNumsOk]
  have hwf : Wellformed (t!"(" ++ s ++ t!")") := wellformed_iff.2 ⟨_, hd, hn,
    by rw [normTy, allNormal h3], by rw [ABIType.validate, validateAll_ok h4]⟩
  refine ⟨hwf, fun mk => ?_⟩
  obtain ⟨u, hu1, hu2, hu3⟩ := hwf
  have hu : u = .tuple ts [] := derives_unique (parse_ok_iff.1 hu1).1 hd
  subst hu
  have hp : parseTupleTypeStr (t!"(" ++ s ++ t!")") = .ok ts := by
    unfold parseTupleTypeStr
    rw [hu2, hu1]
    simp only [ok_bind, hu3]
    rfl
  unfold tuplePlan
  rw [hp, ← h5]
  rfl

omit [Ext] in
theorem comesTo_all {C : Type} {look : Nat → TypeStr → PyM C} {ss : List TypeStr} {cs : List C}
    (h : List.Forall₂ (fun s c => ComesTo (fun n => look n s) (.ok c)) ss cs) :
    ∃ n, ∀ f, n ≤ f → List.Forall₂ (fun s c => look f s = .ok c) ss cs := by
  induction h with
  | nil => exact ⟨0, fun _ _ => .nil⟩
  | cons h1 _ ih =>
    obtain ⟨n, hn⟩ := h1
    obtain ⟨m, hm⟩ := ih
    exact ⟨max n m, fun f hf => .cons (hn f (by omega)) (hm f (by omega))⟩

theorem serves_tuple {g : Registry} {ss : List TypeStr} {s : TypeStr} (h : Joined ss s)
    (hw : ∀ x ∈ ss, Wellformed x) {es : List Encoder} {ds : List Decoder}
    (he : List.Forall₂ (fun s e => ComesTo (fun n => getEncoderFuel g.encoders n s) (.ok e)) ss es)
    (hd : List.Forall₂ (fun s d => ComesTo (fun n => getDecoderFuel g.decoders n s true) (.ok d)) ss ds)
    (ha : ServedAsTuple g (t!"(" ++ s ++ t!")")) :
    Serves g (t!"(" ++ s ++ t!")") (mkTuple es) (mkTupleD ds) := by
  obtain ⟨_, hplan⟩ := tuple_ask h hw
  obtain ⟨n, h1⟩ := comesTo_all he
  obtain ⟨m, h2⟩ := comesTo_all (look := fun n s => getDecoderFuel g.decoders n s true) hd
  constructor
  · refine ⟨n + 1, fun f hf => ?_⟩
    obtain ⟨f, rfl⟩ : ∃ f', f = f' + 1 := ⟨f - 1, by omega⟩
    show getEncoderFuel g.encoders (f + 1) _ = _
    rw [serves_exec_enc ha.1, hplan, exec_askAll_ok (h1 f (by omega))]
    rfl
  · refine ⟨m + 1, fun f hf => ?_⟩
    obtain ⟨f, rfl⟩ : ∃ f', f = f' + 1 := ⟨f - 1, by omega⟩
    show getDecoderFuel g.decoders (f + 1) _ true = _
    rw [serves_exec_dec ha.2, hplan, exec_askAll_ok (h2 f (by omega))]
    simp only [Plan.exec, ok_bind, own_setStrict (d := mkTupleD ds) rfl]
    rfl

/-- What is shown of a type built from registered coders. -/
def BuiltOk (g : Registry) (attr : Bool) (s : TypeStr) (R : PyVal → PyVal → Prop) : Prop :=
  ∃ e d, Wellformed s ∧ Serves g s e d ∧ (attr = true → e.isDynamic ≠ none ∧ d.isDynamic ≠ none) ∧
    ReadsBack e d R

/-- What is shown of the components of a tuple. -/
def BuiltAllOk (g : Registry) (s : TypeStr) (Rs : List (PyVal → PyVal → Prop)) : Prop :=
  ∃ ss es ds, Joined ss s ∧ (∀ x ∈ ss, Wellformed x) ∧
    List.Forall₂ (fun s e => ComesTo (fun n => getEncoderFuel g.encoders n s) (.ok e)) ss es ∧
    List.Forall₂ (fun s d => ComesTo (fun n => getDecoderFuel g.decoders n s true) (.ok d)) ss ds ∧
    Pairs es ds Rs

theorem built_ok {g : Registry} {attr : Bool} {s : TypeStr} {R : PyVal → PyVal → Prop}
    (h : Built g attr s R) : BuiltOk g attr s R := by
  refine Built.rec (motive_1 := fun attr s R _ => BuiltOk g attr s R)
    (motive_2 := fun s Rs _ => BuiltAllOk g s Rs) ?_ ?_ ?_ ?_ ?_ ?_ h
  · intro attr s e d R h1 h2 h3 h4
    exact ⟨e, d, h1, h2, h3, h4⟩
  · rintro s R k _ hk hn ha ⟨e, d, h1, h2, h3, h5⟩
    obtain ⟨h3, h4⟩ := h3 rfl
    obtain ⟨E, D, hE, hD, hR, g1, g2⟩ := readsBack_sized h5 hk h3 h4
    have hw := dims_one hk
    have hno : arrNumsOk [some k] = true := by simp [arrNumsOk, hn]
    have hst : D.strict = .own true := by
      unfold mkSizedArrayD at hD
      obtain ⟨_, _, hD⟩ := bind_eq_ok.1 hD
      injection hD with hD
      rw [← hD]
    rw [List.append_assoc, List.append_assoc, ← List.append_assoc (t!"[")] at ha ⊢
    exact ⟨E, D, (array_ask h1 hw hno).1, serves_array h1 hw hno h2 ha hE hD hst, fun _ => ⟨g1, g2⟩, hR⟩
  · rintro s R _ ha ⟨e, d, h1, h2, h3, h5⟩
    obtain ⟨h3, h4⟩ := h3 rfl
    obtain ⟨D, hD, hR, g2⟩ := readsBack_dyn h5 h4
    have hw : DerivesDims [none] t!"[]" := DerivesDims.dynamic DerivesDims.nil
    have hno : arrNumsOk [none] = true := rfl
    have hst : D.strict = .own true := by
      unfold mkDynamicArrayD at hD
      obtain ⟨_, _, hD⟩ := bind_eq_ok.1 hD
      injection hD with hD
      rw [← hD]
    exact ⟨_, D, (array_ask h1 hw hno).1, serves_array h1 hw hno h2 ha rfl hD hst,
      fun _ => ⟨by simp [mkDynamicArray], g2⟩, hR⟩
  · rintro s Rs _ ha ⟨ss, es, ds, h1, h2, h3, h4, h5⟩
    have hne : es ≠ [] := by
      rintro rfl
      cases h3
      cases h1
    exact ⟨_, _, (tuple_ask h1 h2).1, serves_tuple h1 h2 h3 h4 ha,
      fun _ => ⟨by simp [mkTuple], by simp [mkTupleD]⟩, readsBack_tuple h5 hne⟩
  · rintro attr s R _ ⟨e, d, h1, h2, _, h5⟩
    refine ⟨[s], [e], [d], .one, ?_, .cons h2.1 .nil, .cons h2.2 .nil, .cons h5 .nil⟩
    intro x hx; rw [List.mem_singleton.1 hx]; exact h1
  · rintro attr s s' R Rs _ _ ⟨e, d, h1, h2, _, h5⟩ ⟨ss, es, ds, g1, g2, g3, g4, g5⟩
    refine ⟨s :: ss, e :: es, d :: ds, .cons g1, ?_, .cons h2.1 g3, .cons h2.2 g4, .cons h5 g5⟩
    intro x hx
    rcases List.mem_cons.1 hx with rfl | hx
    · exact h1
    · exact g2 x hx

/-! ## A whole call -/

omit [Ext] in
theorem setStrict_twice (d : Decoder) (a b : Bool) : (d.setStrict a).setStrict b = d.setStrict b := by
  obtain ⟨dy, ht, sz, str, run⟩ := d
  rcases dy with _ | _ | _ <;> cases str <;> rfl

omit [Ext] in
theorem readsBack_setStrict {e : Encoder} {d : Decoder} {R : PyVal → PyVal → Prop}
    (h : ReadsBack e d R) (b : Bool) : ReadsBack e (d.setStrict b) R := by
  unfold Decoder.setStrict
  split
  · split
    · exact ⟨h.dynamic, h.plain, h.size, h.back⟩
    · exact h
  · exact h

theorem decFuel_strict {m : Mapping (Reg Decoder)} {n : Nat} {s : TypeStr} {d : Decoder}
    (h : getDecoderFuel m n s true = .ok d) (strict : Bool) :
    getDecoderFuel m n s strict = .ok (d.setStrict strict) := by
  cases n with
  | zero => cases h
  | succ n =>
    rw [getDecoderFuel] at h ⊢
    cases hr : m.getRegistration s with
    | error e => rw [hr] at h; cases h
    | ok v =>
      rw [hr] at h
      cases v with
      | obj d' =>
        injection h with h
        subst h
        simp only [setStrict_twice]
      | cls plan =>
        simp only at h ⊢
        obtain ⟨d', h1, h2⟩ := bind_eq_ok.1 h
        injection h2 with h2
        subst h2
        rw [h1, ok_bind, setStrict_twice]
        rfl

/-- The lookups of a list of built types. -/
theorem builtList_ok {g : Registry} {types : List TypeStr} {Rs : List (PyVal → PyVal → Prop)}
    (h : BuiltList g types Rs) (strict : Bool) : ∃ es ds n, Pairs es ds Rs ∧ es.length = types.length ∧
      ∀ f, n ≤ f → mapPyM (getEncoderFuel g.encoders f) types = .ok es ∧
        mapPyM (fun s => getDecoderFuel g.decoders f s strict) types = .ok ds := by
  induction h with
  | nil => exact ⟨[], [], 0, .nil, rfl, fun _ _ => ⟨rfl, rfl⟩⟩
  | cons h1 _ ih =>
    obtain ⟨es, ds, n, hp, hl, hn⟩ := ih
    obtain ⟨e, d, _, ⟨⟨n1, hn1⟩, ⟨n2, hn2⟩⟩, _, hR⟩ := built_ok h1
    refine ⟨e :: es, d.setStrict strict :: ds, max n (max n1 n2), .cons (readsBack_setStrict hR strict) hp,
      by simp [hl], fun f hf => ?_⟩
    obtain ⟨g1, g2⟩ := hn f (by omega)
    have g3 := hn1 f (by omega)
    have g4 := decFuel_strict (hn2 f (by omega)) strict
    simp only at g3 g4
    simp only [mapPyM, g1, g2, g3, g4, ok_bind]
    exact ⟨rfl, rfl⟩

/-- `encode` and then `decode` on the same registrations. -/
theorem builtList_roundTrip {g : Registry} {types : List TypeStr} {Rs : List (PyVal → PyVal → Prop)}
    (h : BuiltList g types Rs) {args : PyVal} {vs vs' : List PyVal} (ha : IsListOf args vs)
    (hR : Each Rs vs vs') {b : Bytes} (hb : Fits b) (strict : Bool) :
    ComesTo (fun n => encodeAt g n types args) (.ok b) →
    ∃ n, ∀ f, n ≤ f → ∀ fl, decodeAt g fl f types (.bytes b) strict = .ok (.tuple vs') := by
  rintro ⟨n1, hn1⟩
  obtain ⟨es, ds, n2, hp, hl, hn2⟩ := builtList_ok h strict
  have he := hn1 (max n1 n2) (by omega)
  simp only [encodeAt, (hn2 (max n1 n2) (by omega)).1, ok_bind] at he
  obtain ⟨_, _, he⟩ := bind_eq_ok.1 he
  refine ⟨n2, fun f hf fl => ?_⟩
  unfold decodeAt
  rw [show validateBytesParam (.bytes b) = .ok b from rfl]
  simp only [ok_bind, (hn2 f hf).2]
  by_cases hne : es = []
  · subst hne
    cases hp
    cases hR
    have : b = [] := by
      cases ha <;> (cases he; rfl)
    subst this
    rfl
  · have hrb := readsBack_tuple hp hne
    obtain ⟨p, h1, _, _⟩ := hrb.back args (.tuple vs') b ⟨vs, vs', isSeqOf_iff.2 (isListOf_like ha), rfl, hR⟩ he fl true
      (Stream.init b) hb (by simp [At, Stream.init]) (fun _ => rfl)
    have h1' : (mkTupleD ds).call fl (Stream.init b) = .ok (.tuple vs', _) := h1
    rw [h1']
    rfl

end EthAbi
