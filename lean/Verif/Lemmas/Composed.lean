import Verif.Spec.Composed
import Verif.Lemmas.BuiltIn
import Verif.Lemmas.Callable
import Verif.Lemmas.Differs
import Verif.Lemmas.Alike

/-! # What the types built from registered encoders encode to -/
namespace EthAbi
open Spec
variable [Ext]

theorem encoderIs_array {g : Registry} {s w : TypeStr} {dim : Option Nat} (hs : Wellformed s)
    (hw : DerivesDims [dim] w) (hn : arrNumsOk [dim] = true) {e E : Encoder} (h : EncoderIs g s e)
    {mk : Option Nat → Encoder → PyM Encoder} (ha : OnlyMatch g.encoders (s ++ w) (.cls (arrayPlan mk)))
    (hE : mk dim e = .ok E) :
    EncoderIs g (s ++ w) E := by
  obtain ⟨_, hplan⟩ := array_ask hs hw hn
  obtain ⟨n, h1⟩ := h
  refine ⟨n + 1, fun f hf => ?_⟩
  obtain ⟨f, rfl⟩ : ∃ f', f = f' + 1 := ⟨f - 1, by omega⟩
  have h1 : getEncoderFuel g.encoders f s = .ok e := h1 f (by omega)
  show getEncoderFuel g.encoders (f + 1) (s ++ w) = _
  rw [serves_exec_enc ha, hplan]
  simp only [Plan.exec, h1, hE]

theorem encoderIs_tuple {g : Registry} {ss : List TypeStr} {s : TypeStr} (h : Joined ss s)
    (hw : ∀ x ∈ ss, Wellformed x) {es : List Encoder} (he : List.Forall₂ (EncoderIs g) ss es)
    (ha : OnlyMatch g.encoders (t!"(" ++ s ++ t!")") (.cls (tuplePlan mkTuple))) :
    EncoderIs g (t!"(" ++ s ++ t!")") (mkTuple es) := by
  obtain ⟨_, hplan⟩ := tuple_ask h hw
  obtain ⟨n, h1⟩ := comesTo_all he
  refine ⟨n + 1, fun f hf => ?_⟩
  obtain ⟨f, rfl⟩ : ∃ f', f = f' + 1 := ⟨f - 1, by omega⟩
  show getEncoderFuel g.encoders (f + 1) _ = _
  rw [serves_exec_enc ha, hplan, exec_askAll_ok (h1 f (by omega))]
  rfl

theorem encoderIs_unique {g : Registry} {s : TypeStr} {e e' : Encoder} (h : EncoderIs g s e)
    (h' : EncoderIs g s e') : e = e' := by
  have := comesTo_unique h h'
  injection this

omit [Ext] in
theorem layout_mem {xs : List Elem} {x : Elem} (h : x ∈ xs) : x.2.length ≤ (layout xs).length := by
  obtain ⟨a, b, rfl⟩ := List.append_of_mem h
  rw [layout_slots]
  exact slotSum_around a b x.1 x.2

omit [Ext] in
theorem elems_dyn {es : List Encoder} {bs : List Bytes} (h : bs.length = es.length) :
    (elems es bs).any (·.1) = es.any (·.dyn) := by
  induction es generalizing bs with
  | nil => cases bs <;> rfl
  | cons e es ih =>
    cases bs with
    | nil => simp at h
    | cons b bs => simp only [elems, List.any_cons, ih (by simpa using h)]

/-! ## From the specification to the call -/

/-- What is shown of a value that has an encoding. -/
def EncOk (g : Registry) (item : Bool) (s : TypeStr) (v : PyVal) (x : Elem) : Prop :=
  Wellformed s ∧ ∃ e, EncoderIs g s e ∧ e.dyn = x.1 ∧
    (x.2.length < 2 ^ 256 → e.call v = .ok x.2 ∧ NotRejected item e v)

def ItemsOk (g : Registry) (s : TypeStr) (vs : List PyVal) (xs : List Elem) : Prop :=
  ∀ e, EncoderIs g s e → (∀ x ∈ xs, x.2.length < 2 ^ 256) →
    ∃ bs, callAll (vs.map fun _ => e) vs = .ok bs ∧ elems (vs.map fun _ => e) bs = xs ∧
      ∀ u ∈ vs, e.validateValue u = .ok ()

def CompsOk (g : Registry) (s : TypeStr) (vs : List PyVal) (xs : List Elem) : Prop :=
  ∃ ss es, Joined ss s ∧ (∀ x ∈ ss, Wellformed x) ∧ List.Forall₂ (EncoderIs g) ss es ∧
    es.any (·.dyn) = xs.any (·.1) ∧ ((∀ x ∈ xs, x.2.length < 2 ^ 256) →
      ∃ bs, callAll es vs = .ok bs ∧ elems es bs = xs ∧ vs.length = es.length ∧
        tupleValidateItems vs es = .ok ())

omit [Ext] in
theorem validateOrCall_of {e : Encoder} {v : PyVal} {b : Bytes} (h : e.call v = .ok b)
    (hr : NotRejected false e v) : validateOrCall e v = .ok () := by
  unfold validateOrCall
  unfold NotRejected at hr
  rw [validation_eq] at hr
  rcases hr with hr | ⟨_, hr⟩
  · rw [hr]
  · rw [hr]; simp only [h, ok_bind]; rfl

theorem compsOk_cons {g : Registry} {s : TypeStr} {v : PyVal} {x : Elem} (h : EncOk g false s v x) :
    ∃ e, EncoderIs g s e ∧ e.dyn = x.1 ∧ ∀ es vs xs, ((∀ x ∈ xs, x.2.length < 2 ^ 256) →
      ∃ bs, callAll es vs = .ok bs ∧ elems es bs = xs ∧ vs.length = es.length ∧
        tupleValidateItems vs es = .ok ()) → (∀ y ∈ x :: xs, y.2.length < 2 ^ 256) →
      ∃ bs, callAll (e :: es) (v :: vs) = .ok bs ∧ elems (e :: es) bs = x :: xs ∧
        (v :: vs).length = (e :: es).length ∧ tupleValidateItems (v :: vs) (e :: es) = .ok () := by
  obtain ⟨_, e, h1, h2, h3⟩ := h
  refine ⟨e, h1, h2, fun es vs xs ih hl => ?_⟩
  obtain ⟨h4, h5⟩ := h3 (hl x (by simp))
  obtain ⟨bs, i1, i2, i3, i4⟩ := ih fun y hy => hl y (by simp [hy])
  refine ⟨x.2 :: bs, ?_, ?_, by simp [i3], ?_⟩
  · simp only [callAll, h4, i1, ok_bind]; rfl
  · rw [elems, h2, i2]
  · rw [tupleValidateItems, validateOrCall_of h4 h5, i4]; rfl

theorem encodesAs_ok {g : Registry} {item : Bool} {s : TypeStr} {v : PyVal} {x : Elem}
    (h : EncodesAs g item s v x) : EncOk g item s v x := by
  refine EncodesAs.rec (motive_1 := fun item s v x _ => EncOk g item s v x)
    (motive_2 := fun s vs xs _ => ItemsOk g s vs xs) (motive_3 := fun s vs xs _ => CompsOk g s vs xs)
    ?_ ?_ ?_ ?_ ?_ ?_ ?_ ?_ ?_ ?_ h
  · intro item s e v b h1 _ h3 h4 h5
    exact ⟨h1, e, h3, rfl, fun _ => ⟨h5, h4⟩⟩
  · intro item s k e d v vs xs h1 h2 h3 h4 h5 h6 h7 h8 _ ih
    have hw := dims_one h4
    have hno : arrNumsOk [some k] = true := by simp [arrNumsOk, h5]
    rw [List.append_assoc, List.append_assoc, ← List.append_assoc (t!"[")] at h6 ⊢
    have hE : mkArray (some k) e = .ok { isDynamic := some d
                                         validate := some (sizedArrayValidate e (some k))
                                         call := encodeElements (sizedArrayValidate e (some k)) e } := by
      simp only [mkArray, mkSizedArray, h3]
    refine ⟨(array_ask h1 hw hno).1, _, encoderIs_array h1 hw hno h2 h6 hE, rfl, fun hl => ?_⟩
    obtain ⟨bs, g1, g2, g3⟩ := ih e h2 fun x hx => Nat.lt_of_le_of_lt (layout_mem hx) hl
    have hv := isSeqOf_iff.1 h7
    have hval : sizedArrayValidate e (some k) v = .ok () :=
      sizedArrayValidate_ok.2 ⟨vs, hv, g3, fun n hn => by injection hn with hn; rw [← hn, h8]⟩
    refine ⟨?_, .inl hval⟩
    rcases encodeElements_spec hv hval g1 with h9 | ⟨_, _, _, h9⟩
    · rw [g2] at h9; exact h9
    · rw [g2] at h9; simp only at hl; omega
  · intro item s e v vs xs h1 h2 h3 h4 h5 _ ih
    have hw : DerivesDims [none] t!"[]" := DerivesDims.dynamic DerivesDims.nil
    have hno : arrNumsOk [none] = true := rfl
    refine ⟨(array_ask h1 hw hno).1, _, encoderIs_array h1 hw hno h2 h3 rfl, rfl, fun hl => ?_⟩
    simp only [List.length_append] at hl
    obtain ⟨bs, g1, g2, g3⟩ := ih e h2 fun x hx => by have := layout_mem hx; omega
    have hv := isSeqOf_iff.1 h4
    have hval : arrayValidate e v = .ok () := by
      rw [arrayValidate_unsized]
      exact sizedArrayValidate_ok.2 ⟨vs, hv, g3, fun n hn => by cases hn⟩
    refine ⟨?_, .inl hval⟩
    show (mkDynamicArray e).call v = _
    simp only [mkDynamicArray, pyLen_of h4, ok_bind, encodeUint256_eq, if_pos h5]
    rcases encodeElements_spec hv hval g1 with h9 | ⟨_, _, _, h9⟩
    · rw [g2] at h9; rw [h9]; rfl
    · rw [g2] at h9; omega
  · intro item s k e v vs xs h1 h2 h4 h5 h6 h7 h8 _ ih
    have hw := dims_one h4
    have hno : arrNumsOk [some k] = true := by simp [arrNumsOk, h5]
    unfold PackedArray at h6
    rw [List.append_assoc, List.append_assoc, ← List.append_assoc (t!"[")] at h6 ⊢
    refine ⟨(array_ask h1 hw hno).1, _, encoderIs_array h1 hw hno h2 h6 rfl, rfl, fun hl => ?_⟩
    obtain ⟨bs, g1, g2, g3⟩ := ih e h2 fun x hx => Nat.lt_of_le_of_lt (layout_mem hx) hl
    have hv := isSeqOf_iff.1 h7
    have hval : sizedArrayValidate e (some k) v = .ok () :=
      sizedArrayValidate_ok.2 ⟨vs, hv, g3, fun n hn => by injection hn with hn; rw [← hn, h8]⟩
    refine ⟨?_, .inl hval⟩
    show encodeElements (sizedArrayValidate e (some k)) e v = _
    rcases encodeElements_spec hv hval g1 with h9 | ⟨_, _, _, h9⟩
    · rw [g2] at h9; exact h9
    · rw [g2] at h9; simp only at hl; omega
  · intro item s e v vs xs h1 h2 h3 h4 _ ih
    have hw : DerivesDims [none] t!"[]" := DerivesDims.dynamic DerivesDims.nil
    have hno : arrNumsOk [none] = true := rfl
    refine ⟨(array_ask h1 hw hno).1, _, encoderIs_array h1 hw hno h2 h3 rfl, rfl, fun hl => ?_⟩
    obtain ⟨bs, g1, g2, g3⟩ := ih e h2 fun x hx => Nat.lt_of_le_of_lt (layout_mem hx) hl
    have hv := isSeqOf_iff.1 h4
    have hval : sizedArrayValidate e none v = .ok () :=
      sizedArrayValidate_ok.2 ⟨vs, hv, g3, fun n hn => by cases hn⟩
    refine ⟨?_, .inl hval⟩
    show encodeElements (sizedArrayValidate e none) e v = _
    rcases encodeElements_spec hv hval g1 with h9 | ⟨_, _, _, h9⟩
    · rw [g2] at h9; exact h9
    · rw [g2] at h9; simp only at hl; omega
  · rintro item s v vs xs _ h2 h3 ⟨ss, es, g1, g2, g3, g4, g5⟩
    refine ⟨(tuple_ask g1 g2).1, _, encoderIs_tuple g1 g2 g3 h2, g4, fun hl => ?_⟩
    obtain ⟨bs, i1, i2, i3, i4⟩ := g5 fun x hx => Nat.lt_of_le_of_lt (layout_mem hx) hl
    have hv := isSeqOf_iff.1 h3
    have hval : tupleValidate es v = .ok () := by
      simp only [tupleValidate, hv, i3, ne_eq, not_true_eq_false, if_false, i4]
    refine ⟨?_, .inl hval⟩
    show tupleEncode es v = _
    rcases tupleEncode_spec hv hval i1 with h9 | ⟨_, _, _, h9⟩
    · rw [i2] at h9; exact h9
    · rw [i2] at h9; simp only at hl; omega
  · intro s e _ _
    exact ⟨[], rfl, rfl, by simp⟩
  · rintro s v x vs xs _ _ ⟨_, e, h1, h2, h3⟩ ih e' he' hl
    obtain rfl := encoderIs_unique h1 he'
    obtain ⟨bs, g1, g2, g3⟩ := ih e he' fun y hy => hl y (by simp [hy])
    obtain ⟨h4, h5⟩ := h3 (hl x (by simp))
    have h5 : e.validateValue v = .ok () := by
      rcases h5 with h5 | ⟨h5, _⟩
      · exact h5
      · cases h5
    refine ⟨x.2 :: bs, ?_, ?_, ?_⟩
    · simp only [List.map_cons, callAll, h4, g1, ok_bind]; rfl
    · rw [List.map_cons, elems, h2, g2]
    · intro u hu
      rcases List.mem_cons.1 hu with rfl | hu
      · exact h5
      · exact g3 u hu
  · intro s v x _ ih
    obtain ⟨e, h1, h2, h3⟩ := compsOk_cons ih
    refine ⟨[s], [e], .one, ?_, .cons h1 .nil, by simp [h2], ?_⟩
    · intro y hy; rw [List.mem_singleton.1 hy]; exact ih.1
    · exact h3 [] [] [] fun _ => ⟨[], rfl, rfl, rfl, rfl⟩
  · rintro s s' v x vs xs _ _ ih ⟨ss, es, g1, g2, g3, g4, g5⟩
    obtain ⟨e, h1, h2, h3⟩ := compsOk_cons ih
    refine ⟨s :: ss, e :: es, .cons g1, ?_, .cons h1 g3, by simp [h2, g4], h3 es vs xs g5⟩
    intro y hy
    rcases List.mem_cons.1 hy with rfl | hy
    · exact ih.1
    · exact g2 y hy

theorem argsAs_to {g : Registry} {types : List TypeStr} {vs : List PyVal} {xs : List Elem}
    (h : ArgsAs g types vs xs) (hl : ∀ x ∈ xs, x.2.length < 2 ^ 256) : EncodesTo g types vs xs := by
  induction h with
  | nil => exact .nil
  | @cons s v x types vs xs h1 _ ih =>
    obtain ⟨_, e, h2, h3, h4⟩ := encodesAs_ok h1
    obtain ⟨h4, h5⟩ := h4 (hl x (by simp))
    have hx : x = (e.dyn, x.2) := by rw [h3]
    rw [hx]
    refine .cons h2 h4 ?_ (ih fun y hy => hl y (by simp [hy]))
    rcases h5 with h5 | ⟨_, h5⟩
    · exact .inr h5
    · exact .inl h5

theorem encodesTo_unique {g : Registry} {types : List TypeStr} {vs : List PyVal} {xs xs' : List Elem}
    (h : EncodesTo g types vs xs) (h' : EncodesTo g types vs xs') : xs = xs' := by
  induction h generalizing xs' with
  | nil => cases h'; rfl
  | cons h1 h2 _ _ ih =>
    cases h' with
    | cons g1 g2 _ g4 =>
      obtain rfl := encoderIs_unique h1 g1
      rw [h2] at g2
      injection g2 with g2
      rw [g2, ih g4]

/-! ## From the call to the specification -/

/-- What is shown of a type string. -/
def FromOk (g : Registry) (s : TypeStr) : Prop :=
  Wellformed s ∧ ∃ e, EncoderIs g s e ∧ ∀ item v b, NotRejected item e v → e.call v = .ok b →
    EncodesAs g item s v (e.dyn, b)

def FromCompsOk (g : Registry) (s : TypeStr) : Prop :=
  ∃ ss es, Joined ss s ∧ (∀ x ∈ ss, Wellformed x) ∧ List.Forall₂ (EncoderIs g) ss es ∧
    ∀ vs bs, vs.length = es.length → tupleValidateItems vs es = .ok () → callAll es vs = .ok bs →
      CompsAs g s vs (elems es bs)

omit [Ext] in
theorem notRejected_of {e : Encoder} {v : PyVal} (h : validateOrCall e v = .ok ()) :
    NotRejected false e v := by
  unfold validateOrCall at h
  split at h
  · next hv => exact .inr ⟨rfl, hv⟩
  · exact .inl h

theorem itemsAs_of {g : Registry} {s : TypeStr} {e : Encoder}
    (h : ∀ item v b, NotRejected item e v → e.call v = .ok b → EncodesAs g item s v (e.dyn, b))
    {vs : List PyVal} {bs : List Bytes} (hv : ∀ u ∈ vs, e.validateValue u = .ok ())
    (hc : callAll (vs.map fun _ => e) vs = .ok bs) :
    ItemsAs g s vs (elems (vs.map fun _ => e) bs) := by
  induction vs generalizing bs with
  | nil => exact .nil
  | cons v vs ih =>
    rw [List.map_cons] at hc
    obtain ⟨b, bs', h1, h2, rfl⟩ := callAll_ok_cons hc
    rw [List.map_cons, elems]
    exact .cons (h true v b (.inl (hv v (by simp))) h1) (ih (fun u hu => hv u (by simp [hu])) h2)

theorem builtFrom_ok {g : Registry} {s : TypeStr} (h : BuiltFrom g s) : FromOk g s := by
  refine BuiltFrom.rec (motive_1 := fun s _ => FromOk g s) (motive_2 := fun s _ => FromCompsOk g s)
    ?_ ?_ ?_ ?_ ?_ ?_ ?_ ?_ h
  · intro s e h1 h2 h3
    exact ⟨h1, e, h3, fun item v b h4 h5 => .own h1 h2 h3 h4 h5⟩
  · rintro s k e _ h2 h3 h4 h5 h6 ⟨h1, e', i1, i2⟩
    obtain rfl := encoderIs_unique i1 h2
    obtain ⟨d, h3⟩ := Option.ne_none_iff_exists'.1 h3
    have hw := dims_one h4
    have hno : arrNumsOk [some k] = true := by simp [arrNumsOk, h5]
    have h6' := h6
    rw [List.append_assoc, List.append_assoc, ← List.append_assoc (t!"[")] at h6'
    have hE : mkArray (some k) e' = .ok { isDynamic := some d
                                          validate := some (sizedArrayValidate e' (some k))
                                          call := encodeElements (sizedArrayValidate e' (some k)) e' } := by
      simp only [mkArray, mkSizedArray, h3]
    have hs : s ++ t!"[" ++ natDigits k ++ t!"]" = s ++ (t!"[" ++ natDigits k ++ t!"]") := by
      simp only [List.append_assoc]
    refine ⟨by rw [hs]; exact (array_ask h1 hw hno).1, _,
      by rw [hs]; exact encoderIs_array h1 hw hno h2 h6' hE, fun item v b _ hc => ?_⟩
    obtain ⟨vs, bs, g1, g2, g3, rfl⟩ := encodeElements_raw hc
    obtain ⟨vs', g4, g5, g6⟩ := sizedArrayValidate_ok.1 g2
    rw [g1] at g4
    injection g4 with g4
    subst g4
    exact .sized h1 h2 h3 h4 h5 h6 (isSeqOf_iff.2 g1) (g6 k rfl) (itemsAs_of i2 g5 g3)
  · rintro s _ h2 ⟨h1, e, i1, i2⟩
    have hw : DerivesDims [none] t!"[]" := DerivesDims.dynamic DerivesDims.nil
    have hno : arrNumsOk [none] = true := rfl
    refine ⟨(array_ask h1 hw hno).1, _, encoderIs_array h1 hw hno i1 h2 rfl, fun item v b _ hc => ?_⟩
    have hc : (mkDynamicArray e).call v = .ok b := hc
    simp only [mkDynamicArray, bind_eq_ok] at hc
    obtain ⟨len, g0, size, g1, els, g2, g3⟩ := hc
    injection g3 with g3
    obtain ⟨vs, bs, g4, g5, g6, rfl⟩ := encodeElements_raw g2
    rw [arrayValidate_unsized] at g5
    obtain ⟨vs', g7, g8, _⟩ := sizedArrayValidate_ok.1 g5
    rw [g4] at g7
    injection g7 with g7
    subst g7
    have hseq := isSeqOf_iff.2 g4
    rw [pyLen_of hseq] at g0
    injection g0 with g0
    subst g0
    rw [encodeUint256_eq] at g1
    split at g1
    · next hl =>
      injection g1 with g1
      subst g1
      rw [← g3]
      exact .dynamic h1 i1 h2 hseq hl (itemsAs_of i2 g8 g6)
    · cases g1
  · rintro s k _ h4 h5 h6 ⟨h1, e, i1, i2⟩
    have hw := dims_one h4
    have hno : arrNumsOk [some k] = true := by simp [arrNumsOk, h5]
    have h6' := h6
    unfold PackedArray at h6'
    rw [List.append_assoc, List.append_assoc, ← List.append_assoc (t!"[")] at h6'
    have hs : s ++ t!"[" ++ natDigits k ++ t!"]" = s ++ (t!"[" ++ natDigits k ++ t!"]") := by
      simp only [List.append_assoc]
    refine ⟨by rw [hs]; exact (array_ask h1 hw hno).1, _,
      by rw [hs]; exact encoderIs_array h1 hw hno i1 h6' rfl, fun item v b _ hc => ?_⟩
    obtain ⟨vs, bs, g1, g2, g3, rfl⟩ := encodeElements_raw hc
    obtain ⟨vs', g4, g5, g6⟩ := sizedArrayValidate_ok.1 g2
    rw [g1] at g4
    injection g4 with g4
    subst g4
    exact .packedSized h1 i1 h4 h5 h6 (isSeqOf_iff.2 g1) (g6 k rfl) (itemsAs_of i2 g5 g3)
  · rintro s _ h2 ⟨h1, e, i1, i2⟩
    have hw : DerivesDims [none] t!"[]" := DerivesDims.dynamic DerivesDims.nil
    have hno : arrNumsOk [none] = true := rfl
    refine ⟨(array_ask h1 hw hno).1, _, encoderIs_array h1 hw hno i1 h2 rfl, fun item v b _ hc => ?_⟩
    obtain ⟨vs, bs, g1, g2, g3, rfl⟩ := encodeElements_raw hc
    obtain ⟨vs', g4, g5, g6⟩ := sizedArrayValidate_ok.1 g2
    rw [g1] at g4
    injection g4 with g4
    subst g4
    exact .packedDynamic h1 i1 h2 (isSeqOf_iff.2 g1) (itemsAs_of i2 g5 g3)
  · rintro s _ h2 ⟨ss, es, g1, g2, g3, g4⟩
    refine ⟨(tuple_ask g1 g2).1, _, encoderIs_tuple g1 g2 g3 h2, fun item v b _ hc => ?_⟩
    have hc : tupleEncode es v = .ok b := hc
    have hval : tupleValidate es v = .ok () := by
      simp only [tupleEncode, unit_bind_ok] at hc
      exact hc.1
    obtain ⟨vs, bs, i1, i2, i3, rfl⟩ := tupleEncode_raw hc
    simp only [tupleValidate, i1, i2, ne_eq, not_true_eq_false, if_false] at hval
    have := g4 vs bs i2 hval i3
    have hd : (mkTuple es).dyn = (elems es bs).any (·.1) := by
      rw [elems_dyn (by have := callAll_length i3 i2; omega)]; rfl
    rw [hd]
    exact .tuple this h2 (isSeqOf_iff.2 i1)
  · rintro s _ ⟨h1, e, h2, h3⟩
    refine ⟨[s], [e], .one, ?_, .cons h2 .nil, fun vs bs hl hv hc => ?_⟩
    · intro y hy; rw [List.mem_singleton.1 hy]; exact h1
    · match vs, hl with
      | [v], _ =>
        obtain ⟨b, bs', h4, h5, rfl⟩ := callAll_ok_cons hc
        simp only [tupleValidateItems, unit_bind_ok] at hv
        exact .one (h3 false v b (notRejected_of hv.1) h4)
  · rintro s s' _ _ ⟨h1, e, h2, h3⟩ ⟨ss, es, g1, g2, g3, g4⟩
    refine ⟨s :: ss, e :: es, .cons g1, ?_, .cons h2 g3, fun vs bs hl hv hc => ?_⟩
    · intro y hy
      rcases List.mem_cons.1 hy with rfl | hy
      · exact h1
      · exact g2 y hy
    · match vs, hl with
      | v :: vs, hl =>
        obtain ⟨b, bs', h4, h5, rfl⟩ := callAll_ok_cons hc
        simp only [tupleValidateItems, unit_bind_ok] at hv
        exact .cons (h3 false v b (notRejected_of hv.1) h4) (g4 vs bs' (by simpa using hl) hv.2 h5)

theorem builtFrom_lookup {g : Registry} {types : List TypeStr} (h : ∀ s ∈ types, BuiltFrom g s) :
    ∃ es n, (∀ f, n ≤ f → mapPyM (getEncoderFuel g.encoders f) types = .ok es) ∧
      ∀ vs bs, vs.length = es.length → tupleValidateItems vs es = .ok () → callAll es vs = .ok bs →
        ArgsAs g types vs (elems es bs) := by
  induction types with
  | nil =>
    refine ⟨[], 0, fun _ _ => rfl, fun vs bs hl _ _ => ?_⟩
    match vs, hl with
    | [], _ => exact .nil
  | cons s types ih =>
    obtain ⟨es, n, h1, h2⟩ := ih fun x hx => h x (by simp [hx])
    obtain ⟨_, e, ⟨m, h3⟩, h4⟩ := builtFrom_ok (h s (by simp))
    refine ⟨e :: es, max n m, fun f hf => ?_, fun vs bs hl hv hc => ?_⟩
    · have h5 := h3 f (by omega)
      simp only at h5
      simp only [mapPyM, h5, h1 f (by omega), ok_bind]
      rfl
    · match vs, hl with
      | v :: vs, hl =>
        obtain ⟨b, bs', h5, h6, rfl⟩ := callAll_ok_cons hc
        simp only [tupleValidateItems, unit_bind_ok] at hv
        exact .cons (h4 false v b (notRejected_of hv.1) h5) (h2 vs bs' (by simpa using hl) hv.2 h6)

theorem mapEncoder_mono {m : Mapping (Reg Encoder)} {f f' : Nat} (hf : f ≤ f') {types : List TypeStr}
    {es : List Encoder} (h : mapPyM (getEncoderFuel m f) types = .ok es) :
    mapPyM (getEncoderFuel m f') types = .ok es := by
  induction types generalizing es with
  | nil => exact h
  | cons s types ih =>
    simp only [mapPyM, bind_eq_ok] at h
    obtain ⟨e, h1, es', h2, h3⟩ := h
    have h4 := encoderFuel_mono m hf (s := s) (by rw [h1]; simp)
    simp only [mapPyM, h4, h1, ih h2, ok_bind]
    exact h3

theorem builtFrom_encodeAt {g : Registry} {types : List TypeStr} (h : ∀ s ∈ types, BuiltFrom g s)
    {args : PyVal} {f : Nat} {b : Bytes} (he : encodeAt g f types args = .ok b) :
    ∃ vs xs, IsListOf args vs ∧ ArgsAs g types vs xs ∧ b = layout xs := by
  obtain ⟨es, n, h1, h2⟩ := builtFrom_lookup h
  simp only [encodeAt, bind_eq_ok] at he
  obtain ⟨_, h3, es', h4, h5⟩ := he
  have h6 := mapEncoder_mono (Nat.le_max_left f n) h4
  rw [h1 _ (Nat.le_max_right f n)] at h6
  injection h6 with h6
  subst h6
  have h5 : tupleEncode es args = .ok b := h5
  have hval : tupleValidate es args = .ok () := by
    simp only [tupleEncode, unit_bind_ok] at h5
    exact h5.1
  obtain ⟨vs, bs, i1, i2, i3, rfl⟩ := tupleEncode_raw h5
  simp only [tupleValidate, i1, i2, ne_eq, not_true_eq_false, if_false] at hval
  refine ⟨vs, _, ?_, h2 vs bs i2 hval i3, rfl⟩
  cases isSeqOf_iff.2 i1 with
  | list => exact .list _
  | tuple => exact .tuple _
  | _ => cases h3

end EthAbi
