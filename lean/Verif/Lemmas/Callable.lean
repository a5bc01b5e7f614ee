import Verif.Lemmas.Built
import Verif.Lemmas.Layout
import Verif.Lemmas.CoderAttributes

/-! # Encoders and decoders that are plain callables -/
namespace EthAbi
open Spec
variable [Ext]

theorem encodesTo_lookup {g : Registry} {types : List TypeStr} {vs : List PyVal} {xs : List Elem}
    (h : EncodesTo g types vs xs) : ∃ es bs n, callAll es vs = .ok bs ∧ xs = elems es bs ∧
      vs.length = es.length ∧ tupleValidateItems vs es = .ok () ∧
      ∀ f, n ≤ f → mapPyM (getEncoderFuel g.encoders f) types = .ok es := by
  induction h with
  | nil => exact ⟨[], [], 0, rfl, rfl, rfl, rfl, fun _ _ => rfl⟩
  | @cons s v e b types vs xs h1 h2 h3 _ ih =>
    obtain ⟨es, bs, n, g1, g2, g3, g4, g5⟩ := ih
    obtain ⟨m, hm⟩ := h1
    refine ⟨e :: es, b :: bs, max n m, ?_, ?_, by simp [g3], ?_, fun f hf => ?_⟩
    · simp only [callAll, h2, g1, ok_bind]; rfl
    · rw [elems, g2, encoder_counts]
    · rw [tupleValidateItems, g4]
      have : validateOrCall e v = .ok () := by
        unfold validateOrCall
        rw [validation_eq] at h3
        rcases h3 with h3 | h3
        · rw [h3]
          simp only [h2, ok_bind]
          rfl
        · rw [h3]
      rw [this]
      rfl
    · have h1 := hm f (by omega)
      simp only at h1
      simp only [mapPyM, h1, g5 f (by omega), ok_bind]
      rfl

theorem encodesTo_ok {g : Registry} {types : List TypeStr} {args : PyVal} {vs : List PyVal} {xs : List Elem}
    (ha : IsListOf args vs) (h : EncodesTo g types vs xs) (hl : (layout xs).length < 2 ^ 256) :
    ∃ n, ∀ f, n ≤ f → encodeAt g f types args = .ok (layout xs) := by
  obtain ⟨es, bs, n, h1, rfl, h3, h4, h5⟩ := encodesTo_lookup h
  refine ⟨n, fun f hf => ?_⟩
  have ha' := isListOf_like ha
  have hv : tupleValidate es args = .ok () := by
    simp only [tupleValidate, ha', h3, ne_eq, not_true_eq_false, if_false, h4]
  simp only [encodeAt, asListLike_param (isListOf_iff.1 ha), h5 f hf, ok_bind]
  rcases tupleEncode_spec ha' hv h1 with h6 | ⟨_, _, _, h6⟩
  · exact h6
  · omega

/-- One argument whose encoder is a plain callable. -/
theorem callable_one {e : Encoder} (he : IsCallable e) (v : PyVal) {args : PyVal} (ha : IsListOf args [v]) :
    (mkTuple [e]).call args = e.call v := by
  have ha' := isListOf_like ha
  have hd : e.dyn = false := by simp [Encoder.dyn, he.1]
  show tupleEncode [e] args = _
  simp only [tupleEncode, tupleValidate, ha', List.length_cons, List.length_nil, ne_eq, not_true_eq_false,
    if_false, tupleValidateItems, validateOrCall, Encoder.validateValue, he.2]
  cases hc : e.call v with
  | error x => rfl
  | ok b =>
    simp only [ok_bind, pure_eq_ok, tupleChunks, hc, hd, Bool.false_eq_true, if_false]
    simp [tailOffsets, tupleHeadChunks, accumulateFrom]

/-- A callable has no coder for fixed-size arrays. -/
theorem callable_sized {e : Encoder} (he : IsCallable e) (k : Nat) :
    mkSizedArray k e = .error .attributeError := by
  simp only [mkSizedArray, he.1]

omit [Ext] in
theorem callable_arrayD {d : Decoder} (hd : d.isDynamic = none) (dim : Option Nat) :
    mkArrayD dim d = .error .attributeError := by
  cases dim <;> simp [mkArrayD, mkSizedArrayD, mkDynamicArrayD, wrapItem, hd]

/-- A non-empty list for a dynamic array of such items. -/
theorem callable_dynamic {e : Encoder} (he : IsCallable e) {v x : PyVal} {xs : List PyVal}
    (hv : IsSeqOf v (x :: xs)) (hl : (x :: xs).length < 2 ^ 256) {args : PyVal} (ha : IsListOf args [v]) :
    (mkTuple [mkDynamicArray e]).call args = .error .attributeError := by
  have ha' := isListOf_like ha
  have hv' := isSeqOf_iff.1 hv
  have hval : arrayValidate e v = .error .attributeError := by
    simp only [arrayValidate, hv', arrayValidateItems, Encoder.validateValue, he.2, error_bind]
  have hcall : (mkDynamicArray e).call v = .error .attributeError := by
    have hlen : pyLen v = .ok (x :: xs).length := by cases hv <;> rfl
    obtain ⟨b, hb⟩ : ∃ b, encodeUint256 (x :: xs).length = .ok b :=
      ⟨_, by rw [encodeUint256_eq, if_pos hl]⟩
    simp only [mkDynamicArray, hlen, ok_bind, hb, encodeElements, hval, error_bind]
  show tupleEncode [mkDynamicArray e] args = _
  have hv2 : (mkDynamicArray e).validateValue v = .error .attributeError := hval
  simp only [tupleEncode, tupleValidate, ha', List.length_cons, List.length_nil, ne_eq, not_true_eq_false,
    if_false, tupleValidateItems, validateOrCall, hv2, hcall, error_bind]

/-- The empty list is encoded. -/
theorem callable_dynamic_empty {e : Encoder} {v : PyVal} (hv : IsSeqOf v []) {args : PyVal}
    (ha : IsListOf args [v]) :
    (mkTuple [mkDynamicArray e]).call args = .ok (be32 32 ++ be32 0) := by
  have h32 : encodeUint256 32 = .ok (be32 32) := by rw [encodeUint256_eq, if_pos (by norm_num)]
  have h0 : encodeUint256 0 = .ok (be32 0) := by rw [encodeUint256_eq, if_pos (by norm_num)]
  have hv' := isSeqOf_iff.1 hv
  have hlen : pyLen v = .ok 0 := by cases hv <;> rfl
  have hval : arrayValidate e v = .ok () := by
    simp only [arrayValidate, hv', arrayValidateItems]
  have hcall : (mkDynamicArray e).call v = .ok (be32 0) := by
    simp [mkDynamicArray, hlen, ok_bind, h0, encodeElements, hval, hv', encodeAll]
  have hv2 : (mkDynamicArray e).validateValue v = .ok () := hval
  have hdyn : (mkDynamicArray e).dyn = true := rfl
  show tupleEncode [mkDynamicArray e] args = _
  simp only [tupleEncode, tupleValidate, isListOf_like ha, List.length_cons, List.length_nil, ne_eq,
    not_true_eq_false, if_false, tupleValidateItems, validateOrCall, hv2, ok_bind, tupleChunks, hcall, hdyn,
    if_true, pure_eq_ok]
  simp [tailOffsets, tupleHeadChunks, accumulateFrom, headLength, h32]

end EthAbi
