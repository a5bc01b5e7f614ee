import Verif.Spec.Arrays
import Verif.Lemmas.TupleStr
import Verif.Lemmas.Compose

/-! # Arrays written as tuples: encoders -/
namespace EthAbi
open Spec

/-- Heads and tails of the elements. -/
def emit [Ext] (els : List Elem) : PyM Bytes :=
  tupleHeadChunks (headSize els) (els.map rawOf) (tailOffsets (els.map tailOf)) >>= fun hs =>
    .ok (hs ++ els.map tailOf).flatten

theorem tupleEncode_iff [Ext] {es : List Encoder} {v : PyVal} {b : Bytes} :
    tupleEncode es v = .ok b ↔ ∃ vs bs, asListLike? v = some vs ∧ tupleValidate es v = .ok () ∧
      callAll es vs = .ok bs ∧ emit (elems es bs) = .ok b := by
  simp only [tupleEncode, unit_bind_ok]
  cases hv : asListLike? v with
  | none => simp [throw_eq_error]
  | some vs =>
    simp only [Option.some.injEq, exists_and_left, exists_eq_left', tupleChunks_eq]
    constructor
    · rintro ⟨h1, h2⟩
      refine ⟨h1, ?_⟩
      cases hc : callAll es vs with
      | error e => rw [hc] at h2; cases h2
      | ok bs =>
        rw [hc] at h2
        simp only [ok_bind, headLength_eq] at h2
        exact ⟨bs, rfl, h2⟩
    · rintro ⟨h1, bs, h2, h3⟩
      refine ⟨h1, ?_⟩
      rw [h2]
      simp only [ok_bind, headLength_eq]
      exact h3

theorem emit_static [Ext] {els : List Elem} (h : ∀ a ∈ els, a.1 = false) :
    emit els = .ok (els.map (·.2)).flatten := by
  rcases (show els = [] ∨ els ≠ [] from em _) with h0 | h0
  · subst h0; rfl
  · have key : ∀ (els : List Elem) (a H : Nat), (∀ x ∈ els, x.1 = false) →
        tupleHeadChunks H (els.map rawOf) (offsetsFrom a (els.map tailOf)) = .ok (els.map (·.2)) := by
      intro els
      induction els with
      | nil => intro a H _; rfl
      | cons x els ih =>
        intro a H hx
        obtain ⟨d, b⟩ := x
        have hd : d = false := hx (d, b) List.mem_cons_self
        subst hd
        simp only [List.map_cons, rawOf, tailOf, Bool.false_eq_true, if_false, offsetsFrom, tupleHeadChunks,
          ok_bind]
        rw [ih _ _ fun y hy => hx y (List.mem_cons_of_mem _ hy)]
        rfl
    unfold emit
    rw [tailOffsets_eq (by simpa using h0), key els 0 _ h, ok_bind, List.flatten_append]
    have : (els.map tailOf).flatten = [] := by
      rw [List.flatten_eq_nil_iff]
      intro l hl
      obtain ⟨a, ha, rfl⟩ := List.mem_map.1 hl
      simp [tailOf, h a ha]
    rw [this, List.append_nil]

theorem encodeElements_iff [Ext] {validate : PyVal → PyM Unit} {item : Encoder} {v : PyVal} {b : Bytes} :
    encodeElements validate item v = .ok b ↔ ∃ vs bs, asListLike? v = some vs ∧ validate v = .ok () ∧
      callAll (vs.map fun _ => item) vs = .ok bs ∧ emit (elems (vs.map fun _ => item) bs) = .ok b := by
  simp only [encodeElements, unit_bind_ok]
  cases hv : asListLike? v with
  | none => simp [throw_eq_error]
  | some vs =>
    simp only [Option.some.injEq, exists_and_left, exists_eq_left', encodeAll_eq]
    refine and_congr_right fun _ => ?_
    cases hc : callAll (vs.map fun _ => item) vs with
    | error e => simp [error_bind]
    | ok bs =>
      have hl := callAll_length hc (by simp)
      have hl' : bs.length = vs.length := by simpa using hl
      simp only [ok_bind, Except.ok.injEq, exists_eq_left']
      cases hd : item.dyn with
      | false =>
        rw [emit_static (elems_static hd vs bs), elems_snd hl]
        simp only [Bool.not_false, Bool.true_or, if_true, pure_eq_ok]
      | true =>
        cases vs with
        | nil =>
          cases bs with
          | nil => exact Iff.rfl
          | cons b bs => simp at hl
        | cons u us =>
          obtain ⟨h1, h2⟩ := elems_dynamic hd (u :: us) bs hl'
          simp only [Bool.not_true, Bool.false_or, List.length_cons]
          rw [if_neg (by simp)]
          rw [tailOffsets_eq (by intro h0; subst h0; simp at hl'), arrayHeadChunks_eq _ item hd _ _ hl']
          have hH : 32 * (us.length + 1) = headSize (elems ((u :: us).map fun _ => item) bs) := by
            rw [h1]; rfl
          rw [hH]
          unfold emit
          rw [tailOffsets_eq (by rw [h2]; intro h0; subst h0; simp at hl'), h2]
          exact Iff.rfl

/-- Two encoder objects accept the same values, with the same bytes. -/
structure SameOk (e e' : Encoder) : Prop where
  dyn : e.dyn = e'.dyn
  val : ∀ v, e.validateValue v = .ok () ↔ e'.validateValue v = .ok ()
  vc : ∀ v, validateOrCall e v = e.validateValue v
  vc' : ∀ v, validateOrCall e' v = e'.validateValue v
  call : ∀ v b, e.call v = .ok b ↔ e'.call v = .ok b

/-- The same for lists of encoder objects. -/
inductive SameOks : List Encoder → List Encoder → Prop where
  | nil : SameOks [] []
  | cons {e e' : Encoder} {es es' : List Encoder} : SameOk e e' → SameOks es es' →
      SameOks (e :: es) (e' :: es')

theorem SameOks.length {es es' : List Encoder} (h : SameOks es es') : es.length = es'.length := by
  induction h with
  | nil => rfl
  | cons _ _ ih => simp [ih]

theorem SameOks.items {es es' : List Encoder} (h : SameOks es es') (vs : List PyVal) :
    tupleValidateItems vs es = .ok () ↔ tupleValidateItems vs es' = .ok () := by
  induction h generalizing vs with
  | nil => cases vs <;> exact Iff.rfl
  | cons h1 _ ih =>
    cases vs with
    | nil => exact Iff.rfl
    | cons v vs =>
      simp only [tupleValidateItems, unit_bind_ok, h1.vc, h1.vc', h1.val v, ih vs]

theorem SameOks.validate [Ext] {es es' : List Encoder} (h : SameOks es es') (v : PyVal) :
    tupleValidate es v = .ok () ↔ tupleValidate es' v = .ok () := by
  unfold tupleValidate
  cases asListLike? v with
  | none => exact Iff.rfl
  | some vs =>
    simp only [h.length]
    split
    · exact Iff.rfl
    · exact h.items vs

theorem SameOks.calls {es es' : List Encoder} (h : SameOks es es') (vs : List PyVal) (bs : List Bytes) :
    callAll es vs = .ok bs ↔ callAll es' vs = .ok bs := by
  induction h generalizing vs bs with
  | nil => cases vs <;> exact Iff.rfl
  | cons h1 _ ih =>
    cases vs with
    | nil => exact Iff.rfl
    | cons v vs => simp only [callAll, bind_eq_ok, h1.call v, ih vs]

theorem SameOks.elems {es es' : List Encoder} (h : SameOks es es') (bs : List Bytes) :
    EthAbi.elems es bs = EthAbi.elems es' bs := by
  induction h generalizing bs with
  | nil => cases bs <;> rfl
  | cons h1 _ ih =>
    cases bs with
    | nil => rfl
    | cons b bs => simp only [EthAbi.elems, h1.dyn, ih bs]

theorem SameOks.any {es es' : List Encoder} (h : SameOks es es') :
    es.any (·.dyn) = es'.any (·.dyn) := by
  induction h with
  | nil => rfl
  | cons h1 _ ih => simp only [List.any_cons, h1.dyn, ih]

theorem SameOks.encode [Ext] {es es' : List Encoder} (h : SameOks es es') (v : PyVal) (b : Bytes) :
    tupleEncode es v = .ok b ↔ tupleEncode es' v = .ok b := by
  simp only [tupleEncode_iff, h.validate v, h.calls, h.elems]

theorem SameOk.replicate {e e' : Encoder} (h : SameOk e e') : ∀ n, SameOks (List.replicate n e) (List.replicate n e')
  | 0 => .nil
  | n + 1 => .cons h (SameOk.replicate h n)

theorem map_const {α β : Type} (x : β) (l : List α) : (l.map fun _ => x) = List.replicate l.length x := by
  induction l with
  | nil => rfl
  | cons a l ih => simp [ih, List.replicate_succ]

/-- The loop of a tuple of equal encoders. -/
theorem items_replicate {e : Encoder} (hvc : ∀ v, validateOrCall e v = e.validateValue v) (vs : List PyVal) :
    tupleValidateItems vs (List.replicate vs.length e) = .ok () ↔ ∀ u ∈ vs, e.validateValue u = .ok () := by
  induction vs with
  | nil => simp [tupleValidateItems]
  | cons v vs ih =>
    simp only [List.length_cons, List.replicate_succ, tupleValidateItems, unit_bind_ok, hvc, ih,
      List.forall_mem_cons]

theorem unroll_validate [Ext] {e e' : Encoder} (h : SameOk e e') (k : Nat) (v : PyVal) :
    sizedArrayValidate e (some k) v = .ok () ↔ tupleValidate (List.replicate k e') v = .ok () := by
  rw [sizedArrayValidate_ok]
  unfold tupleValidate
  cases asListLike? v with
  | none => simp [invalidate_eq]
  | some vs =>
    simp only [Option.some.injEq, exists_eq_left', List.length_replicate, forall_eq']
    by_cases hk : vs.length = k
    · subst hk
      rw [if_neg (by simp), items_replicate h.vc']
      simp only [and_true]
      exact forall₂_congr fun u _ => h.val u
    · rw [if_pos hk]
      simp [hk, invalidate_eq]

theorem unroll_call [Ext] {e e' : Encoder} (h : SameOk e e') (k : Nat) (v : PyVal) (b : Bytes) :
    encodeElements (sizedArrayValidate e (some k)) e v = .ok b ↔
      tupleEncode (List.replicate k e') v = .ok b := by
  rw [encodeElements_iff, tupleEncode_iff]
  refine exists_congr fun vs => exists_congr fun bs => ?_
  constructor
  · rintro ⟨h1, h2, h3, h4⟩
    obtain ⟨vs', h1', _, hk⟩ := sizedArrayValidate_ok.1 h2
    rw [h1] at h1'
    injection h1' with h1'; subst h1'
    have hk := hk k rfl
    rw [map_const, hk] at h3 h4
    exact ⟨h1, (unroll_validate h k v).1 h2, ((h.replicate k).calls vs bs).1 h3,
      by rw [← (h.replicate k).elems]; exact h4⟩
  · rintro ⟨h1, h2, h3, h4⟩
    have h2 := (unroll_validate h k v).2 h2
    obtain ⟨vs', h1', _, hk⟩ := sizedArrayValidate_ok.1 h2
    rw [h1] at h1'
    injection h1' with h1'; subst h1'
    have hk := hk k rfl
    refine ⟨h1, h2, ?_, ?_⟩
    · rw [map_const, hk]; exact ((h.replicate k).calls vs bs).2 h3
    · rw [map_const, hk, (h.replicate k).elems]; exact h4

theorem sized_same [Ext] {e e' : Encoder} (h : SameOk e e') (sz : Option Nat) (v : PyVal) :
    (sizedArrayValidate e sz v = .ok () ↔ sizedArrayValidate e' sz v = .ok ()) ∧
    ∀ b, encodeElements (sizedArrayValidate e sz) e v = .ok b ↔
      encodeElements (sizedArrayValidate e' sz) e' v = .ok b := by
  have h1 : sizedArrayValidate e sz v = .ok () ↔ sizedArrayValidate e' sz v = .ok () := by
    simp only [sizedArrayValidate_ok, h.val]
  refine ⟨h1, fun b => ?_⟩
  simp only [encodeElements_iff, h1, map_const, (h.replicate _).calls, (h.replicate _).elems]

theorem array_same [Ext] {e e' : Encoder} (h : SameOk e e') (v : PyVal) :
    (arrayValidate e v = .ok () ↔ arrayValidate e' v = .ok ()) ∧
    ∀ b, encodeElements (arrayValidate e) e v = .ok b ↔ encodeElements (arrayValidate e') e' v = .ok b := by
  have h1 : arrayValidate e v = .ok () ↔ arrayValidate e' v = .ok () := by
    simp only [arrayValidate_ok, h.val]
  refine ⟨h1, fun b => ?_⟩
  simp only [encodeElements_iff, h1, map_const, (h.replicate _).calls, (h.replicate _).elems]

theorem replicate_any {e : Encoder} {k : Nat} (hk : 0 < k) :
    (List.replicate k e).any (·.dyn) = e.dyn := by
  cases k with
  | zero => omega
  | succ k =>
    rw [List.replicate_succ, List.any_cons]
    cases hd : e.dyn with
    | true => rfl
    | false => simp [List.any_replicate, hd]

theorem encsOf_replicate [Ext] (pk : Bool) (k : Nat) (t : Ty) :
    encsOf pk (List.replicate k t) = List.replicate k (encOf pk t) := by
  rw [encsOf_map, List.map_replicate]

mutual
theorem unrolled_valid {t t' : Ty} (h : Unrolled t t') (hv : t.Valid) : t'.Valid := by
  cases h with
  | refl => exact hv
  | unroll k h =>
    obtain ⟨h1, h2⟩ := hv
    refine ⟨by intro h0; simp at h0; omega, Ty.allValid_iff.2 fun u hu => ?_⟩
    rw [(List.mem_replicate.1 hu).2]
    exact unrolled_valid h h2
  | sized k h => exact ⟨hv.1, unrolled_valid h hv.2⟩
  | @dyn t t' h =>
    have hv : t.Valid := hv
    exact (unrolled_valid h hv : t'.Valid)
  | tuple h =>
    refine ⟨?_, unrolledAll_valid h hv.2⟩
    intro h0
    subst h0
    cases h
    exact hv.1 rfl
theorem unrolledAll_valid {ts ts' : List Ty} (h : UnrolledAll ts ts') (hv : Ty.AllValid ts) :
    Ty.AllValid ts' := by
  cases h with
  | nil => exact hv
  | cons h1 h2 => exact ⟨unrolled_valid h1 hv.1, unrolledAll_valid h2 hv.2⟩
end

theorem sameOk_of [Ext] {pk : Bool} {t t' : Ty} (hv : t.Valid) (hv' : t'.Valid)
    (hd : (encOf pk t).dyn = (encOf pk t').dyn)
    (h1 : ∀ v, (encOf pk t).validateValue v = .ok () ↔ (encOf pk t').validateValue v = .ok ())
    (h2 : ∀ v b, (encOf pk t).call v = .ok b ↔ (encOf pk t').call v = .ok b) :
    SameOk (encOf pk t) (encOf pk t') :=
  ⟨hd, h1, (encOf_good pk t hv).validateOrCall_eq, (encOf_good pk t' hv').validateOrCall_eq, h2⟩

mutual
theorem unrolled_same [Ext] (pk : Bool) {t t' : Ty} (h : Unrolled t t') (hv : t.Valid) :
    SameOk (encOf pk t) (encOf pk t') := by
  have hv' := unrolled_valid h hv
  cases h with
  | refl => exact sameOk_of hv hv rfl (fun _ => Iff.rfl) fun _ _ => Iff.rfl
  | @unroll t t' k h =>
    have ih := unrolled_same pk h hv.2
    refine sameOk_of hv hv' ?_ ?_ ?_
    · show _ = (mkTuple (encsOf pk (List.replicate k t'))).dyn
      rw [encsOf_replicate]
      show _ = (List.replicate k (encOf pk t')).any (·.dyn)
      rw [replicate_any hv.1, ← ih.dyn]
      cases pk with
      | false => rfl
      | true =>
        have := (encOf_good true t hv.2).isDyn
        show false = (encOf true t).dyn
        simp [Encoder.dyn, this, dynBy]
    · intro v
      show _ ↔ tupleValidate (encsOf pk (List.replicate k t')) v = .ok ()
      rw [encsOf_replicate, ← unroll_validate ih k v]
      cases pk <;> exact Iff.rfl
    · intro v b
      show _ ↔ tupleEncode (encsOf pk (List.replicate k t')) v = .ok b
      rw [encsOf_replicate, ← unroll_call ih k v b]
      cases pk <;> exact Iff.rfl
  | @sized t t' k h =>
    have ih := unrolled_same pk h hv.2
    refine sameOk_of hv hv' ?_ ?_ ?_
    · cases pk with
      | false => exact ih.dyn
      | true => rfl
    · intro v
      cases pk <;> exact (sized_same ih (some k) v).1
    · intro v b
      cases pk <;> exact (sized_same ih (some k) v).2 b
  | @dyn t t' h =>
    have ih := unrolled_same pk h hv
    refine sameOk_of hv hv' ?_ ?_ ?_
    · cases pk <;> rfl
    · intro v
      cases pk with
      | false => exact (array_same ih v).1
      | true => exact (sized_same ih none v).1
    · intro v b
      cases pk with
      | false =>
        show (mkDynamicArray (encOf false t)).call v = .ok b ↔ (mkDynamicArray (encOf false t')).call v = .ok b
        simp only [mkDynamicArray, bind_eq_ok, (array_same ih v).2]
      | true => exact (sized_same ih none v).2 b
  | @tuple ts ts' h =>
    have ih := unrolledAll_same pk h hv.2
    exact sameOk_of hv hv' (ih.any) (ih.validate) (ih.encode)
theorem unrolledAll_same [Ext] (pk : Bool) {ts ts' : List Ty} (h : UnrolledAll ts ts') (hv : Ty.AllValid ts) :
    SameOks (encsOf pk ts) (encsOf pk ts') := by
  cases h with
  | nil => exact .nil
  | cons h1 h2 => exact .cons (unrolled_same pk h1 hv.1) (unrolledAll_same pk h2 hv.2)
end

end EthAbi
