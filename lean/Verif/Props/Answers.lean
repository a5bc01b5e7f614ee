import Verif.Lemmas.Answers
import Verif.Props.Registrations

/-!
# C57: `is_encodable` and `encode`, whatever is registered

For every history of calls and every registry, with any encoders of the user: `is_encodable` answers for `encode`.
-/
namespace EthAbi
open Spec

/-- Values that were encoded are reported encodable. -/
theorem C57_encoded [Ext] (h : History) {r : Nat} {g : Registry} (hg : (Plain.run [] h)[r]? = some g) (fuel : Nat)
    (types : List TypeStr) (vs : List PyVal)
    (hne : ∀ s ∈ types, getEncoderFuel g.encoders fuel s ≠ .error .recursionError)
    {b : Bytes} (hb : ((World.empty.run h).encode fuel r types (.list vs)).1 = .ok b) :
    types.length = vs.length ∧
      ∀ p ∈ types.zip vs, ((World.empty.run h).isEncodable fuel r p.1 p.2).1 = .ok true := by
  rw [encode_outcome (has_of hg) hne] at hb
  obtain ⟨_, _, hb⟩ := bind_eq_ok.1 hb
  obtain ⟨es, hes, hb⟩ := bind_eq_ok.1 hb
  have hes := mapPyM_ok.1 hes
  obtain ⟨_, hv, _⟩ := bind_eq_ok.1 (show tupleEncode es (.list vs) = .ok b from hb)
  simp only [tupleValidate, asListLike?] at hv
  split at hv
  · rw [invalidate_eq] at hv; cases hv
  next hl =>
  have hl : vs.length = es.length := not_not.1 hl
  refine ⟨hes.length_eq.trans hl.symm, fun p hp => ?_⟩
  have hok := tupleItems_ok hv
  obtain ⟨i, hi, hpi⟩ := List.getElem_of_mem hp
  rw [List.length_zip] at hi
  rw [List.getElem_zip] at hpi
  have h1 : i < es.length := by omega
  have hget := List.forall₂_iff_get.1 hes
  have he := hget.2 i (by omega) h1
  simp only [List.get_eq_getElem] at he
  subst hpi
  simp only
  rw [isEncodable_complete fuel _ _ (has_of hg) (hne _ (List.getElem_mem _))]
  unfold isEncodableAt
  rw [he]
  refine hok (es[i], vs[i]) ?_
  rw [← List.getElem_zip (h := by simp; omega)]
  exact List.getElem_mem _

/-- A value that is reported not encodable is refused with an `EncodingError`, or its type has no encoder. -/
theorem C57_refused [Ext] (h : History) {r : Nat} {g : Registry} (hg : (Plain.run [] h)[r]? = some g) (fuel : Nat)
    (s : TypeStr) (v : PyVal) (hne : getEncoderFuel g.encoders fuel s ≠ .error .recursionError)
    (hf : ((World.empty.run h).isEncodable fuel r s v).1 = .ok false) :
    ∃ x, ((World.empty.run h).encode fuel r [s] (.list [v])).1 = .error x ∧
      (x.isEncodingError = true ∨ ((World.empty.run h).getEncoder fuel r s).1 = .error x) := by
  rw [isEncodable_complete fuel s v (has_of hg) hne] at hf
  have hgo := (C28_getEncoder h hg fuel s).2 hne
  rw [encode_outcome (has_of hg) (by simpa using hne), hgo]
  unfold isEncodableAt at hf
  unfold encodeAt
  simp only [validateListLikeParam, ok_bind, mapPyM]
  cases hge : getEncoderFuel g.encoders fuel s with
  | error x => exact ⟨x, rfl, Or.inr rfl⟩
  | ok e =>
    rw [hge] at hf
    simp only [encodableWith_eq] at hf
    cases hv : validateOrCall e v with
    | ok u => rw [hv] at hf; cases hf
    | error x =>
      rw [hv] at hf
      simp only at hf
      split at hf
      · next hx => exact ⟨x, (tupleCall_one e v).1 x hv, Or.inl hx⟩
      · cases hf

/-- What `is_encodable` raises, `encode` raises. -/
theorem C57_raised [Ext] (h : History) {r : Nat} {g : Registry} (hg : (Plain.run [] h)[r]? = some g) (fuel : Nat)
    (s : TypeStr) (v : PyVal) (hne : getEncoderFuel g.encoders fuel s ≠ .error .recursionError) {x : Exc}
    (hf : ((World.empty.run h).isEncodable fuel r s v).1 = .error x) :
    ((World.empty.run h).encode fuel r [s] (.list [v])).1 = .error x := by
  rw [isEncodable_complete fuel s v (has_of hg) hne] at hf
  rw [encode_outcome (has_of hg) (by simpa using hne)]
  unfold isEncodableAt at hf
  unfold encodeAt
  simp only [validateListLikeParam, ok_bind, mapPyM]
  cases hge : getEncoderFuel g.encoders fuel s with
  | error y =>
    rw [hge] at hf
    cases y <;> first | cases hf; done | (injection hf with hf; subst hf; rfl)
  | ok e =>
    rw [hge] at hf
    simp only [encodableWith_eq] at hf
    cases hv : validateOrCall e v with
    | ok u => rw [hv] at hf; cases hf
    | error y =>
      rw [hv] at hf
      simp only at hf
      split at hf
      · cases hf
      · injection hf with hf
        subst hf
        exact (tupleCall_one e v).1 y hv

/-- For a registered callable (it has no method to validate) the answer is exactly whether it encodes the value. -/
theorem C57_callable [Ext] (h : History) {r : Nat} {g : Registry} (hg : (Plain.run [] h)[r]? = some g) (fuel : Nat)
    (s : TypeStr) (v : PyVal) {e : Encoder} (he : OnlyMatch g.encoders s (.obj e)) (hc : e.validate = none) :
    let answer := ((World.empty.run h).isEncodable (fuel + 1) r s v).1
    let result := ((World.empty.run h).encode (fuel + 1) r [s] (.list [v])).1
    (answer = .ok true ↔ ∃ b, e.call v = .ok b) ∧
    (answer = .ok true ↔ ∃ b, result = .ok b) ∧
    (answer = .ok false ↔ ∃ x, e.call v = .error x ∧ x.isEncodingError = true) ∧
    (answer = .ok false ↔ ∃ x, result = .error x ∧ x.isEncodingError = true) ∧
    ∀ x, answer = .error x ↔ e.call v = .error x ∧ x.isEncodingError = false := by
  have hx : getEncoderFuel g.encoders (fuel + 1) s = .ok e := by
    rw [getEncoderFuel, (getRegistration_ok _ _ _).2 ((find_iff _ _ _).2 he)]
  have hne : getEncoderFuel g.encoders (fuel + 1) s ≠ .error .recursionError := by rw [hx]; simp
  intro answer result
  have ha : answer = isEncodableAt g (fuel + 1) s v := isEncodable_complete _ s v (has_of hg) hne
  have hr : result = encodeAt g (fuel + 1) [s] (.list [v]) := encode_outcome (has_of hg) (by simpa using hne)
  have hv : validateOrCall e v = do let _ ← e.call v; return () := by
    unfold validateOrCall Encoder.validateValue
    rw [hc]
  have hr : result = (mkTuple [e]).call (.list [v]) := by
    rw [hr]
    unfold encodeAt
    simp only [validateListLikeParam, ok_bind, mapPyM, hx]
    rfl
  have ha : answer = match validateOrCall e v with
      | .ok _ => .ok true
      | .error x => if x.isEncodingError then .ok false else .error x := by
    rw [ha]
    unfold isEncodableAt
    rw [hx]
    exact encodableWith_eq e v
  rw [hr, ha]
  obtain ⟨t1, t2, t3⟩ := tupleCall_one e v
  cases hcall : e.call v with
  | ok b =>
    have hu : validateOrCall e v = .ok () := by rw [hv, hcall]; rfl
    obtain ⟨b', hb'⟩ := t3 hu b hcall
    rw [hu, hb']
    simp
  | error x =>
    have hu : validateOrCall e v = .error x := by rw [hv, hcall]; rfl
    rw [hu, t1 x hu]
    cases hxe : x.isEncodingError
    · simp [hxe]
      try (rintro y rfl; exact hxe)
    · simp [hxe]
      try (rintro y rfl; exact hxe)

/-! ## Examples -/

/-- An encoder of the user for `foo`: integers below 10 in one byte, other integers are refused, and for other
values the callable raises a `TypeError`. -/
def Ex.small : Encoder := ⟨none, none, fun v => match v with
  | .int n => if n < 10 then .ok [UInt8.ofNat n.toNat] else .error .valueOutOfBounds
  | _ => .error .typeError⟩

def Ex.withSmall : History := [(9, .new), (9, .registerEncoder 0 (.str t!"foo" 0) (.obj Ex.small) none)]

example : letI := Ex.ext
    ∃ g, (Plain.run [] Ex.withSmall)[0]? = some g ∧ OnlyMatch g.encoders t!"foo" (.obj Ex.small) ∧
      Ex.small.validate = none ∧ getEncoderFuel g.encoders 9 t!"foo" ≠ .error .recursionError :=
  letI := Ex.ext
  ⟨_, rfl, ⟨[], _, [], rfl, rfl, by simp⟩, rfl, by
    rw [show getEncoderFuel _ 9 t!"foo" = .ok Ex.small from rfl]; simp⟩

example : letI := Ex.ext
    let w := World.empty.run Ex.withSmall
    (w.isEncodable 9 0 t!"foo" (.int 7)).1 = .ok true ∧ (w.encode 9 0 [t!"foo"] (.list [.int 7])).1 = .ok [7] ∧
    (w.isEncodable 9 0 t!"foo" (.int 17)).1 = .ok false ∧
    (w.encode 9 0 [t!"foo"] (.list [.int 17])).1 = .error .valueOutOfBounds ∧
    (w.isEncodable 9 0 t!"foo" (.list [])).1 = .error .typeError ∧
    (w.isEncodable 9 0 t!"bar" (.int 7)).1 = .ok false := by
  decide +kernel

end EthAbi
