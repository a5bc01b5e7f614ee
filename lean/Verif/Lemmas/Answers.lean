import Verif.Lemmas.Registered

/-! # `is_encodable` and `encode` validate in the same way -/
namespace EthAbi
open Spec

theorem encodableWith_eq (e : Encoder) (v : PyVal) :
    World.encodableWith e v = match validateOrCall e v with
      | .ok _ => .ok true
      | .error x => if x.isEncodingError then .ok false else .error x := by
  unfold World.encodableWith validateOrCall
  cases e.validateValue v with
  | ok u => rfl
  | error x => cases x <;> first | rfl | (cases e.call v <;> rfl)

theorem tupleItems_ok : ∀ {vs : List PyVal} {es : List Encoder}, tupleValidateItems vs es = .ok () →
    ∀ p ∈ es.zip vs, World.encodableWith p.1 p.2 = .ok true
  | [], es, _ => by simp
  | _ :: _, [], _ => by simp
  | v :: vs, e :: es, h => by
    rw [tupleValidateItems] at h
    obtain ⟨u, h1, h2⟩ := bind_eq_ok.1 h
    intro p hp
    rw [List.zip_cons_cons, List.mem_cons] at hp
    rcases hp with rfl | hp
    · rw [encodableWith_eq, h1]
    · exact tupleItems_ok h2 p hp

/-- Encoding one value with one encoder. -/
theorem tupleCall_one [Ext] (e : Encoder) (v : PyVal) :
    (∀ x, validateOrCall e v = .error x → (mkTuple [e]).call (.list [v]) = .error x) ∧
    (validateOrCall e v = .ok () → ∀ x, e.call v = .error x → (mkTuple [e]).call (.list [v]) = .error x) ∧
    (validateOrCall e v = .ok () → ∀ b, e.call v = .ok b → ∃ b', (mkTuple [e]).call (.list [v]) = .ok b') := by
  have hcall : (mkTuple [e]).call (.list [v]) = tupleEncode [e] (.list [v]) := rfl
  rw [hcall]
  have hv : tupleValidate [e] (.list [v]) = validateOrCall e v := by
    simp only [tupleValidate, asListLike?, List.length_singleton, ne_eq, not_true_eq_false, if_false,
      tupleValidateItems]
    cases validateOrCall e v <;> rfl
  refine ⟨fun x hx => ?_, fun hu x hx => ?_, fun hu b hb => ?_⟩
  · unfold tupleEncode; rw [hv, hx]; rfl
  · unfold tupleEncode
    rw [hv, hu]
    simp only [ok_bind, asListLike?, tupleChunks, hx, error_bind]
  · unfold tupleEncode
    rw [hv, hu]
    simp only [ok_bind, asListLike?, tupleChunks, hb]
    cases e.dyn
    · exact ⟨_, rfl⟩
    · exact ⟨_, rfl⟩

end EthAbi
