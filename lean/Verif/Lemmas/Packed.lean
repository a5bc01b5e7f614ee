import Verif.Lemmas.Accept
import Verif.Lemmas.Api

/-! # Packed encodings, part by part -/
namespace EthAbi
open Spec

theorem packed_one [Ext] {s : TypeStr} {t : Ty} (h : Supported s t) (v : PyVal) (c : Bytes) :
    encodePacked [s] (.list [v]) = .ok c ↔ (encOf true t).call v = .ok c := by
  rw [show encodePacked [s] (.list [v]) = (regBy true).encode [s] (.list [v]) from rfl,
    encode_one true h v]
  constructor
  · intro h'
    simp only [bind_eq_ok, dynBy] at h'
    obtain ⟨_, _, b, h1, h2⟩ := h'
    rw [h1, ← h2]; rfl
  · intro h'
    rw [(encOf_good true t (supported_valid h)).callVal v c h', ok_bind, h', ok_bind]
    rfl

theorem encsOf_static [Ext] {ts : List Ty} (hv : ∀ t ∈ ts, t.Valid) (bs : List Bytes) :
    ∀ a ∈ elems (encsOf true ts) bs, a.1 = false := by
  induction ts generalizing bs with
  | nil => intro a ha; simp [encsOf, elems] at ha
  | cons t ts ih =>
    cases bs with
    | nil => intro a ha; simp [encsOf, elems] at ha
    | cons b bs =>
      intro a ha
      simp only [encsOf, elems, List.mem_cons] at ha
      rcases ha with rfl | ha
      · exact (encOf_good true t (hv t (by simp))).dyn_eq
      · exact ih (fun t ht => hv t (by simp [ht])) bs a ha

theorem packed_callAll [Ext] {types : List TypeStr} {ts : List Ty} (hT : Names types ts)
    {vs : List PyVal} {bs : List Bytes} (hl : vs.length = (encsOf true ts).length)
    (h : callAll (encsOf true ts) vs = .ok bs) :
    types.length = vs.length ∧ bs.length = (encsOf true ts).length ∧ List.Forall₂
      (fun (p : TypeStr × PyVal) c => encodePacked [p.1] (.list [p.2]) = .ok c) (types.zip vs) bs := by
  induction hT generalizing vs bs with
  | nil =>
    cases vs with
    | nil => cases h; exact ⟨rfl, rfl, .nil⟩
    | cons _ _ => simp [encsOf] at hl
  | cons h1 _ ih =>
    cases vs with
    | nil => simp [encsOf] at hl
    | cons v vs =>
      simp only [encsOf] at h
      obtain ⟨c, cs, h3, h4, rfl⟩ := callAll_ok_cons h
      obtain ⟨h5, h6, h7⟩ := ih (by simpa [encsOf] using hl) h4
      exact ⟨by simp [h5], by simp [encsOf, h6], .cons ((packed_one h1 v c).2 h3) h7⟩

theorem packed_items [Ext] {s : TypeStr} {t : Ty} (h : Supported s t) {vs : List PyVal}
    {bs : List Bytes} (hc : callAll (vs.map fun _ => encOf true t) vs = .ok bs) :
    List.Forall₂ (fun v c => encodePacked [s] (.list [v]) = .ok c) vs bs := by
  induction vs generalizing bs with
  | nil => cases hc; exact .nil
  | cons v vs ih =>
    obtain ⟨c, cs, h1, h2, rfl⟩ := callAll_ok_cons hc
    exact .cons ((packed_one h v c).2 h1) (ih h2)

theorem packed_array [Ext] {s : TypeStr} {t : Ty} (h : Supported s t) {sz : Option Nat} {v : PyVal}
    {b : Bytes} (hb : (mkPackedArray sz (encOf true t)).call v = .ok b) :
    ∃ vs bs, IsSeqOf v vs ∧ (∀ k, sz = some k → vs.length = k) ∧
      List.Forall₂ (fun u c => encodePacked [s] (.list [u]) = .ok c) vs bs ∧ b = bs.flatten := by
  have hb' : encodeElements (sizedArrayValidate (encOf true t) sz) (encOf true t) v = .ok b := hb
  obtain ⟨vs, bs, h1, h2, h3, rfl⟩ := encodeElements_raw hb'
  obtain ⟨vs', h5, _, h6⟩ := sizedArrayValidate_ok.1 h2
  rw [h1] at h5
  cases h5
  have hl : bs.length = vs.length := by simpa using callAll_length h3 (by simp)
  refine ⟨vs, bs, isSeqOf_iff.2 h1, h6, packed_items h h3, ?_⟩
  rw [layout_static (elems_static ((encOf_good true t (supported_valid h)).dyn_eq) vs bs),
    elems_snd (by simpa using hl)]

end EthAbi
