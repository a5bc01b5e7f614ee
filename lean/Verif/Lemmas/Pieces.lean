import Verif.Lemmas.Accept
import Verif.Lemmas.Shadow
import Verif.Lemmas.Packed
import Verif.Spec.Pieces

/-! # Argument lists and single arguments -/
namespace EthAbi
open Spec

theorem single_iff [Ext] {s : TypeStr} {t : Ty} (h : Supported s t) (v : PyVal) (c : Bytes) :
    encode [s] (.list [v]) = .ok c ↔
      ∃ b, (encOf false t).call v = .ok b ∧ c = (if t.dynamic then be32 32 else []) ++ b := by
  have hg := encOf_good false t (supported_valid h)
  have h1 : encode [s] (.list [v]) = _ := encode_one false h v
  rw [h1]
  constructor
  · intro h
    obtain ⟨_, _, h⟩ := bind_eq_ok.1 h
    obtain ⟨b, h2, h3⟩ := bind_eq_ok.1 h
    cases h3
    exact ⟨b, h2, rfl⟩
  · rintro ⟨b, h2, rfl⟩
    rw [hg.callVal v b h2, h2]
    rfl

theorem piece_single (t : Ty) (b : Bytes) :
    piece t ((if t.dynamic then be32 32 else []) ++ b) = (t.dynamic, b) := by
  unfold piece
  cases t.dynamic
  · rfl
  · simp [be32]

/-- The encoders of the types, called one by one, and the single encodings. -/
theorem callAll_pieces [Ext] {types : List TypeStr} {ts : List Ty} (hT : Names types ts) {vs : List PyVal}
    {bs : List Bytes} (hl : types.length = vs.length) (h : callAll (encsOf false ts) vs = .ok bs) :
    ∃ cs, List.Forall₂ (fun (p : TypeStr × PyVal) c => encode [p.1] (.list [p.2]) = .ok c) (types.zip vs) cs ∧
      elems (encsOf false ts) bs = List.zipWith piece ts cs := by
  induction hT generalizing vs bs with
  | nil => cases vs <;> cases h <;> exact ⟨[], .nil, rfl⟩
  | @cons s t _ _ h1 _ ih =>
    cases vs with
    | nil => simp at hl
    | cons v vs =>
      simp only [encsOf] at h
      obtain ⟨b, bs, h3, h4, rfl⟩ := callAll_ok_cons h
      obtain ⟨cs, h5, h6⟩ := ih (by simpa using hl) h4
      refine ⟨_ :: cs, .cons ((single_iff h1 v _).2 ⟨b, h3, rfl⟩) h5, ?_⟩
      simp only [encsOf, elems, List.zipWith_cons_cons, h6, piece_single, (encOf_good false t (supported_valid h1)).dyn_eq]
      rfl

theorem pieces_callAll [Ext] {types : List TypeStr} {ts : List Ty} (hT : Names types ts) {vs : List PyVal}
    {cs : List Bytes} (hl : types.length = vs.length)
    (h : List.Forall₂ (fun (p : TypeStr × PyVal) c => encode [p.1] (.list [p.2]) = .ok c) (types.zip vs) cs) :
    ∃ bs, callAll (encsOf false ts) vs = .ok bs ∧ elems (encsOf false ts) bs = List.zipWith piece ts cs ∧
      tupleValidateItems vs (encsOf false ts) = .ok () := by
  induction hT generalizing vs cs with
  | nil =>
    cases vs with
    | nil => cases h; exact ⟨[], rfl, rfl, rfl⟩
    | cons _ _ => simp at hl
  | @cons s t _ _ h1 _ ih =>
    cases vs with
    | nil => simp at hl
    | cons v vs =>
      cases h with
      | @cons _ c _ cs h2 h3 =>
        obtain ⟨b, h4, rfl⟩ := (single_iff h1 v c).1 h2
        obtain ⟨bs, h5, h6, h7⟩ := ih (by simpa using hl) h3
        have hg := encOf_good false t (supported_valid h1)
        refine ⟨b :: bs, ?_, ?_, ?_⟩
        · simp only [encsOf, callAll, h4, h5, ok_bind, pure_eq_ok]
        · simp only [encsOf, elems, List.zipWith_cons_cons, h6, piece_single, hg.dyn_eq]
          rfl
        · simp only [encsOf, tupleValidateItems, hg.validateOrCall_eq, hg.callVal v b h4, ok_bind, h7]

theorem headSize_append (es fs : List Elem) : headSize (es ++ fs) = headSize es + headSize fs := by
  induction es with
  | nil => simp [headSize]
  | cons e es ih => obtain ⟨d, b⟩ := e; simp only [List.cons_append, headSize, ih]; omega

theorem tails_append (es fs : List Elem) : tails (es ++ fs) = tails es ++ tails fs := by
  induction es with
  | nil => rfl
  | cons e es ih => obtain ⟨d, b⟩ := e; simp only [List.cons_append, tails, ih, List.append_assoc]

theorem layout_append_length (es fs : List Elem) :
    (layout (es ++ fs)).length = (layout es).length + (layout fs).length := by
  simp only [layout_length, headSize_append, tails_append, List.length_append]
  omega

theorem heads_static {es : List Elem} (h : ∀ a ∈ es, a.1 = false) (fs : List Elem) (off : Nat) :
    heads off (es ++ fs) = layout es ++ heads off fs := by
  rw [layout_static h]
  induction es with
  | nil => rfl
  | cons e es ih =>
    obtain ⟨d, b⟩ := e
    have hd : d = false := h (d, b) (by simp)
    subst hd
    simp only [List.cons_append, heads, Bool.false_eq_true, if_false, List.map_cons, List.flatten_cons,
      List.append_assoc]
    rw [ih fun a ha => h a (by simp [ha])]

theorem tails_static {es : List Elem} (h : ∀ a ∈ es, a.1 = false) : tails es = [] := by
  induction es with
  | nil => rfl
  | cons e es ih =>
    obtain ⟨d, b⟩ := e
    have hd : d = false := h (d, b) (by simp)
    subst hd
    simp only [tails, Bool.false_eq_true, if_false, List.nil_append]
    exact ih fun a ha => h a (by simp [ha])

theorem pieces_static {ts : List Ty} (hs : ∀ t ∈ ts, t.dynamic = false) (cs : List Bytes) :
    ∀ a ∈ List.zipWith piece ts cs, a.1 = false := by
  induction ts generalizing cs with
  | nil => intro a ha; simp at ha
  | cons t ts ih =>
    cases cs with
    | nil => intro a ha; simp at ha
    | cons c cs =>
      intro a ha
      rw [List.zipWith_cons_cons, List.mem_cons] at ha
      rcases ha with rfl | ha
      · exact hs t (by simp)
      · exact ih (fun t ht => hs t (by simp [ht])) cs a ha

theorem forall₂_append_split {α β : Type} {R : α → β → Prop} {as bs : List α} {cs : List β}
    (h : List.Forall₂ R (as ++ bs) cs) :
    ∃ c1 c2, List.Forall₂ R as c1 ∧ List.Forall₂ R bs c2 ∧ cs = c1 ++ c2 := by
  induction as generalizing cs with
  | nil => exact ⟨[], cs, .nil, h, rfl⟩
  | cons a as ih =>
    cases h with
    | cons h1 h2 =>
      obtain ⟨c1, c2, h3, h4, rfl⟩ := ih h2
      exact ⟨_ :: c1, c2, .cons h1 h3, h4, rfl⟩

end EthAbi
