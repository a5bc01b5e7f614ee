import Verif.Lemmas.Shadow

/-! # What is accepted, and with which exceptions the rest is refused -/
namespace EthAbi
open Spec

/-! ## Accepted values hold no lone surrogates -/

theorem hexVal_ascii {c : CodePoint} (h : (hexVal c).isSome = true) : c.val < 0x80 := by
  unfold hexVal at h
  repeat' split at h
  all_goals first | omega | simp at h

theorem isHexAddress_utf8 {s : PyStr} (h : isHexAddress s = true) : (utf8Encode? s).isSome := by
  simp only [isHexAddress, Bool.and_eq_true, List.all_eq_true] at h
  refine utf8Encode_ascii ?_
  have h2 := h.2
  match s, h2 with
  | [], _ => simp
  | [c], h2 => intro d hd; exact hexVal_ascii (h2 d hd)
  | c :: d :: rest, h2 =>
    simp only [remove0x] at h2
    split at h2
    · next hcd =>
      intro e he
      simp only [List.mem_cons] at he
      rcases he with rfl | rfl | he
      · omega
      · omega
      · exact hexVal_ascii (h2 e he)
    · intro e he
      exact hexVal_ascii (h2 e he)

theorem noSurrogates_list {v : PyVal} {vs : List PyVal} (h : asListLike? v = some vs) :
    NoSurrogates v ↔ NoSurrogatesAll vs := by
  cases v <;> cases h <;> rfl

theorem leaf_noSurrogates [Ext] {pk : Bool} {t : Ty} (hv : t.Valid) (hl : t.isLeaf = true) {v : PyVal}
    {b : Bytes} (hb : (encOf pk t).call v = .ok b) : NoSurrogates v := by
  have hspec := call_spec pk t hv v b hb
  cases v with
  | str s =>
    obtain ⟨x, hx, _⟩ := hspec (by
      cases t <;> first | (cases hl; done) | simp [OnGrid, number?])
    cases t <;> first | (cases hl; done) | skip
    all_goals try (simp [denote, number?, asBytes?] at hx; done)
    case address =>
      simp only [denote, Option.map_eq_some_iff, address?] at hx
      obtain ⟨c, hc, _⟩ := hx
      split at hc
      · next h =>
        simp only [isAddress, asText?] at h
        split at h
        · next h' => exact isHexAddress_utf8 h'
        · cases h
      · cases hc
  | list vs =>
    exfalso
    obtain ⟨x, hx, _⟩ := hspec (by
      cases t <;> first | (cases hl; done) | simp [OnGrid, number?])
    cases t <;> first | (cases hl; done) | skip
    all_goals simp [denote, number?, asBytes?, address?] at hx
  | tuple vs =>
    exfalso
    obtain ⟨x, hx, _⟩ := hspec (by
      cases t <;> first | (cases hl; done) | simp [OnGrid, number?])
    cases t <;> first | (cases hl; done) | skip
    all_goals simp [denote, number?, asBytes?, address?] at hx
  | seq vs =>
    exfalso
    obtain ⟨x, hx, _⟩ := hspec (by
      cases t <;> first | (cases hl; done) | simp [OnGrid, number?])
    cases t <;> first | (cases hl; done) | skip
    all_goals simp [denote, number?, asBytes?, address?] at hx
  | _ => trivial

theorem callAll_noSurrogates {item : Encoder} (ih : ∀ v b, item.call v = .ok b → NoSurrogates v)
    {vs : List PyVal} {bs : List Bytes} (h : callAll (vs.map fun _ => item) vs = .ok bs) :
    ∀ v ∈ vs, NoSurrogates v := by
  induction vs generalizing bs with
  | nil => simp
  | cons v vs ih2 =>
    obtain ⟨b, bs', h1, h2, _⟩ := callAll_ok_cons h
    intro u hu
    rcases List.mem_cons.1 hu with rfl | hu
    · exact ih _ b h1
    · exact ih2 h2 u hu

theorem elements_noSurrogates [Ext] {validate : PyVal → PyM Unit} {item : Encoder}
    (ih : ∀ v b, item.call v = .ok b → NoSurrogates v) {v : PyVal} {b : Bytes}
    (h : encodeElements validate item v = .ok b) : NoSurrogates v := by
  obtain ⟨vs, bs, h1, _, h3, _⟩ := encodeElements_raw h
  rw [noSurrogates_list h1, noSurrogatesAll_iff]
  exact callAll_noSurrogates ih h3

theorem tuple_noSurrogates [Ext] {pk : Bool} {ts : List Ty}
    (ih : ∀ t ∈ ts, ∀ v b, (encOf pk t).call v = .ok b → NoSurrogates v) {v : PyVal} {b : Bytes}
    (h : (mkTuple (encsOf pk ts)).call v = .ok b) : NoSurrogates v := by
  obtain ⟨vs, bs, h1, h2, h3, h4⟩ := tupleEncode_raw (show tupleEncode (encsOf pk ts) v = .ok b from h)
  rw [noSurrogates_list h1]
  clear h h1 h4
  induction ts generalizing vs bs with
  | nil =>
    cases vs with
    | nil => trivial
    | cons u us => simp [encsOf] at h2
  | cons t ts ih2 =>
    cases vs with
    | nil => trivial
    | cons u us =>
      simp only [encsOf] at h3
      obtain ⟨c, cs, h4, h5, rfl⟩ := callAll_ok_cons h3
      exact ⟨ih t (by simp) u c h4,
        ih2 (fun t ht => ih t (by simp [ht])) us cs (by simpa [encsOf] using h2) h5⟩

theorem call_noSurrogates [Ext] (pk : Bool) (t : Ty) : t.Valid → ∀ v b,
    (encOf pk t).call v = .ok b → NoSurrogates v := by
  refine Spec.Ty.ind (P := fun t => t.Valid → ∀ v b, (encOf pk t).call v = .ok b → NoSurrogates v)
    ?_ ?_ ?_ ?_ ?_ ?_ ?_ ?_ ?_ ?_ ?_ ?_ t
  iterate 7
    intros
    rename_i hv v b hb
    exact leaf_noSurrogates hv rfl hb
  · intro hv v b hb
    have := (encOf_good pk .bytes hv).callVal v b hb
    have h' : byteStringValidate v = .ok () := by cases pk <;> exact this
    cases v <;> first | trivial | (simp [byteStringValidate, asBytes?, invalidate_eq] at h')
  · intro hv v b hb
    obtain ⟨x, hx, _⟩ := call_spec pk .string hv v b hb (by simp [OnGrid])
    cases v <;> first | trivial | skip
    · simp only [denote] at hx
      split at hx
      · next h => exact h
      · cases hx
    all_goals simp [denote] at hx
  · intro k t ih hv v b hb
    simp only [Ty.Valid] at hv
    cases pk
    · exact elements_noSurrogates (ih hv.2) (show
        encodeElements (sizedArrayValidate (encOf false t) (some k)) (encOf false t) v = .ok b from hb)
    · exact elements_noSurrogates (ih hv.2) (show
        encodeElements (sizedArrayValidate (encOf true t) (some k)) (encOf true t) v = .ok b from hb)
  · intro t ih hv v b hb
    simp only [Ty.Valid] at hv
    cases pk
    · have hb' : (mkDynamicArray (encOf false t)).call v = .ok b := hb
      simp only [mkDynamicArray, bind_eq_ok] at hb'
      obtain ⟨_, _, _, _, els, hels, _⟩ := hb'
      exact elements_noSurrogates (ih hv) hels
    · exact elements_noSurrogates (ih hv) (show
        encodeElements (sizedArrayValidate (encOf true t) none) (encOf true t) v = .ok b from hb)
  · intro ts ih hv v b hb
    simp only [Ty.Valid, Spec.Ty.allValid_iff] at hv
    exact tuple_noSurrogates (fun t ht => ih t ht (hv.2 t ht)) hb

/-! ## Packed and standard validation agree -/

theorem arrayItems_congr {e e' : Encoder} (h : ∀ v, e.validateValue v = e'.validateValue v)
    (vs : List PyVal) : arrayValidateItems e vs = arrayValidateItems e' vs := by
  induction vs with
  | nil => rfl
  | cons v vs ih => simp only [arrayValidateItems, h, ih]

theorem arrayValidate_congr [Ext] {e e' : Encoder} (h : ∀ v, e.validateValue v = e'.validateValue v)
    (v : PyVal) : arrayValidate e v = arrayValidate e' v := by
  unfold arrayValidate
  split
  · rfl
  · exact arrayItems_congr h _

theorem encsOf_length [Ext] (pk : Bool) (ts : List Ty) : (encsOf pk ts).length = ts.length := by
  induction ts with
  | nil => rfl
  | cons t ts ih => simp [encsOf, ih]

theorem tupleValidate_packed [Ext] {ts : List Ty} (hv : ∀ t ∈ ts, t.Valid)
    (ih : ∀ t ∈ ts, ∀ v, (encOf true t).validateValue v = (encOf false t).validateValue v) (v : PyVal) :
    tupleValidate (encsOf true ts) v = tupleValidate (encsOf false ts) v := by
  simp only [tupleValidate, encsOf_length]
  split
  · rfl
  · split
    · rfl
    · rename_i vs' _ _
      clear * - hv ih
      induction ts generalizing vs' with
      | nil => cases vs' <;> rfl
      | cons t ts ih2 =>
        cases vs' with
        | nil => rfl
        | cons u us =>
          simp only [encsOf, tupleValidateItems,
            (encOf_good true t (hv t (by simp))).validateOrCall_eq,
            (encOf_good false t (hv t (by simp))).validateOrCall_eq, ih t (by simp),
            ih2 (fun t ht => hv t (by simp [ht])) (fun t ht => ih t (by simp [ht]))]

theorem validate_packed [Ext] (t : Ty) : t.Valid → ∀ v,
    (encOf true t).validateValue v = (encOf false t).validateValue v := by
  refine Spec.Ty.ind (P := fun t => t.Valid → ∀ v,
    (encOf true t).validateValue v = (encOf false t).validateValue v)
    ?_ ?_ ?_ ?_ ?_ ?_ ?_ ?_ ?_ ?_ ?_ ?_ t
  iterate 9
    intros
    rfl
  · intro k t ih hv v
    simp only [Ty.Valid] at hv
    show sizedArrayValidate (encOf true t) (some k) v = sizedArrayValidate (encOf false t) (some k) v
    simp only [sizedArrayValidate, arrayValidate_congr (ih hv.2)]
  · intro t ih hv v
    simp only [Ty.Valid] at hv
    show sizedArrayValidate (encOf true t) none v = arrayValidate (encOf false t) v
    simp only [sizedArrayValidate, arrayValidate_congr (ih hv)]
    cases arrayValidate (encOf false t) v <;> rfl
  · intro ts ih hv v
    simp only [Ty.Valid, Spec.Ty.allValid_iff] at hv
    exact tupleValidate_packed hv.2 (fun t ht => ih t ht (hv.2 t ht)) v

/-! ## Acceptance -/

/-- A value is accepted if it is valid, has no lone surrogates and is not absurdly large. -/
theorem call_accepts [Ext] {pk : Bool} {t : Ty} (hv : t.Valid) {v : PyVal}
    (hval : (encOf pk t).validateValue v = .ok ()) (hs : NoSurrogates v)
    (hw : 128 * weight v < 2 ^ 256) : ∃ b, (encOf pk t).call v = .ok b := by
  rcases (encOf_good pk t hv).total v hval with ⟨b, hb, _⟩ | ⟨_, h⟩ | ⟨_, _, _, h⟩
  · exact ⟨b, hb⟩
  · exact absurd hs h
  · omega

/-- `encode` of one argument. -/
theorem encode_one [Ext] (pk : Bool) {s : TypeStr} {t : Ty} (h : Supported s t) (v : PyVal) :
    (regBy pk).encode [s] (.list [v]) =
      ((encOf pk t).validateValue v >>= fun _ => (encOf pk t).call v >>= fun b =>
        .ok ((if dynBy pk t then be32 32 else []) ++ b)) := by
  have hg := encOf_good pk t (supported_valid h)
  rw [encode_eq pk (.cons h .nil) (args := .list [v]) rfl]
  have hdyn := hg.dyn_eq
  generalize hE : encOf pk t = E at hdyn hg
  show tupleEncode [encOf pk t] (.list [v]) = _
  rw [hE]
  simp only [tupleEncode, tupleValidate, asListLike?, List.length_cons, List.length_nil,
    ne_eq, not_true_eq_false, if_false, tupleValidateItems, hg.validateOrCall_eq, tupleChunks]
  cases hval : E.validateValue v with
  | error er => rfl
  | ok u =>
    cases hcall : E.call v with
    | error er => rfl
    | ok b =>
      simp only [ok_bind, hdyn, pure_eq_ok]
      cases dynBy pk t
      · simp [headLength, tailOffsets, tupleHeadChunks]
      · simp [headLength, tailOffsets, tupleHeadChunks, encodeUint256_eq]

theorem isEncodableType_by [Ext] (pk : Bool) (s : TypeStr) :
    ((∃ t, Supported s t) ∧ (regBy pk).isEncodableType s = .ok true) ∨
    ((∀ t, ¬ Supported s t) ∧ (regBy pk).isEncodableType s = .ok false) := by
  rcases getEncoder_by pk s with ⟨t, h1, h2⟩ | ⟨h1, e, h2, h3⟩
  · exact Or.inl ⟨⟨t, h1⟩, by simp only [Registry.isEncodableType, hasEncoder, h2]⟩
  · refine Or.inr ⟨h1, ?_⟩
    rcases h3 with rfl | rfl | rfl | rfl | rfl <;>
      simp only [Registry.isEncodableType, hasEncoder, h2]

theorem isEncodable_supported [Ext] (pk : Bool) {s : TypeStr} {t : Ty} (h : Supported s t) (v : PyVal) :
    ((encOf pk t).validateValue v = .ok () ∧ (regBy pk).isEncodable s v = .ok true) ∨
    (∃ e, (encOf pk t).validateValue v = .error e ∧ e.isEncodingError = true ∧
      (regBy pk).isEncodable s v = .ok false) ∨
    ((encOf pk t).validateValue v = .error .valueError ∧ ¬ Printable v ∧
      (regBy pk).isEncodable s v = .error .valueError) ∨
    ((encOf pk t).validateValue v = .error .typeError ∧ HoldsOdd t v ∧
      (regBy pk).isEncodable s v = .error .typeError) := by
  have hg := encOf_good pk t (supported_valid h)
  have ht : (regBy pk).isEncodableType s = .ok true := by
    rcases isEncodableType_by pk s with ⟨_, h1⟩ | ⟨h1, _⟩
    · exact h1
    · exact absurd h (h1 t)
  have hdef : (regBy pk).isEncodable s v = match (encOf pk t).validateValue v with
      | .ok _ => .ok true
      | .error .attributeError =>
        match (encOf pk t).call v with
        | .ok _ => .ok true
        | .error e => if e.isEncodingError then .ok false else .error e
      | .error e => if e.isEncodingError then .ok false else .error e := by
    simp only [Registry.isEncodable, ht, ok_bind, getEncoder_supported pk h]
    rfl
  rw [hdef]
  cases hval : (encOf pk t).validateValue v with
  | ok u => exact Or.inl ⟨rfl, rfl⟩
  | error e =>
    rcases (hg.valErr v e hval).refusal (valid_bounds t (supported_valid h)) with (he | ⟨rfl, he⟩) | ⟨rfl, he⟩
    · refine Or.inr (Or.inl ⟨e, rfl, he, ?_⟩)
      cases e <;> first | rfl | (simp [Exc.isEncodingError] at he)
    · exact Or.inr (Or.inr (Or.inl ⟨rfl, he, rfl⟩))
    · exact Or.inr (Or.inr (Or.inr ⟨rfl, he, rfl⟩))

theorem isEncodable_unsupported [Ext] (pk : Bool) {s : TypeStr} (h : ∀ t, ¬ Supported s t)
    (v : PyVal) : (regBy pk).isEncodable s v = .ok false := by
  have ht : (regBy pk).isEncodableType s = .ok false := by
    rcases isEncodableType_by pk s with ⟨⟨t, h1⟩, _⟩ | ⟨_, h1⟩
    · exact absurd h1 (h t)
    · exact h1
  simp only [Registry.isEncodable, ht, ok_bind]
  rfl

theorem encode_unsupported [Ext] (pk : Bool) {types : List TypeStr} (h : ∀ ts, ¬ Names types ts)
    (args : PyVal) : ∃ e, (regBy pk).encode types args = .error e := by
  cases ha : listOrTuple? args with
  | none => exact ⟨_, by simp only [Registry.encode, asListLike_none ha, error_bind]; rfl⟩
  | some vs =>
    rcases supportedAll_or types with ⟨ts, hts⟩ | ⟨_, h2, _⟩
    · exact absurd hts (h ts)
    · obtain ⟨e, he, _⟩ := h2 pk
      exact ⟨e, by simp only [Registry.encode, asListLike_param ha, ok_bind, he, error_bind]⟩

end EthAbi
