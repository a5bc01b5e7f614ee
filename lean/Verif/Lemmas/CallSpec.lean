import Verif.Lemmas.Encode
import Verif.Lemmas.LeafDec

/-! # What a successful call of an encoder object says about its argument -/
namespace EthAbi
open Spec

theorem callAll_ok_cons {e : Encoder} {es : List Encoder} {v : PyVal} {vs : List PyVal}
    {bs : List Bytes} (h : callAll (e :: es) (v :: vs) = .ok bs) :
    ∃ b bs', e.call v = .ok b ∧ callAll es vs = .ok bs' ∧ bs = b :: bs' := by
  simp only [callAll, bind_eq_ok] at h
  obtain ⟨b, h1, bs', h2, h3⟩ := h
  injection h3 with h3
  exact ⟨b, bs', h1, h2, h3.symm⟩

/-- The items of an array, each of which was encoded. -/
theorem callAll_items [Ext] {t : Ty} {item : Encoder} {f : Val → Bytes}
    (h : ∀ v b, item.call v = .ok b → OnGrid t v → ∃ x, denote t v = some x ∧ b = f x)
    {vs : List PyVal} {bs : List Bytes} (hc : callAll (vs.map fun _ => item) vs = .ok bs)
    (hg : ∀ u ∈ vs, OnGrid t u) :
    ∃ xs, List.Forall₂ (fun v x => denote t v = some x) vs xs ∧ bs = xs.map f := by
  induction vs generalizing bs with
  | nil => cases hc; exact ⟨[], .nil, rfl⟩
  | cons v vs ih =>
    obtain ⟨b, bs', h1, h2, rfl⟩ := callAll_ok_cons hc
    obtain ⟨x, hx, rfl⟩ := h v b h1 (hg v (by simp))
    obtain ⟨xs, hxs, rfl⟩ := ih h2 (fun u hu => hg u (by simp [hu]))
    exact ⟨x :: xs, .cons hx hxs, rfl⟩

theorem encodeElements_call [Ext] {t : Ty} {item : Encoder} {dy : Bool} {f : Val → Bytes}
    (h : EncBase t item dy f)
    (hs : ∀ v b, item.call v = .ok b → OnGrid t v → ∃ x, denote t v = some x ∧ b = f x)
    {validate : PyVal → PyM Unit} {v : PyVal} {b : Bytes}
    (hc : encodeElements validate item v = .ok b)
    (hg : ∀ vs, asListLike? v = some vs → ∀ u ∈ vs, OnGrid t u) :
    ∃ vs xs, asListLike? v = some vs ∧ List.Forall₂ (fun v x => denote t v = some x) vs xs ∧
      validate v = .ok () ∧ b = layout (xs.map fun x => (dy, f x)) := by
  have hval := encodeElements_val hc
  cases hv : asListLike? v with
  | none =>
    simp only [encodeElements, hval, hv, ok_bind] at hc
    cases hc
  | some vs =>
    rcases ok_or_error (callAll (vs.map fun _ => item) vs) with ⟨bs, hbs⟩ | ⟨er, her⟩
    · obtain ⟨xs, hxs, rfl⟩ := callAll_items hs hbs (hg vs hv)
      have he := elems_map (item := item) (f := f) hxs.length_eq
      rw [h.dyn_eq] at he
      refine ⟨vs, xs, rfl, hxs, hval, ?_⟩
      rcases encodeElements_spec hv hval hbs with h3 | ⟨_, h3, _⟩
      · rw [hc, he] at h3
        injection h3
      · rw [hc] at h3; cases h3
    · simp only [encodeElements, hval, hv, ok_bind, encodeAll_eq, her, error_bind] at hc
      cases hc

theorem tuple_call [Ext] (pk : Bool) (ts : List Ty) (hv : ∀ t ∈ ts, t.Valid)
    (h : ∀ t ∈ ts, ∀ v b, (encOf pk t).call v = .ok b → OnGrid t v →
      ∃ x, denote t v = some x ∧ b = encBy pk t x) {v : PyVal} {b : Bytes}
    (hb : (mkTuple (encsOf pk ts)).call v = .ok b) (hg : OnGrid (.tuple ts) v) :
    ∃ vs xs, asListLike? v = some vs ∧ denoteAll ts vs = some xs ∧
      b = layout (elems (encsOf pk ts) (encBys pk ts xs)) := by
  have hgood := tuple_good pk ts (fun t ht => encOf_good pk t (hv t ht))
  have hval : tupleValidate (encsOf pk ts) v = .ok () := hgood.callVal v b hb
  have hb' : tupleEncode (encsOf pk ts) v = .ok b := hb
  simp only [OnGrid] at hg
  cases hl : asListLike? v with
  | none =>
    simp only [tupleValidate, hl, invalidate_eq] at hval
    cases hval
  | some vs =>
    have hlen : vs.length = ts.length := by
      simp only [tupleValidate, hl, invalidate_eq] at hval
      split at hval
      · cases hval
      · next h' =>
        have : (encsOf pk ts).length = ts.length := by
          clear * -
          induction ts with
          | nil => rfl
          | cons t ts ih => simp [encsOf, ih]
        omega
    rcases ok_or_error (callAll (encsOf pk ts) vs) with ⟨bs, hbs⟩ | ⟨er, her⟩
    · suffices ∃ xs, denoteAll ts vs = some xs ∧ bs = encBys pk ts xs by
        obtain ⟨xs, h1, rfl⟩ := this
        refine ⟨vs, xs, rfl, h1, ?_⟩
        rcases tupleEncode_spec hl hval hbs with h3 | ⟨_, h3, _⟩
        · rw [hb'] at h3
          injection h3
        · rw [hb'] at h3; cases h3
      replace hg := hg vs hl
      clear hb hb' hval hgood hl hv
      induction ts generalizing vs bs with
      | nil =>
        cases vs with
        | nil => cases hbs; exact ⟨[], rfl, rfl⟩
        | cons u us => simp at hlen
      | cons t ts ih =>
        cases vs with
        | nil => simp at hlen
        | cons u us =>
          simp only [encsOf] at hbs
          obtain ⟨c, cs, h1, h2, rfl⟩ := callAll_ok_cons hbs
          simp only [OnGridAll] at hg
          obtain ⟨x, hx, rfl⟩ := h t (by simp) u c h1 hg.1
          obtain ⟨xs, hxs, rfl⟩ := ih (fun t ht => h t (by simp [ht])) us (by simpa using hlen) cs h2 hg.2
          exact ⟨x :: xs, denoteAll_cons.2 ⟨x, xs, hx, hxs, rfl⟩, rfl⟩
    · simp only [tupleEncode, hval, hl, ok_bind, tupleChunks_eq, her, error_bind] at hb'
      cases hb'

theorem encBy_leaf_length [Ext] (pk : Bool) {t : Ty} (hl : t.isLeaf = true) (hv : t.Valid) {x : Val}
    (hx : Val.Of t x) : (encBy pk t x).length < 2 ^ 256 := by
  cases pk
  · have h := enc_length t hv x hx
    have hd : t.dynamic = false := by cases t <;> first | rfl | cases hl
    have hs : t.size = 32 := by cases t <;> first | rfl | cases hl
    simp only [encBy, Bool.false_eq_true, if_false, h.2.2 hd, hs]
    norm_num
  · have : (encPacked t x).length ≤ 32 := by
      cases t <;> first | cases hl | skip
      all_goals
        simp only [Ty.Valid, validBits] at hv
        cases x <;> try exact hx.elim
        simp only [Val.Of] at hx
        simp only [encPacked, beBytes_length]
        omega
    simp only [encBy, if_true]
    exact lt_of_le_of_lt this (by norm_num)

/-- A successful call: the argument denotes a value and the bytes are its encoding. -/
theorem call_spec [Ext] (pk : Bool) (t : Ty) : t.Valid → ∀ v b, (encOf pk t).call v = .ok b →
    OnGrid t v → ∃ x, denote t v = some x ∧ b = encBy pk t x := by
  have hleaf : ∀ t : Ty, t.isLeaf = true → t.Valid → ∀ v b, (encOf pk t).call v = .ok b →
      OnGrid t v → ∃ x, denote t v = some x ∧ b = encBy pk t x := by
    intro t hl hv v b hb hg
    have hgood := encOf_good pk t hv
    have hval := hgood.callVal v b hb
    have hcomp : ∃ x, denote t v = some x := by
      have hns : (∃ x, denote t v = some x) ∨ ∃ s, v = .str s := by
        cases v <;> first
          | exact Or.inr ⟨_, rfl⟩
          | (left; refine hgood.complete _ hval hg ?_; simp [NoSurrogates])
          | skip
        all_goals
          exfalso
          cases t <;> first | cases hl | skip
          all_goals
            simp [encOf, uintEnc, sintEnc, boolEnc, ufixedEnc, sfixedEnc, addressEnc, bytesMEnc,
              Encoder.validateValue, intValidate, boolValidate, fixedValidate, addressValidate,
              bytesMValidate, invalidate_eq, asBytes?, isNumber, isAddress, isBoolean, asText?] at hval
      rcases hns with h | ⟨s, rfl⟩
      · exact h
      · cases t <;> first | cases hl | skip
        all_goals
          first
          | (exfalso
             simp [encOf, uintEnc, sintEnc, boolEnc, ufixedEnc, sfixedEnc, addressEnc, bytesMEnc,
              Encoder.validateValue, intValidate, boolValidate, fixedValidate, addressValidate,
              bytesMValidate, invalidate_eq, asBytes?, isNumber, isBoolean] at hval
             done)
          | skip
        cases pk
        · exact (address_good (d := 32) (by omega)).complete _ hval trivial
        · exact (address_good (d := 20) (by omega)).complete _ hval trivial
    obtain ⟨x, hx⟩ := hcomp
    refine ⟨x, hx, ?_⟩
    have := hgood.enc v x hx (encBy_leaf_length pk hl hv (denote_of t v x hx))
    rw [hb] at this
    injection this
  refine Spec.Ty.ind (P := fun t => t.Valid → ∀ v b, (encOf pk t).call v = .ok b →
    OnGrid t v → ∃ x, denote t v = some x ∧ b = encBy pk t x) ?_ ?_ ?_ ?_ ?_ ?_ ?_ ?_ ?_ ?_ ?_ ?_ t
  · exact fun n => hleaf _ rfl
  · exact fun n => hleaf _ rfl
  · exact hleaf _ rfl
  · exact hleaf _ rfl
  · exact fun m n => hleaf _ rfl
  · exact fun m n => hleaf _ rfl
  · exact fun m => hleaf _ rfl
  · intro _ v b hb _
    cases pk
    · simp only [encOf, Bool.false_eq_true, if_false, byteStringEncoder, byteStringValidate,
        bytesEncodeFn, invalidate_eq] at hb
      cases ha : asBytes? v with
      | none => rw [ha] at hb; cases hb
      | some c =>
        rw [ha] at hb
        simp only [ok_bind, lengthPrefixed_eq] at hb
        split at hb
        · injection hb with hb
          exact ⟨.raw c, by simp [denote, ha], hb.symm⟩
        · cases hb
    · simp only [encOf, if_true, packedByteStringEncoder, byteStringValidate, bytesEncodeFn,
        invalidate_eq] at hb
      cases ha : asBytes? v with
      | none => rw [ha] at hb; cases hb
      | some c =>
        rw [ha] at hb
        injection hb with hb
        exact ⟨.raw c, by simp [denote, ha], hb.symm⟩
  · intro _ v b hb _
    have key : ∀ s, asText? v = some s → ∀ c, utf8Encode s = .ok c →
        utf8Encode? s = some c ∧ denote .string v = some (.text s) := by
      intro s hs c hc
      have := asText_eq hs
      subst this
      unfold utf8Encode at hc
      split at hc
      · next c' hc' =>
        injection hc with hc
        subst hc
        exact ⟨hc', by simp [denote, hc']⟩
      · cases hc
    cases pk
    · simp only [encOf, Bool.false_eq_true, if_false, textStringEncoder, textValidate,
        textEncodeFn, invalidate_eq] at hb
      cases ha : asText? v with
      | none => rw [ha] at hb; cases hb
      | some s =>
        rw [ha] at hb
        simp only [ok_bind, bind_eq_ok, lengthPrefixed_eq] at hb
        obtain ⟨c, hc, hb⟩ := hb
        obtain ⟨h1, h2⟩ := key s ha c hc
        split at hb
        · injection hb with hb
          exact ⟨.text s, h2, by rw [← hb]; simp [encBy, enc, h1]⟩
        · cases hb
    · simp only [encOf, if_true, packedTextStringEncoder, textValidate, textEncodeFn,
        invalidate_eq] at hb
      cases ha : asText? v with
      | none => rw [ha] at hb; cases hb
      | some s =>
        rw [ha] at hb
        simp only [ok_bind] at hb
        obtain ⟨h1, h2⟩ := key s ha b hb
        exact ⟨.text s, h2, by simp [encBy, encPacked, textBytes, h1]⟩
  · intro k t ih hv v b hb hg
    simp only [Ty.Valid] at hv
    have hgood := encOf_good pk t hv.2
    simp only [OnGrid] at hg
    have hb' : encodeElements (sizedArrayValidate (encOf pk t) (some k)) (encOf pk t) v = .ok b := by
      cases pk <;> exact hb
    obtain ⟨vs, xs, h1, h2, h3, rfl⟩ := encodeElements_call hgood.toEncBase (ih hv.2) hb' hg
    obtain ⟨vs', h4, _, h5⟩ := sizedArrayValidate_ok.1 h3
    rw [h1] at h4
    cases h4
    refine ⟨.seq xs, denote_sized.2 ⟨vs, xs, h1, h2, h5 k rfl, rfl⟩, ?_⟩
    cases pk
    · rfl
    · simp only [encBy, if_true, encPacked]
      rw [layout_static (by intro a ha; obtain ⟨_, _, rfl⟩ := List.mem_map.1 ha; rfl), List.map_map]
      rfl
  · intro t ih hv v b hb hg
    simp only [Ty.Valid] at hv
    have hgood := encOf_good pk t hv
    simp only [OnGrid] at hg
    cases pk
    · have hb' : (mkDynamicArray (encOf false t)).call v = .ok b := hb
      simp only [mkDynamicArray, bind_eq_ok] at hb'
      obtain ⟨len, hl, sz, hsz, els, hels, he⟩ := hb'
      obtain ⟨vs, xs, h1, h2, _, rfl⟩ := encodeElements_call hgood.toEncBase (ih hv) hels hg
      refine ⟨.seq xs, denote_dyn.2 ⟨vs, xs, h1, h2, rfl⟩, ?_⟩
      rw [(asListLike_weight h1).2.2] at hl
      injection hl with hl
      subst hl
      rw [encodeUint256_eq] at hsz
      split at hsz
      · injection hsz with hsz
        subst hsz
        injection he with he
        rw [← he, h2.length_eq]
        rfl
      · cases hsz
    · have hb' : encodeElements (sizedArrayValidate (encOf true t) none) (encOf true t) v = .ok b := hb
      obtain ⟨vs, xs, h1, h2, _, rfl⟩ := encodeElements_call hgood.toEncBase (ih hv) hb' hg
      refine ⟨.seq xs, denote_dyn.2 ⟨vs, xs, h1, h2, rfl⟩, ?_⟩
      simp only [encBy, if_true, encPacked]
      rw [layout_static (by intro a ha; obtain ⟨_, _, rfl⟩ := List.mem_map.1 ha; rfl), List.map_map]
      rfl
  · intro ts ih hv v b hb hg
    simp only [Ty.Valid, Spec.Ty.allValid_iff] at hv
    obtain ⟨vs, xs, h1, h2, rfl⟩ := tuple_call pk ts hv.2 (fun t ht => ih t ht (hv.2 t ht)) hb hg
    refine ⟨.seq xs, denote_tuple.2 ⟨vs, xs, h1, h2, rfl⟩, ?_⟩
    cases pk
    · simp only [elems_std ts _ (fun t ht => encOf_good false t (hv.2 t ht))]
      rfl
    · simp only [elems_packed ts _ (fun t ht => encOf_good true t (hv.2 t ht))]
      rfl

end EthAbi
