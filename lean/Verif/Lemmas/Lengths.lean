import Verif.Lemmas.Shadow
import Verif.Lemmas.Api
import Verif.Spec.Lengths

/-! # The lengths of encodings -/
namespace EthAbi
open Spec

theorem pointerWidth_eq (pk : Bool) (t : Ty) : pointerWidth pk t = if dynBy pk t then 32 else 0 := by
  cases pk
  · simp only [pointerWidth, dynBy]; rfl
  · rfl

/-- The sum of the slots. -/
def slotSum : List Elem → Nat
  | [] => 0
  | (d, b) :: es => (if d then 32 else 0) + b.length + slotSum es

theorem layout_slots (es : List Elem) : (layout es).length = slotSum es := by
  rw [layout_length]
  induction es with
  | nil => rfl
  | cons a es ih =>
    obtain ⟨d, b⟩ := a
    cases d <;> simp only [headSize, tails, slotSum, List.length_append, Bool.false_eq_true, if_false, if_true,
      List.length_nil] <;> omega

theorem padRight32_width (b : Bytes) : (padRight32 b).length = (b.length + 31) / 32 * 32 := by
  have := padRight32_len b
  omega

theorem takesItems_call [Ext] {pk : Bool} {t : Ty} (hv : t.Valid)
    (ih : ∀ v b, (encOf pk t).call v = .ok b → Takes pk t v b.length) {vs : List PyVal} {bs : List Bytes}
    (h : callAll (vs.map fun _ => encOf pk t) vs = .ok bs) :
    TakesItems pk t vs (slotSum (elems (vs.map fun _ => encOf pk t) bs)) := by
  induction vs generalizing bs with
  | nil => cases h; exact .nil t
  | cons u us ih2 =>
    obtain ⟨c, cs, h4, h5, rfl⟩ := callAll_ok_cons h
    simp only [List.map_cons, elems, slotSum, (encOf_good pk t hv).dyn_eq]
    rw [← pointerWidth_eq]
    exact .cons (ih u c h4) (ih2 h5)

theorem takesAll_call [Ext] {pk : Bool} {ts : List Ty} (hv : ∀ t ∈ ts, t.Valid)
    (ih : ∀ t ∈ ts, ∀ v b, (encOf pk t).call v = .ok b → Takes pk t v b.length) {v : PyVal} {b : Bytes}
    (hb : (mkTuple (encsOf pk ts)).call v = .ok b) : ∃ vs, IsSeqOf v vs ∧ TakesAll pk ts vs b.length := by
  obtain ⟨vs, bs, h1, h2, h3, rfl⟩ := tupleEncode_raw (show tupleEncode (encsOf pk ts) v = .ok b from hb)
  refine ⟨vs, isSeqOf_iff.2 h1, ?_⟩
  rw [layout_slots]
  clear hb h1
  induction ts generalizing vs bs with
  | nil =>
    cases vs with
    | nil => cases h3; exact .nil
    | cons u us => simp [encsOf] at h2
  | cons t ts ih2 =>
    cases vs with
    | nil => simp [encsOf] at h2
    | cons u us =>
      simp only [encsOf] at h3
      obtain ⟨c, cs, h4, h5, rfl⟩ := callAll_ok_cons h3
      simp only [encsOf, elems, slotSum, (encOf_good pk t (hv t (by simp))).dyn_eq]
      rw [← pointerWidth_eq]
      exact .cons (ih t (by simp) u c h4) (ih2 (fun t ht => hv t (by simp [ht]))
        (fun t ht => ih t (by simp [ht])) us cs (by simpa [encsOf] using h2) h5)

theorem leaf_width [Ext] {t : Ty} {e : Encoder} {d : Nat} {f : Val → Bytes} (hl : LeafGood t e d f) {v : PyVal} {b : Bytes}
    (hb : e.call v = .ok b) : b.length = d := by
  obtain ⟨b', h1, h2⟩ := hl.total v (hl.callVal v b hb)
  rw [hb] at h1
  cases h1
  exact h2

theorem takes_call [Ext] (pk : Bool) (t : Ty) : t.Valid → ∀ v b, (encOf pk t).call v = .ok b → Takes pk t v b.length := by
  refine Spec.Ty.ind (P := fun t => t.Valid → ∀ v b, (encOf pk t).call v = .ok b → Takes pk t v b.length)
    ?_ ?_ ?_ ?_ ?_ ?_ ?_ ?_ ?_ ?_ ?_ ?_ t
  · intro n hv v b hb
    simp only [Ty.Valid, validBits] at hv
    rw [leaf_width (uint_good (n := n) (d := if pk then n / 8 else 32) (by split <;> omega) (by split <;> omega)) hb]
    exact .uint n v
  · intro n hv v b hb
    have hv' := hv
    simp only [Ty.Valid, validBits] at hv'
    rw [leaf_width (sint_good (n := n) (d := if pk then n / 8 else 32) (by omega) (by omega) (by split <;> omega)) hb]
    exact .int n v
  · intro _ v b hb
    rw [leaf_width (address_good (d := if pk then 20 else 32) (by split <;> omega)) hb]
    exact .address v
  · intro _ v b hb
    rw [leaf_width (bool_good (d := if pk then 1 else 32) (by split <;> omega)) hb]
    exact .bool v
  · intro m n hv v b hb
    simp only [Ty.Valid] at hv
    have hv' := hv.1
    simp only [validBits] at hv'
    rw [leaf_width (ufixed_good (m := m) (n := n) (d := if pk then m / 8 else 32) hv.1 hv.2.2 (by split <;> omega)) hb]
    exact .ufixed m n v
  · intro m n hv v b hb
    simp only [Ty.Valid] at hv
    have hv' := hv.1
    simp only [validBits] at hv'
    rw [leaf_width (sfixed_good (m := m) (n := n) (d := if pk then m / 8 else 32) hv.1 hv.2.2 (by split <;> omega)) hb]
    exact .fixed m n v
  · intro m hv v b hb
    simp only [Ty.Valid] at hv
    rw [leaf_width (bytesM_good (m := m) (d := if pk then m else 32) (by split <;> omega)) hb]
    exact .bytesM m v
  · intro hv v b hb
    obtain ⟨x, h1, rfl⟩ := call_spec pk .bytes hv v b hb (by simp [OnGrid])
    simp only [denote, Option.map_eq_some_iff] at h1
    obtain ⟨c, hc, rfl⟩ := h1
    have hw : (encBy pk .bytes (.raw c)).length = textWidth pk c.length := by
      cases pk
      · simp only [encBy, Bool.false_eq_true, if_false, enc, textWidth, List.length_append, be32_length, padRight32_width]
      · rfl
    rw [hw]
    refine .bytes ?_
    cases v <;> simp only [asBytes?, Option.some.injEq, reduceCtorEq] at hc
    · subst hc; exact .bytes _
    · subst hc; exact .bytearray _
  · intro hv v b hb
    obtain ⟨x, h1, rfl⟩ := call_spec pk .string hv v b hb (by simp [OnGrid])
    cases v <;> simp only [denote] at h1 <;> try cases h1
    rename_i s
    split at h1
    · next hs =>
      cases h1
      obtain ⟨c, hc⟩ := Option.isSome_iff_exists.1 hs
      have hw : (encBy pk .string (.text s)).length = textWidth pk c.length := by
        cases pk
        · simp only [encBy, Bool.false_eq_true, if_false, enc, hc, textWidth, List.length_append, be32_length,
            padRight32_width]
        · simp only [encBy, if_true, encPacked, textBytes, hc, textWidth, Option.getD_some]
      rw [hw]
      exact .string hc
    · cases h1
  · intro k t ih hv v b hb
    simp only [Ty.Valid] at hv
    have hb' : encodeElements (sizedArrayValidate (encOf pk t) (some k)) (encOf pk t) v = .ok b := by
      cases pk <;> exact hb
    obtain ⟨vs, bs, h1, h2, h3, rfl⟩ := encodeElements_raw hb'
    obtain ⟨vs', h5, _, h6⟩ := sizedArrayValidate_ok.1 h2
    rw [h1] at h5
    cases h5
    rw [layout_slots]
    exact .sized (isSeqOf_iff.2 h1) (h6 k rfl) (takesItems_call hv.2 (ih hv.2) h3)
  · intro t ih hv v b hb
    simp only [Ty.Valid] at hv
    cases pk
    · have hb' : (mkDynamicArray (encOf false t)).call v = .ok b := hb
      simp only [mkDynamicArray, bind_eq_ok] at hb'
      obtain ⟨len, hl, sz, hsz, els, hels, he⟩ := hb'
      obtain ⟨vs, bs, h1, h2, h3, rfl⟩ := encodeElements_raw hels
      rw [encodeUint256_eq] at hsz
      split at hsz
      · injection hsz with hsz
        subst hsz
        injection he with he
        rw [← he, List.length_append, be32_length, layout_slots]
        exact .dyn (isSeqOf_iff.2 h1) (takesItems_call hv (ih hv) h3)
      · cases hsz
    · have hb' : encodeElements (sizedArrayValidate (encOf true t) none) (encOf true t) v = .ok b := hb
      obtain ⟨vs, bs, h1, h2, h3, rfl⟩ := encodeElements_raw hb'
      rw [layout_slots]
      have h := Takes.dyn (isSeqOf_iff.2 h1) (takesItems_call hv (ih hv) h3)
      simpa [countWidth] using h
  · intro ts ih hv v b hb
    simp only [Ty.Valid, Spec.Ty.allValid_iff] at hv
    obtain ⟨vs, h1, h2⟩ := takesAll_call hv.2 (fun t ht => ih t ht (hv.2 t ht)) hb
    exact .tuple h1 h2

theorem seqOf_unique {v : PyVal} {vs vs' : List PyVal} (h : IsSeqOf v vs) (h' : IsSeqOf v vs') : vs = vs' := by
  rw [isSeqOf_iff] at h h'
  rw [h] at h'
  exact Option.some.inj h'

theorem takes_encode [Ext] (pk : Bool) {types : List TypeStr} {ts : List Ty} (hT : Names types ts) {args : PyVal}
    {vs : List PyVal} (ha : IsListOf args vs) {b : Bytes} (h : (regBy pk).encode types args = .ok b) :
    TakesAll pk ts vs b.length := by
  have h2 : listOrTuple? args = some vs := by cases ha <;> rfl
  rw [encode_eq pk hT h2] at h
  have hv := supportedAll_valid hT
  obtain ⟨vs', h3, h4⟩ := takesAll_call hv (fun t ht => takes_call pk t (hv t ht)) h
  have : IsSeqOf args vs := by
    cases ha
    · exact .list _
    · exact .tuple _
  rw [seqOf_unique this h3]
  exact h4

theorem takesItems_rel {pk pk' : Bool} {R : Nat → Nat → Prop} {t : Ty} (h0 : R 0 0)
    (hadd : ∀ n m n' m', R n m → R n' m' → R (pointerWidth pk t + n + n') (pointerWidth pk' t + m + m'))
    (ih : ∀ v n m, Takes pk t v n → Takes pk' t v m → R n m) {vs : List PyVal} {n m : Nat}
    (h : TakesItems pk t vs n) (h' : TakesItems pk' t vs m) : R n m := by
  induction vs generalizing n m with
  | nil => cases h; cases h'; exact h0
  | cons v vs ih2 =>
    cases h with
    | cons h1 h2 => cases h' with
      | cons h3 h4 => exact hadd _ _ _ _ (ih v _ _ h1 h3) (ih2 h2 h4)

theorem takesAll_rel {pk pk' : Bool} {R : Nat → Nat → Prop} {ts : List Ty} (h0 : R 0 0)
    (hadd : ∀ t n m n' m', R n m → R n' m' → R (pointerWidth pk t + n + n') (pointerWidth pk' t + m + m'))
    (ih : ∀ t ∈ ts, ∀ v n m, Takes pk t v n → Takes pk' t v m → R n m) {vs : List PyVal} {n m : Nat}
    (h : TakesAll pk ts vs n) (h' : TakesAll pk' ts vs m) : R n m := by
  induction ts generalizing vs n m with
  | nil => cases h; cases h'; exact h0
  | cons t ts ih2 =>
    cases h with
    | cons h1 h2 => cases h' with
      | cons h3 h4 => exact hadd t _ _ _ _ (ih t (by simp) _ _ _ h1 h3)
                        (ih2 (fun t ht => ih t (by simp [ht])) h2 h4)

theorem isBytes_unique {v : PyVal} {b b' : Bytes} (h : IsBytes v b) (h' : IsBytes v b') : b = b' := by
  cases h <;> cases h' <;> rfl

theorem takes_rel {pk pk' : Bool} {R : Nat → Nat → Prop} (h0 : R 0 0)
    (hadd : ∀ t n m n' m', R n m → R n' m' → R (pointerWidth pk t + n + n') (pointerWidth pk' t + m + m'))
    (hword : ∀ k, k ≤ 32 → R (wordWidth pk k) (wordWidth pk' k)) (htext : ∀ n, R (textWidth pk n) (textWidth pk' n))
    (hcount : ∀ n m, R n m → R (countWidth pk + n) (countWidth pk' + m)) (t : Ty) :
    t.Valid → ∀ v n m, Takes pk t v n → Takes pk' t v m → R n m := by
  refine Spec.Ty.ind (P := fun t => t.Valid → ∀ v n m, Takes pk t v n → Takes pk' t v m → R n m)
    ?_ ?_ ?_ ?_ ?_ ?_ ?_ ?_ ?_ ?_ ?_ ?_ t
  · intro k hv v n m h h'
    simp only [Ty.Valid, validBits] at hv
    cases h; cases h'; exact hword _ (by omega)
  · intro k hv v n m h h'
    simp only [Ty.Valid, validBits] at hv
    cases h; cases h'; exact hword _ (by omega)
  · intro hv v n m h h'
    cases h; cases h'; exact hword _ (by omega)
  · intro hv v n m h h'
    cases h; cases h'; exact hword _ (by omega)
  · intro k l hv v n m h h'
    simp only [Ty.Valid, validBits] at hv
    cases h; cases h'; exact hword _ (by omega)
  · intro k l hv v n m h h'
    simp only [Ty.Valid, validBits] at hv
    cases h; cases h'; exact hword _ (by omega)
  · intro k hv v n m h h'
    simp only [Ty.Valid] at hv
    cases h; cases h'; exact hword _ (by omega)
  · intro hv v n m h h'
    cases h with
    | bytes h1 => cases h' with
      | bytes h2 => rw [isBytes_unique h1 h2]; exact htext _
  · intro hv v n m h h'
    cases h with
    | string h1 => cases h' with
      | string h2 => rw [h1] at h2; cases h2; exact htext _
  · intro k t ih hv v n m h h'
    simp only [Ty.Valid] at hv
    cases h with
    | sized h1 h2 h3 => cases h' with
      | sized h4 h5 h6 =>
        rw [seqOf_unique h1 h4] at h3
        exact takesItems_rel h0 (hadd t) (ih hv.2) h3 h6
  · intro t ih hv v n m h h'
    simp only [Ty.Valid] at hv
    cases h with
    | dyn h1 h3 => cases h' with
      | dyn h4 h6 =>
        rw [seqOf_unique h1 h4] at h3
        exact hcount _ _ (takesItems_rel h0 (hadd t) (ih hv) h3 h6)
  · intro ts ih hv v n m h h'
    simp only [Ty.Valid, Spec.Ty.allValid_iff] at hv
    cases h with
    | tuple h1 h3 => cases h' with
      | tuple h4 h6 =>
        rw [seqOf_unique h1 h4] at h3
        exact takesAll_rel h0 hadd (fun t ht => ih t ht (hv.2 t ht)) h3 h6

theorem takesAll_unique {pk : Bool} {ts : List Ty} (hv : ∀ t ∈ ts, t.Valid) {vs : List PyVal} {n m : Nat}
    (h : TakesAll pk ts vs n) (h' : TakesAll pk ts vs m) : n = m := by
  have ha : ∀ (t : Ty) (n m n' m' : Nat), n = m → n' = m' → pointerWidth pk t + n + n' = pointerWidth pk t + m + m' := by
    intros; omega
  exact takesAll_rel (R := (· = ·)) rfl ha
    (fun t ht => takes_rel (R := (· = ·)) rfl ha (fun _ _ => rfl) (fun _ => rfl)
      (by intro n m h; omega) t (hv t ht)) h h'

theorem takesAll_packed {ts : List Ty} (hv : ∀ t ∈ ts, t.Valid) {vs : List PyVal} {n m : Nat}
    (h : TakesAll true ts vs n) (h' : TakesAll false ts vs m) : n ≤ m := by
  have ha : ∀ (t : Ty) (n m n' m' : Nat), n ≤ m → n' ≤ m' →
      pointerWidth true t + n + n' ≤ pointerWidth false t + m + m' := by
    intro t n m n' m' h1 h2
    have : pointerWidth true t = 0 := rfl
    omega
  refine takesAll_rel (R := (· ≤ ·)) (Nat.le_refl 0) ha
    (fun t ht => takes_rel (R := (· ≤ ·)) (Nat.le_refl 0) ha (fun k hk => hk) (fun n => ?_) (fun n m h1 => ?_) t
      (hv t ht)) h h'
  · show n ≤ 32 + (n + 31) / 32 * 32
    omega
  · show 0 + n ≤ 32 + m
    omega

end EthAbi
