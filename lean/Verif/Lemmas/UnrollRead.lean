import Verif.Lemmas.Unroll
import Verif.Lemmas.Canonical
import Verif.Lemmas.Errors

/-! # Arrays written as tuples: decoding, and a dynamic array against the list of its elements -/
namespace EthAbi
open Spec

theorem anyDynamic_replicate' {k : Nat} (hk : 0 < k) (t : Ty) :
    Ty.anyDynamic (List.replicate k t) = t.dynamic := by
  rw [anyDynamic_eq]
  cases k with
  | zero => omega
  | succ k => cases h : t.dynamic <;> simp [List.replicate_succ, List.any_replicate, h]

theorem sizes_replicate (k : Nat) (t : Ty) : Ty.sizes (List.replicate k t) = k * t.size := by
  induction k with
  | zero => simp [Ty.sizes]
  | succ k ih => simp only [List.replicate_succ, Ty.sizes, ih]; ring

mutual
theorem unrolled_dynamic {t t' : Ty} (h : Unrolled t t') (hv : t.Valid) : t'.dynamic = t.dynamic := by
  cases h with
  | refl => rfl
  | @unroll t t' k h =>
    show Ty.anyDynamic (List.replicate k t') = t.dynamic
    rw [anyDynamic_replicate' hv.1]
    exact unrolled_dynamic h hv.2
  | @sized t t' k h =>
    show t'.dynamic = t.dynamic
    exact unrolled_dynamic h hv.2
  | dyn h => rfl
  | tuple h => exact unrolledAll_dynamic h hv.2
theorem unrolledAll_dynamic {ts ts' : List Ty} (h : UnrolledAll ts ts') (hv : Ty.AllValid ts) :
    Ty.anyDynamic ts' = Ty.anyDynamic ts := by
  cases h with
  | nil => rfl
  | cons h1 h2 => simp only [Ty.anyDynamic, unrolled_dynamic h1 hv.1, unrolledAll_dynamic h2 hv.2]
end

mutual
theorem unrolled_size {t t' : Ty} (h : Unrolled t t') : t'.dynamic = t.dynamic → t.dynamic = false →
    t.Valid → t'.size = t.size := by
  intro hd hs hv
  cases h with
  | refl => rfl
  | @unroll t t' k h =>
    show Ty.sizes (List.replicate k t') = k * t.size
    rw [sizes_replicate, unrolled_size h (unrolled_dynamic h hv.2) hs hv.2]
  | @sized t t' k h =>
    show k * t'.size = k * t.size
    rw [unrolled_size h (unrolled_dynamic h hv.2) hs hv.2]
  | dyn h => cases hs
  | tuple h => exact unrolledAll_size h hs hv.2
theorem unrolledAll_size {ts ts' : List Ty} (h : UnrolledAll ts ts') : Ty.anyDynamic ts = false →
    Ty.AllValid ts → Ty.sizes ts' = Ty.sizes ts := by
  intro hs hv
  cases h with
  | nil => rfl
  | cons h1 h2 =>
    simp only [Ty.anyDynamic, Bool.or_eq_false_iff] at hs
    simp only [Ty.sizes, unrolled_size h1 (unrolled_dynamic h1 hv.1) hs.1 hv.1,
      unrolledAll_size h2 hs.2 hv.2]
end

theorem unrolled_headStep {t t' : Ty} (h : Unrolled t t') (hv : t.Valid) : headStep t' = headStep t := by
  simp only [headStep, unrolled_dynamic h hv]
  split
  · rfl
  · rename_i hd
    exact unrolled_size h (unrolled_dynamic h hv) (by simpa using hd) hv

theorem unrolledAll_headBytes {ts ts' : List Ty} (h : UnrolledAll ts ts') (hv : Ty.AllValid ts) :
    headBytes ts' = headBytes ts := by
  induction ts generalizing ts' with
  | nil => cases h; rfl
  | cons t ts ih =>
    cases h with
    | cons h1 h2 =>
      have := ih h2 hv.2
      simp only [headBytes, List.map_cons, List.sum_cons, unrolled_headStep h1 hv.1] at this ⊢
      rw [this]

theorem unrolled_headWords {t t' : Ty} (h : Unrolled t t') (hv : t.Valid) : headWords t' ≤ headWords t := by
  simp only [headWords, unrolled_dynamic h hv]
  split
  · exact Nat.le_refl _
  · cases h with
    | refl => exact Nat.le_refl _
    | unroll k h => exact hv.1
    | sized k h => exact Nat.le_refl _
    | dyn h => exact Nat.le_refl _
    | tuple h => exact Nat.le_refl _

theorem unrolledAll_codeHead {ts ts' : List Ty} (h : UnrolledAll ts ts') (hv : Ty.AllValid ts) :
    codeHead ts' ≤ codeHead ts := by
  induction ts generalizing ts' with
  | nil => cases h; exact Nat.le_refl _
  | cons t ts ih =>
    cases h with
    | cons h1 h2 =>
      have h3 := ih h2 hv.2
      have h4 := unrolled_headWords h1 hv.1
      simp only [codeHead, headWordsAll, List.map_cons, List.sum_cons] at h3 ⊢
      omega

/-- Without a dynamic component the limit of the offsets does not matter. -/
theorem readsAll_lo {mh : List Ty → Nat} {strict : Bool} {ts : List Ty} {d : Bytes} {base lo lo' q : Nat}
    {xs : List Val} (hs : Ty.anyDynamic ts = false) (h : ReadsAll mh strict ts d base lo q xs) :
    ReadsAll mh strict ts d base lo' q xs := by
  induction ts generalizing q xs with
  | nil => cases xs <;> simp [ReadsAll] at h; trivial
  | cons t ts ih =>
    cases xs with
    | nil => simp [ReadsAll] at h
    | cons x xs =>
      simp only [Ty.anyDynamic, Bool.or_eq_false_iff] at hs
      simp only [ReadsAll, hs.1, ReadsItem, Bool.false_eq_true, if_false] at h ⊢
      exact ⟨h.1, ih hs.2 h.2⟩

theorem readsAll_lo_le {mh : List Ty → Nat} {strict : Bool} {ts : List Ty} {d : Bytes} {base lo lo' q : Nat}
    {xs : List Val} (hlo : lo' ≤ lo) (h : ReadsAll mh strict ts d base lo q xs) :
    ReadsAll mh strict ts d base lo' q xs := readsAll_minHead (fun _ _ _ _ h => h) hlo h

/-- A minimal head that is one word for each dynamic component. -/
def WordsOk (mh : List Ty → Nat) : Prop := ∀ k t, t.dynamic = true → mh (List.replicate k t) = 32 * k

theorem codeHead_wordsOk : WordsOk codeHead := by
  intro k t ht
  simp [codeHead, headWordsAll, headWords, ht, List.map_replicate]

theorem headBytes_wordsOk : WordsOk headBytes := by
  intro k t ht
  rw [headBytes_replicate]
  simp [headStep, ht, Nat.mul_comm]

/-- The items of an array are the components of a tuple. -/
theorem reads_sized {mh : List Ty → Nat} (hw : WordsOk mh) {k : Nat} {t : Ty} {d : Bytes} {p : Nat}
    {xs : List Val} (hk : 0 < k) :
    (xs.length = k ∧ ReadsMany t.dynamic (Reads mh true t d) (headStep t) d p (p + 32 * k) p xs) ↔
      ReadsAll mh true (List.replicate k t) d p (p + mh (List.replicate k t)) p xs := by
  constructor
  · rintro ⟨rfl, h⟩
    rw [readsMany_all] at h
    cases hd : t.dynamic with
    | true => rw [hw _ _ hd]; exact h
    | false => exact readsAll_lo (by rw [anyDynamic_replicate' hk, hd]) h
  · intro h
    have hl : xs.length = k := by simpa using readsAll_length h
    subst hl
    refine ⟨rfl, ?_⟩
    rw [readsMany_all]
    cases hd : t.dynamic with
    | true => rw [hw _ _ hd] at h; exact h
    | false => exact readsAll_lo (by rw [anyDynamic_replicate' hk, hd]) h

theorem UnrolledAll.replicate {t t' : Ty} (h : Unrolled t t') :
    ∀ k, UnrolledAll (List.replicate k t) (List.replicate k t')
  | 0 => .nil
  | k + 1 => .cons h (UnrolledAll.replicate h k)

theorem allValid_replicate {k : Nat} {t : Ty} (hv : t.Valid) : Ty.AllValid (List.replicate k t) :=
  Ty.allValid_iff.2 fun u hu => by rw [(List.mem_replicate.1 hu).2]; exact hv

/-- Reading `t` and reading `t'`, whatever the data are. -/
def Follows (mh : List Ty → Nat) (t t' : Ty) : Prop :=
  ∀ strict d p x, Reads mh strict t d p x → Reads mh strict t' d p x

/-- The same for lists of types. -/
inductive FollowsAll (mh : List Ty → Nat) : List Ty → List Ty → Prop where
  | nil : FollowsAll mh [] []
  | cons {t t' : Ty} {ts ts' : List Ty} : Follows mh t t' → t'.dynamic = t.dynamic →
      headStep t' = headStep t → FollowsAll mh ts ts' → FollowsAll mh (t :: ts) (t' :: ts')

theorem FollowsAll.reads {mh : List Ty → Nat} {ts ts' : List Ty} (h : FollowsAll mh ts ts') {strict : Bool}
    {d : Bytes} {base lo q : Nat} {xs : List Val} (hr : ReadsAll mh strict ts d base lo q xs) :
    ReadsAll mh strict ts' d base lo q xs := by
  induction h generalizing q xs with
  | nil => exact hr
  | cons h1 h2 h3 _ ih =>
    cases xs with
    | nil => exact hr.elim
    | cons x xs =>
      simp only [ReadsAll] at hr ⊢
      rw [h2, h3]
      exact ⟨readsItem_imp hr.1 fun p => h1 _ _ p x, ih hr.2⟩

theorem FollowsAll.replicate {mh : List Ty → Nat} {t t' : Ty} (h : Follows mh t t')
    (hd : t'.dynamic = t.dynamic) (hs : headStep t' = headStep t) :
    ∀ k, FollowsAll mh (List.replicate k t) (List.replicate k t')
  | 0 => .nil
  | k + 1 => .cons h hd hs (FollowsAll.replicate h hd hs k)

section
variable {mh : List Ty → Nat} (hw : WordsOk mh)
include hw

mutual
/-- From the array to the tuple, if the tuple's limit is not larger. -/
theorem unrolled_reads (hmh : ∀ ts ts', UnrolledAll ts ts' → Ty.AllValid ts → mh ts' ≤ mh ts)
    {t t' : Ty} (h : Unrolled t t') (hv : t.Valid) : Follows mh t t' := by
  intro strict d p x hr
  cases h with
  | refl => exact hr
  | @unroll t t' k h =>
    have ih := unrolled_reads hmh h hv.2
    cases x with
    | seq xs =>
      have h1 := (reads_sized hw hv.1).1 hr
      have h2 := (FollowsAll.replicate ih (unrolled_dynamic h hv.2) (unrolled_headStep h hv.2) k).reads h1
      exact readsAll_lo_le (Nat.add_le_add_left (hmh _ _ (UnrolledAll.replicate h k)
        (allValid_replicate hv.2)) _) h2
    | _ => exact hr.1.elim
  | @sized t t' k h =>
    have ih := unrolled_reads hmh h hv.2
    cases x with
    | seq xs =>
      obtain ⟨hl, hr⟩ := hr
      refine ⟨hl, ?_⟩
      rw [readsMany_all] at hr ⊢
      exact (FollowsAll.replicate ih (unrolled_dynamic h hv.2) (unrolled_headStep h hv.2) _).reads hr
    | _ => exact hr.1.elim
  | @dyn t t' h =>
    have hv : t.Valid := hv
    have ih := unrolled_reads hmh h hv
    cases x with
    | seq xs =>
      obtain ⟨hl, h0, hr⟩ := hr
      refine ⟨hl, h0, ?_⟩
      rw [readsMany_all] at hr ⊢
      exact (FollowsAll.replicate ih (unrolled_dynamic h hv) (unrolled_headStep h hv) _).reads hr
    | _ => exact hr.1.elim
  | @tuple ts ts' h =>
    have ih := unrolledAll_reads hmh h hv.2
    cases x with
    | seq xs => exact readsAll_lo_le (Nat.add_le_add_left (hmh _ _ h hv.2) _) (ih.reads hr)
    | _ => exact hr.1.elim
theorem unrolledAll_reads (hmh : ∀ ts ts', UnrolledAll ts ts' → Ty.AllValid ts → mh ts' ≤ mh ts)
    {ts ts' : List Ty} (h : UnrolledAll ts ts') (hv : Ty.AllValid ts) : FollowsAll mh ts ts' := by
  cases h with
  | nil => exact .nil
  | cons h1 h2 =>
    have a := unrolled_reads hmh h1 hv.1
    have b := unrolledAll_reads hmh h2 hv.2
    exact .cons a (unrolled_dynamic h1 hv.1) (unrolled_headStep h1 hv.1) b
end

mutual
/-- From the tuple to the array, if the array's limit is not larger. -/
theorem unrolled_reads_back (hmh : ∀ ts ts', UnrolledAll ts ts' → Ty.AllValid ts → mh ts ≤ mh ts')
    {t t' : Ty} (h : Unrolled t t') (hv : t.Valid) : Follows mh t' t := by
  intro strict d p x hr
  cases h with
  | refl => exact hr
  | @unroll t t' k h =>
    have ih := unrolled_reads_back hmh h hv.2
    cases x with
    | seq xs =>
      have h1 : ReadsAll mh true (List.replicate k t') d p (p + mh (List.replicate k t')) p xs := hr
      have h2 := (FollowsAll.replicate ih (unrolled_dynamic h hv.2).symm
        (unrolled_headStep h hv.2).symm k).reads h1
      exact (reads_sized hw hv.1).2 (readsAll_lo_le (Nat.add_le_add_left
        (hmh _ _ (UnrolledAll.replicate h k) (allValid_replicate hv.2)) _) h2)
    | _ => exact hr.1.elim
  | @sized t t' k h =>
    have ih := unrolled_reads_back hmh h hv.2
    cases x with
    | seq xs =>
      obtain ⟨hl, hr⟩ := hr
      refine ⟨hl, ?_⟩
      rw [readsMany_all] at hr ⊢
      exact (FollowsAll.replicate ih (unrolled_dynamic h hv.2).symm
        (unrolled_headStep h hv.2).symm _).reads hr
    | _ => exact hr.1.elim
  | @dyn t t' h =>
    have hv : t.Valid := hv
    have ih := unrolled_reads_back hmh h hv
    cases x with
    | seq xs =>
      obtain ⟨hl, h0, hr⟩ := hr
      refine ⟨hl, h0, ?_⟩
      rw [readsMany_all] at hr ⊢
      exact (FollowsAll.replicate ih (unrolled_dynamic h hv).symm (unrolled_headStep h hv).symm _).reads hr
    | _ => exact hr.1.elim
  | @tuple ts ts' h =>
    have ih := unrolledAll_reads_back hmh h hv.2
    cases x with
    | seq xs => exact readsAll_lo_le (Nat.add_le_add_left (hmh _ _ h hv.2) _) (ih.reads hr)
    | _ => exact hr.1.elim
theorem unrolledAll_reads_back (hmh : ∀ ts ts', UnrolledAll ts ts' → Ty.AllValid ts → mh ts ≤ mh ts')
    {ts ts' : List Ty} (h : UnrolledAll ts ts') (hv : Ty.AllValid ts) : FollowsAll mh ts' ts := by
  cases h with
  | nil => exact .nil
  | cons h1 h2 =>
    have a := unrolled_reads_back hmh h1 hv.1
    have b := unrolledAll_reads_back hmh h2 hv.2
    exact .cons a (unrolled_dynamic h1 hv.1).symm (unrolled_headStep h1 hv.1).symm b
end
end

/-! ## The Python values -/

theorem toPyAll_replicate (t : Ty) (xs : List Val) :
    toPyAll (List.replicate xs.length t) xs = xs.map (toPy t) := by
  induction xs with
  | nil => rfl
  | cons x xs ih => simp [toPyAll, List.replicate_succ, ih]

mutual
theorem unrolled_toPy {t t' : Ty} (h : Unrolled t t') {x : Val} (hx : Val.Of t x) :
    toPy t' x = toPy t x := by
  cases h with
  | refl => rfl
  | @unroll t t' k h =>
    cases x with
    | seq xs =>
      obtain ⟨hl, hx⟩ := hx
      subst hl
      simp only [toPy, toPyAll_replicate, PyVal.tuple.injEq]
      exact List.map_congr_left fun y hy => unrolled_toPy h (hx y hy)
    | _ => exact hx.elim
  | @sized t t' k h =>
    cases x with
    | seq xs =>
      simp only [toPy, PyVal.tuple.injEq]
      exact List.map_congr_left fun y hy => unrolled_toPy h (hx.2 y hy)
    | _ => exact hx.elim
  | @dyn t t' h =>
    cases x with
    | seq xs =>
      simp only [toPy, PyVal.tuple.injEq]
      exact List.map_congr_left fun y hy => unrolled_toPy h (hx y hy)
    | _ => exact hx.elim
  | @tuple ts ts' h =>
    cases x with
    | seq xs =>
      simp only [toPy, PyVal.tuple.injEq]
      exact unrolledAll_toPy h hx
    | _ => exact hx.elim
theorem unrolledAll_toPy {ts ts' : List Ty} (h : UnrolledAll ts ts') {xs : List Val}
    (hx : Val.OfAll ts xs) : toPyAll ts' xs = toPyAll ts xs := by
  cases h with
  | nil => rfl
  | cons h1 h2 =>
    cases xs with
    | nil => rfl
    | cons x xs => simp only [toPyAll, unrolled_toPy h1 hx.1, unrolledAll_toPy h2 hx.2]
end

/-! ## The array alone: the same exceptions -/

theorem posAll_replicate (strict : Bool) (k : Nat) (t : Ty) (d : Bytes) (base p : Nat) :
    posAll strict (List.replicate k t) d base p =
      posMany (posItem t.dynamic (posDec strict t d) d base) (headStep t) k p := by
  induction k generalizing p with
  | zero => rfl
  | succ k ih => simp only [List.replicate_succ, posAll, posMany, ih]

theorem checkAll_replicate (k : Nat) (t : Ty) (d : Bytes) (base e p : Nat) :
    checkAll (List.replicate k t) d base e p =
      if t.dynamic then checkPtrs d base e k p
      else posMany (posItem false (posDec true t d) d base) (headStep t) k p >>= fun _ => .ok () := by
  induction k generalizing p with
  | zero => cases t.dynamic <;> rfl
  | succ k ih =>
    simp only [List.replicate_succ, checkAll, ih, checkHead]
    cases hd : t.dynamic with
    | true => simp only [if_true, checkPtrs, headStep, hd]
    | false =>
      simp only [Bool.false_eq_true, if_false, posMany, posItem, bind_assoc', ok_bind, pure_eq_ok]

theorem posDec_unroll (strict : Bool) (k : Nat) (t : Ty) (d : Bytes) (p : Nat) :
    posDec strict (.tuple (List.replicate k t)) d p = posDec strict (.sized k t) d p := by
  simp only [posDec, posSeq, posAll_replicate, checkAll_replicate, bind_assoc']
  cases hd : t.dynamic with
  | true =>
    have : headWordsAll (List.replicate k t) = k := by
      simp [headWordsAll, headWords, hd, List.map_replicate]
    simp only [if_true, this]
  | false =>
    simp only [Bool.false_eq_true, if_false, ok_bind]
    cases posMany (posItem false (posDec true t d) d p) (headStep t) k p <;> rfl

theorem posTop_unroll (strict : Bool) {k : Nat} (hk : 0 < k) (t : Ty) (d : Bytes) :
    posTop strict [.tuple (List.replicate k t)] d = posTop strict [.sized k t] d := by
  have hdyn : (Ty.tuple (List.replicate k t)).dynamic = (Ty.sized k t).dynamic :=
    anyDynamic_replicate' hk t
  have e : ∀ s, posDec s (.tuple (List.replicate k t)) d = posDec s (.sized k t) d :=
    fun s => funext fun p => posDec_unroll s k t d p
  simp only [posTop, checkAll, posAll, checkHead, e, hdyn, headWordsAll, List.map_cons, List.map_nil,
    List.sum_cons, List.sum_nil]
  cases hd : (Ty.sized k t).dynamic with
  | true => simp only [headWords, hdyn, hd, if_true]
  | false => simp only [Bool.false_eq_true, if_false]

/-! ## A dynamic array and the list of its elements -/

theorem arrayItems_tuple {e : Encoder} (hvc : ∀ v, validateOrCall e v = e.validateValue v) (vs : List PyVal) :
    tupleValidateItems vs (List.replicate vs.length e) = arrayValidateItems e vs := by
  induction vs with
  | nil => rfl
  | cons v vs ih =>
    simp only [List.length_cons, List.replicate_succ, tupleValidateItems, arrayValidateItems, hvc, ih]

theorem encodeElements_tuple [Ext] {e : Encoder} (hvc : ∀ v, validateOrCall e v = e.validateValue v) {v : PyVal}
    {vs : List PyVal} (hv : asListLike? v = some vs) :
    encodeElements (arrayValidate e) e v = tupleEncode (List.replicate vs.length e) v := by
  have h1 : arrayValidate e v = tupleValidate (List.replicate vs.length e) v := by
    simp only [arrayValidate, tupleValidate, hv, List.length_replicate, ne_eq, not_true_eq_false, if_false,
      arrayItems_tuple hvc]
  cases h : encodeElements (arrayValidate e) e v with
  | ok b =>
    obtain ⟨vs', bs, h2, h3, h4, h5⟩ := encodeElements_iff.1 h
    rw [hv] at h2
    injection h2 with h2; subst h2
    rw [map_const] at h4 h5
    exact (tupleEncode_iff.2 ⟨vs, bs, hv, h1 ▸ h3, h4, h5⟩).symm
  | error x =>
    simp only [encodeElements, hv] at h
    simp only [tupleEncode, hv, ← h1, tupleChunks_eq]
    cases h2 : arrayValidate e v with
    | error y => rw [h2] at h; exact h.symm
    | ok u =>
      rw [h2] at h
      simp only [ok_bind, encodeAll_eq, map_const] at h ⊢
      cases hc : callAll (List.replicate vs.length e) vs with
      | error y => rw [hc] at h; exact h.symm
      | ok bs =>
        have hl := callAll_length hc (by simp)
        rw [hc] at h
        simp only [ok_bind, headLength_eq] at h ⊢
        cases hd : e.dyn with
        | false => simp [hd, pure_eq_ok] at h
        | true =>
          cases vs with
          | nil => simp [pure_eq_ok] at h
          | cons u us =>
            have hl' : bs.length = (u :: us).length := by simpa using hl
            obtain ⟨h3, h4⟩ := elems_dynamic hd (u :: us) bs hl'
            rw [map_const] at h3 h4
            rw [if_neg (by simp [hd])] at h
            rw [tailOffsets_eq (by intro h0; subst h0; simp at hl'), arrayHeadChunks_eq _ e hd _ _ hl',
              map_const, h4] at h
            rw [tailOffsets_eq (by rw [h4]; intro h0; subst h0; simp at hl'), h4, h3]
            exact h.symm

/-- The object of `T[]` on a list of `n` values. -/
theorem dyn_call [Ext] {e : Encoder} (hvc : ∀ v, validateOrCall e v = e.validateValue v) {v : PyVal}
    {vs : List PyVal} (hv : asListLike? v = some vs) (hn : vs.length < 2 ^ 256) :
    (mkDynamicArray e).call v =
      (tupleEncode (List.replicate vs.length e) v >>= fun b => .ok (be32 vs.length ++ b)) := by
  have hlen : pyLen v = .ok vs.length := by
    cases v <;> simp [asListLike?] at hv <;> subst hv <;> rfl
  simp only [mkDynamicArray, hlen, ok_bind, encodeUint256_eq, hn, if_true, encodeElements_tuple hvc hv,
    pure_eq_ok]

theorem single_dynamic [Ext] {E : Encoder} (hdyn : E.dyn = true) (v : PyVal)
    (hvc : validateOrCall E v = E.validateValue v)
    (hce : ∀ er, E.validateValue v = .error er → E.call v = .error er) :
    tupleEncode [E] (.list [v]) = (E.call v >>= fun b => .ok (be32 32 ++ b)) := by
  simp only [tupleEncode, tupleValidate, asListLike?, List.length_cons, List.length_nil,
    ne_eq, not_true_eq_false, if_false, tupleValidateItems, hvc, tupleChunks]
  cases hval : E.validateValue v with
  | error er => rw [hce er hval]; rfl
  | ok u =>
    cases hcall : E.call v with
    | error er => rfl
    | ok b =>
      simp only [ok_bind, hdyn, pure_eq_ok]
      simp [headLength, tailOffsets, tupleHeadChunks, encodeUint256_eq]

theorem readsArgs_codeHead {ts : List Ty} (hv : ∀ t ∈ ts, t.Valid) {strict : Bool} {d : Bytes}
    {xs : List Val} (h : ReadsArgs headBytes strict ts d xs) : ReadsArgs codeHead strict ts d xs := by
  by_cases hne : ts = []
  · subst hne
    cases xs with
    | nil => trivial
    | cons x xs => exact h.elim
  · refine readsArgs_minHead (fun us hus => codeHead_le ?_) h
    have : (Ty.tuple ts).Valid := ⟨hne, Ty.allValid_iff.2 hv⟩
    exact Ty.allValid_iff.1 (occurs_valid hus this).2

theorem names_replicate [Ext] {s : TypeStr} {t : Ty} (h : Supported s t) :
    ∀ k, Names (List.replicate k s) (List.replicate k t)
  | 0 => .nil
  | k + 1 => .cons h (names_replicate h k)

theorem supported_dyn [Ext] {s : TypeStr} {t : Ty} (h : Supported s t) : Supported (s ++ t!"[]") (.dyn t) :=
  ⟨.dyn h.1, fun h => by
    have := congrArg List.getLast? h
    rw [List.getLast?_append] at this
    simp at this⟩

theorem supported_sized [Ext] {s : TypeStr} {t : Ty} (h : Supported s t) {k : Nat} (hk : 0 < k)
    (hn : numOk k = true) : Supported (s ++ t!"[" ++ natDigits k ++ t!"]") (.sized k t) :=
  ⟨.sized h.1 hk hn, fun h => by
    have := congrArg List.getLast? h
    rw [List.getLast?_append] at this
    simp at this⟩

/-- Reading `T[]` behind the words 32 and `n`. -/
theorem readsArgs_dyn {t : Ty} {n : Nat} (hn : n < 2 ^ 256) {d : Bytes} {ys : List Val} :
    ReadsArgs codeHead true [.dyn t] (be32 32 ++ be32 n ++ d) ys ↔
      ∃ xs, ys = [.seq xs] ∧ ReadsArgs codeHead true (List.replicate n t) d xs := by
  have hl : ∀ m, (be32 m).length = 32 := fun m => by simp [be32]
  have hc : codeHead [Ty.dyn t] = 32 := rfl
  have hsh : ∀ xs, Reads codeHead true (.dyn t) (be32 32 ++ be32 n ++ d) 32 (.seq xs) ↔
      ReadsArgs codeHead true (List.replicate n t) d xs := by
    intro xs
    have h0 : At (be32 32 ++ be32 n ++ d) 32 (be32 n) := by
      have : (be32 32 ++ be32 n ++ d).drop 32 = be32 n ++ d := by
        rw [List.append_assoc, List.drop_left' (hl 32)]
      rw [At, this]
      exact List.prefix_append _ _
    have hw : (be32 32 ++ be32 n).length = 64 := by simp [hl]
    have key : ∀ lo, ReadsAll codeHead true (List.replicate n t) (be32 32 ++ be32 n ++ d) 64 (64 + lo) 64 xs ↔
        ReadsAll codeHead true (List.replicate n t) d 0 lo 0 xs := by
      intro lo
      have := readsAll_shift (mh := codeHead) (ts := List.replicate n t) (w := be32 32 ++ be32 n) (d := d)
        (fun u _ p x => reads_shift u _ d p x) (base := 0) (lo := lo) (q := 0) (xs := xs)
      rwa [hw] at this
    have lo_irrel : ReadsAll codeHead true (List.replicate n t) d 0 (32 * n) 0 xs ↔
        ReadsArgs codeHead true (List.replicate n t) d xs := by
      unfold ReadsArgs
      cases hd : t.dynamic with
      | true => rw [codeHead_wordsOk n t hd]
      | false =>
        have hs : Ty.anyDynamic (List.replicate n t) = false := by
          rw [anyDynamic_eq]; simp [List.any_replicate, hd]
        exact ⟨readsAll_lo hs, readsAll_lo hs⟩
    rw [← lo_irrel, ← key]
    constructor
    · rintro ⟨h1, h2, h3⟩
      have : xs.length = n := at_be32_inj h1 hn h2 h0
      subst this
      rw [readsMany_all] at h3
      exact h3
    · intro h
      have : xs.length = n := by simpa using readsAll_length h
      subst this
      refine ⟨hn, h0, ?_⟩
      rw [readsMany_all]
      exact h
  constructor
  · intro hr
    cases ys with
    | nil => exact hr.elim
    | cons y ys =>
      cases ys with
      | cons y' ys => exact (hr.2).elim
      | nil =>
        have hi := hr.1
        simp only [Ty.dynamic, ReadsItem, if_true] at hi
        obtain ⟨off, ho, hat, _, _, hr'⟩ := hi
        have : off = 32 := at_be32_inj ho (by norm_num) hat (by simp [At])
        subst this
        cases y with
        | seq xs => exact ⟨xs, rfl, (hsh xs).1 (by simpa using hr')⟩
        | _ => exact hr'.1.elim
  · rintro ⟨xs, rfl, hr⟩
    refine ⟨?_, trivial⟩
    simp only [Ty.dynamic, ReadsItem, if_true]
    refine ⟨32, by norm_num, by simp [At], by rw [hc], ?_, by simpa using (hsh xs).2 hr⟩
    simp only [List.length_append, hl]
    omega

end EthAbi
