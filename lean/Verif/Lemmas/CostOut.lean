import Verif.Lemmas.Cost
import Verif.Lemmas.Blowup
import Verif.Lemmas.Api

/-! # The number of decoder calls and the size of the decoded value -/
namespace EthAbi
open Spec
namespace Counted

/-- A call that returns `v` makes `n v` calls. -/
def Makes (n : PyVal → Nat) (c : Counted) : Prop :=
  ∀ fl st v st', c.dec.call fl st = .ok (v, st') → c.steps fl st = n v

theorem headTail_exact {d : Decoder} (hd : Steady d) {fl : Flags} {st st' : Stream} {v : PyVal}
    (h : (EthAbi.headTail d).call fl st = .ok (v, st')) :
    st' = { st with pos := st.pos + 32 } ∧ ∃ p st1 st2 st3, decodeUint256 st = .ok (p, st1) ∧
      st1.pushFrame p = .ok st2 ∧ d.call fl st2 = .ok (v, st3) := by
  unfold Decoder.call at h
  obtain ⟨⟨p, st1⟩, h1, h⟩ := bind_eq_ok.1 h
  obtain ⟨st2, h2, h⟩ := bind_eq_ok.1 h
  obtain ⟨⟨x, st3⟩, h3, h⟩ := bind_eq_ok.1 h
  obtain ⟨st4, h4, h⟩ := bind_eq_ok.1 h
  injection h with h; injection h with hx h
  subst h hx
  refine ⟨?_, p, st1, st2, st3, h1, h2, h3⟩
  obtain ⟨h5, rfl⟩ := decodeUint256_ok h1
  have h2 := pushFrame_ok h2
  obtain ⟨h6, h7, h8, _, _⟩ := hd _ _ _ _ h3
  subst h2
  have := popFrame_ok h7 h4
  subst this
  simp only at h6 h8
  rw [h6, h8]
  simp

/-- The steps of a wrapped dynamic decoder. -/
theorem headTail_steps {c : Counted} {fl : Flags} {st st1 st2 : Stream} {p : Nat}
    (h1 : decodeUint256 st = .ok (p, st1)) (h2 : st1.pushFrame p = .ok st2) :
    (headTail c).steps fl st = 2 + c.steps fl st2 := by
  simp only [headTail, h1, after, h2]

/-- One component of a tuple: checking it and decoding it. -/
theorem component {n : PyVal → Nat} {c : Counted} (hs : Steady c.dec) (hp : Makes n c)
    (hn : c.dec.isHeadTail = false) {fl : Flags} {a e : Nat} {st st1 st2 : Stream} {v : PyVal}
    (hc : tupleCheckLoop fl a e [(wrapDyn c).dec] st = .ok st1) (hv : (wrapDyn c).dec.call fl st = .ok (v, st2)) :
    st1 = st2 ∧ (if (wrapDyn c).dec.isHeadTail then 1 else (wrapDyn c).steps fl st) + (wrapDyn c).steps fl st =
      if c.dec.dyn then n v + 3 else 2 * n v := by
  cases hd : c.dec.dyn with
  | true =>
    have hw : wrapDyn c = headTail c := by unfold wrapDyn; rw [if_pos hd]
    rw [hw] at hc hv ⊢
    have hv : (EthAbi.headTail c.dec).call fl st = .ok (v, st2) := hv
    obtain ⟨h1, p, s1, s2, s3, h2, h3, h4⟩ := headTail_exact hs hv
    have hh : (headTail c).dec.isHeadTail = true := rfl
    rw [hh]
    simp only [tupleCheckLoop, hh, if_true, h2, ok_bind] at hc
    split at hc
    · cases hc
    · injection hc with hc
      refine ⟨?_, ?_⟩
      · rw [← hc, h1]
        exact (decodeUint256_ok h2).2
      · rw [if_pos rfl, if_pos rfl, headTail_steps h2 h3]
        have := hp _ _ _ _ h4
        omega
  | false =>
    have hw : wrapDyn c = c := by unfold wrapDyn; rw [if_neg (by simp [hd])]
    rw [hw] at hc hv ⊢
    simp only [tupleCheckLoop, hn, Bool.false_eq_true, if_false, hv, ok_bind] at hc
    injection hc with hc
    refine ⟨hc.symm, ?_⟩
    rw [hn, if_neg (by simp), if_neg (by simp)]
    have := hp _ _ _ _ hv
    omega

/-- The decoder with a count of a type. -/
def Counts (t : Ty) (c : Counted) : Prop :=
  Steady c.dec ∧ Makes (calls t) c ∧ c.dec.isHeadTail = false ∧ c.dec.dyn = t.dynamic

theorem components {ts : List Ty} {cs : List Counted} (h : List.Forall₂ Counts ts cs)
    {fl : Flags} {a e : Nat} {st st1 st2 : Stream} {vs : List PyVal}
    (hc : tupleCheckLoop fl a e ((cs.map wrapDyn).map (·.dec)) st = .ok st1)
    (hv : decodeEach fl ((cs.map wrapDyn).map (·.dec)) st = .ok (vs, st2)) :
    checkSteps fl a e (cs.map wrapDyn) st + eachSteps fl (cs.map wrapDyn) st = callsAll ts vs := by
  induction h generalizing st st2 vs with
  | nil => simp [checkSteps, eachSteps, callsAll]
  | @cons t c ts cs h0 _ ih =>
    obtain ⟨hs, hp, hn, hd⟩ := h0
    simp only [List.map_cons] at hc hv ⊢
    rw [checkLoop_one] at hc
    obtain ⟨s1, hc1, hc2⟩ := bind_eq_ok.1 hc
    unfold decodeEach at hv
    obtain ⟨⟨v, s2⟩, hv1, hv⟩ := bind_eq_ok.1 hv
    obtain ⟨⟨vs', s3⟩, hv2, hv⟩ := bind_eq_ok.1 hv
    injection hv with he1; injection he1 with hvs hy
    subst hvs hy
    obtain ⟨rfl, h1⟩ := component hs hp hn hc1 hv1
    have h2 := ih hc2 hv2
    rw [hd] at h1
    simp only [checkSteps, eachSteps, hc1, hv1, after, callsAll]
    omega

theorem tuple_makes {ts : List Ty} {cs : List Counted} (h : List.Forall₂ Counts ts cs) {fl : Flags}
    {st st' : Stream} {v : PyVal} (hv : tupleDecode fl ((cs.map wrapDyn).map (·.dec)) st = .ok (v, st')) :
    tupleSteps fl (cs.map wrapDyn) st = calls (.tuple ts) v := by
  unfold tupleDecode at hv
  obtain ⟨s1, h1, hv⟩ := bind_eq_ok.1 hv
  obtain ⟨⟨vs, s2⟩, h2, hv⟩ := bind_eq_ok.1 hv
  injection hv with he1; injection he1 with hx hy
  subst hx hy
  have hs : ∀ d ∈ (cs.map wrapDyn).map (·.dec), Steady d := by
    intro d hd
    obtain ⟨c, hc, rfl⟩ := List.mem_map.1 hd
    obtain ⟨c', hc', rfl⟩ := List.mem_map.1 hc
    rw [wrapDyn_dec]
    obtain ⟨_, _, h3⟩ := forall₂_mem_right h hc'
    exact wrapDyn_steady h3.1
  have he := tuplePointers_ok hs h1
  subst he
  have h1' := h1
  unfold tupleValidatePointers at h1
  obtain ⟨s3, h3, _⟩ := bind_eq_ok.1 h1
  have := components h h3 h2
  unfold tupleSteps
  rw [h1']
  simp only [after, calls, itemsOf]
  omega

theorem ptr_eq {c e n : Nat} {st st' : Stream} (h : arrayCheckLoop c e n st = .ok st') : ptrSteps c e n st = n := by
  induction n generalizing st with
  | zero => rfl
  | succ n ih =>
    unfold arrayCheckLoop at h
    obtain ⟨⟨k, s1⟩, h1, h⟩ := bind_eq_ok.1 h
    simp only at h
    split at h
    · cases h
    next hif =>
    have h2 : arrayCheckLoop c e 1 st = .ok s1 := by
      simp only [arrayCheckLoop, h1, ok_bind]
      rw [if_neg hif]
    simp only [ptrSteps, h2, after]
    have : ptrSteps c e n s1 = n := ih h
    omega

/-- The items of an array. -/
theorem items {n : PyVal → Nat} {c : Counted} (hs : Steady c.dec) (hp : Makes n c) {fl : Flags} {k : Nat}
    {st st' : Stream} {vs : List PyVal} (hv : decodeN fl (wrapDyn c).dec k st = .ok (vs, st')) :
    (if c.dec.dyn then k else 0) + nSteps fl (wrapDyn c) k st =
      (vs.map fun x => n x + if c.dec.dyn then 3 else 0).sum := by
  induction k generalizing st vs with
  | zero =>
    injection hv with he1; injection he1 with hvs hy
    subst hvs
    simp [nSteps]
  | succ k ih =>
    unfold decodeN at hv
    obtain ⟨⟨v, s2⟩, hv1, hv⟩ := bind_eq_ok.1 hv
    obtain ⟨⟨vs', s3⟩, hv2, hv⟩ := bind_eq_ok.1 hv
    injection hv with he1; injection he1 with hvs hy
    subst hvs hy
    have h2 := ih hv2
    have h1 : (if c.dec.dyn then 1 else 0) + (wrapDyn c).steps fl st = n v + if c.dec.dyn then 3 else 0 := by
      cases hd : c.dec.dyn with
      | true =>
        have hw : wrapDyn c = headTail c := by unfold wrapDyn; rw [if_pos hd]
        rw [hw] at hv1 ⊢
        have hv1 : (EthAbi.headTail c.dec).call fl st = .ok (v, s2) := hv1
        obtain ⟨_, p, t1, t2, t3, g2, g3, g4⟩ := headTail_exact hs hv1
        rw [if_pos rfl, if_pos rfl, headTail_steps g2 g3]
        have := hp _ _ _ _ g4
        omega
      | false =>
        have hw : wrapDyn c = c := by unfold wrapDyn; rw [if_neg (by simp [hd])]
        rw [hw] at hv1 ⊢
        have := hp _ _ _ _ hv1
        rw [if_neg (by simp), if_neg (by simp)]
        omega
    simp only [nSteps, hv1, after, List.map_cons, List.sum_cons]
    cases hd : c.dec.dyn <;> rw [hd] at h1 h2 <;>
      simp only [Bool.false_eq_true, if_true, if_false] at h1 h2 ⊢ <;> omega

theorem array_makes {n : PyVal → Nat} {c : Counted} (hs : Steady c.dec) (hp : Makes n c)
    (hn : c.dec.isHeadTail = false) {fl : Flags} {k : Nat} {st s1 st' : Stream} {vs : List PyVal}
    (h1 : arrayValidatePointers (wrapDyn c).dec k st = .ok s1)
    (hv : decodeN fl (wrapDyn c).dec k s1 = .ok (vs, st')) :
    arraySteps fl (wrapDyn c) k st = (vs.map fun x => n x + if c.dec.dyn then 3 else 0).sum := by
  have hi := items hs hp hv
  unfold arraySteps
  rw [h1]
  simp only [after]
  have hht : (wrapDyn c).dec.isHeadTail = c.dec.dyn := by
    unfold wrapDyn
    cases hd : c.dec.dyn with
    | true => rw [if_pos rfl]; rfl
    | false => rw [if_neg (by simp)]; exact hn
  rw [hht]
  cases hd : c.dec.dyn with
  | true =>
    rw [hd] at hi hht
    unfold arrayValidatePointers at h1
    rw [hht, if_pos rfl] at h1
    obtain ⟨s2, h2, _⟩ := bind_eq_ok.1 h1
    rw [if_pos rfl, ptr_eq h2]
    exact hi
  | false => rw [hd] at hi; exact hi

theorem decOf_notHT (t : Ty) : (decOf t).isHeadTail = false := by cases t <;> rfl

theorem wrap_ofTy (t : Ty) : (wrapDyn (ofTy t)).dec = if t.dynamic then EthAbi.headTail (decOf t) else decOf t := by
  rw [wrapDyn_dec, ofTy_dec]
  unfold EthAbi.wrapDyn
  rw [decOf_dyn]

theorem ofTy_counts {t : Ty} (h : t.Valid) : Counts t (ofTy t) := by
  refine ⟨by rw [ofTy_dec]; exact decOf_steady h, ?_, by rw [ofTy_dec]; exact decOf_notHT t,
    by rw [ofTy_dec]; exact decOf_dyn t⟩
  induction t using Ty.ind with
  | sized k t ih =>
    intro fl st v st' hv
    replace hv : sizedArrayDecode fl (if t.dynamic then EthAbi.headTail (decOf t) else decOf t) k st = _ := hv
    rw [← wrap_ofTy] at hv
    unfold sizedArrayDecode at hv
    obtain ⟨s1, h1, hv⟩ := bind_eq_ok.1 hv
    obtain ⟨⟨vs, s2⟩, h2, hv⟩ := bind_eq_ok.1 hv
    injection hv with he1; injection he1 with hx hy
    subst hx hy
    have hs : Steady (ofTy t).dec := by rw [ofTy_dec]; exact decOf_steady h.2
    have := array_makes hs (ih h.2) (by rw [ofTy_dec]; exact decOf_notHT t) h1 h2
    rw [ofTy_dec, decOf_dyn] at this
    show 1 + arraySteps fl (wrapDyn (ofTy t)) k st = _
    rw [this, calls]
    rfl
  | dyn t ih =>
    intro fl st v st' hv
    replace hv : dynamicArrayDecode fl (if t.dynamic then EthAbi.headTail (decOf t) else decOf t) st = _ := hv
    rw [← wrap_ofTy] at hv
    unfold dynamicArrayDecode at hv
    obtain ⟨⟨k, s1⟩, h1, hv⟩ := bind_eq_ok.1 hv
    obtain ⟨s2, h2, hv⟩ := bind_eq_ok.1 hv
    obtain ⟨s3, h3, hv⟩ := bind_eq_ok.1 hv
    obtain ⟨⟨vs, s4⟩, h4, hv⟩ := bind_eq_ok.1 hv
    obtain ⟨s5, h5, hv⟩ := bind_eq_ok.1 hv
    injection hv with he1; injection he1 with hx hy
    subst hx hy
    have hs : Steady (ofTy t).dec := by rw [ofTy_dec]; exact decOf_steady h
    have := array_makes hs (ih h) (by rw [ofTy_dec]; exact decOf_notHT t) h3 h4
    rw [ofTy_dec, decOf_dyn] at this
    show 2 + after (decodeUint256 st) (fun (k, st) => after (st.pushFrame 32) fun st =>
        arraySteps fl (wrapDyn (ofTy t)) k st) = _
    rw [h1]
    simp only [after, h2]
    rw [this, calls]
    rfl
  | tuple ts ih =>
    intro fl st v st' hv
    show tupleSteps fl ((ofTys ts).map wrapDyn) st = _
    have hv : tupleDecode fl ((decsOf ts).map EthAbi.wrapDyn) st = .ok (v, st') := hv
    have hm : (decsOf ts).map EthAbi.wrapDyn = ((ofTys ts).map wrapDyn).map (·.dec) := by
      rw [← ofTys_dec]
      simp only [List.map_map]
      exact List.map_congr_left fun c _ => (wrapDyn_dec c).symm
    rw [hm] at hv
    refine tuple_makes ?_ hv
    rw [ofTys_map, List.forall₂_map_right_iff, List.forall₂_same]
    intro t ht
    have hv : t.Valid := (Ty.allValid_iff.1 h.2) t ht
    exact ⟨by rw [ofTy_dec]; exact decOf_steady hv, ih t ht hv, by rw [ofTy_dec]; exact decOf_notHT t,
      by rw [ofTy_dec]; exact decOf_dyn t⟩
  | _ => intro fl st v st' _; rfl

theorem setStrict_counts {t : Ty} (h : t.Valid) (strict : Bool) : Counts t ((ofTy t).setStrict strict) := by
  obtain ⟨hs, hp, hn, hd⟩ := ofTy_counts h
  refine ⟨?_, ?_, ?_, ?_⟩
  · simp only [Counted.setStrict, ofTy_dec]
    exact setStrict_steady h strict
  · have : ∀ fl st, ((ofTy t).setStrict strict).steps fl st = (ofTy t).steps fl st := fun _ _ => rfl
    intro fl st v st' hc
    rw [this]
    cases t with
    | sized k t =>
      refine hp fl st v st' (hc ▸ ?_)
      simp only [Counted.setStrict, ofTy_dec]
      unfold Decoder.setStrict
      split <;> rfl
    | dyn t =>
      refine hp fl st v st' (hc ▸ ?_)
      simp only [Counted.setStrict, ofTy_dec]
      unfold Decoder.setStrict
      split <;> rfl
    | tuple ts =>
      refine hp fl st v st' (hc ▸ ?_)
      simp only [Counted.setStrict, ofTy_dec]
      unfold Decoder.setStrict
      split <;> rfl
    | _ => rfl
  · rw [← hn]
    simp only [Counted.setStrict]
    unfold Decoder.setStrict
    split
    · split <;> rfl
    · rfl
  · rw [← hd]
    simp only [Counted.setStrict]
    unfold Decoder.setStrict
    split
    · split <;> rfl
    · rfl

/-! ## Bounds -/

theorem valueCount_pos (v : PyVal) : 0 < valueCount v := by cases v <;> simp [valueCount]

theorem tupleNesting_mem {t : Ty} {ts : List Ty} (h : t ∈ ts) : tupleNesting t ≤ tupleNestingAll ts := by
  induction ts with
  | nil => cases h
  | cons u us ih =>
    rw [tupleNestingAll]
    rcases List.mem_cons.1 h with rfl | h
    · omega
    · have := ih h; omega

theorem five_le (n : Nat) : 5 ≤ 5 * 2 ^ n := by
  have := Nat.pow_pos (n := n) (show 0 < 2 by omega)
  omega

theorem itemsOf_count (v : PyVal) : valueCounts (itemsOf v) + 1 ≤ valueCount v := by
  cases v <;> simp [itemsOf, valueCount, valueCounts]

theorem sum_le {K : Nat} {n : PyVal → Nat} (h : ∀ v, n v + 3 ≤ K * valueCount v) (d : Bool) (vs : List PyVal) :
    (vs.map fun x => n x + if d then 3 else 0).sum ≤ K * valueCounts vs := by
  induction vs with
  | nil => simp
  | cons v vs ih =>
    have := h v
    simp only [List.map_cons, List.sum_cons, valueCounts, Nat.mul_add]
    have : (if d = true then 3 else 0) ≤ 3 := by split <;> omega
    omega

theorem callsAll_le {K : Nat} {ts : List Ty} (h : ∀ t ∈ ts, ∀ v, calls t v + 3 ≤ K * valueCount v) (vs : List PyVal) :
    callsAll ts vs ≤ 2 * K * valueCounts vs := by
  induction ts generalizing vs with
  | nil => simp [callsAll]
  | cons t ts ih =>
    cases vs with
    | nil => simp [callsAll]
    | cons v vs =>
      have h1 := h t (by simp) v
      have h2 := ih (fun t ht => h t (by simp [ht])) vs
      have e : 2 * K * valueCount v = 2 * (K * valueCount v) := Nat.mul_assoc _ _ _
      simp only [callsAll, valueCounts, Nat.mul_add]
      split <;> omega

theorem calls_le (t : Ty) : ∀ v, calls t v + 3 ≤ 5 * 2 ^ tupleNesting t * valueCount v := by
  have arr : ∀ (K s c a : Nat), 5 ≤ K → s ≤ K * c → c + 1 ≤ a → 2 + s + 3 ≤ K * a := by
    intro K s c a h1 h2 h3
    have : K * (c + 1) ≤ K * a := Nat.mul_le_mul_left _ h3
    rw [Nat.mul_add] at this
    omega
  have leaf : ∀ v, 2 + 3 ≤ 5 * 2 ^ 0 * valueCount v := by
    intro v
    have := valueCount_pos v
    simp only [Nat.pow_zero]
    omega
  induction t using Ty.ind with
  | bytes => exact leaf
  | string => exact leaf
  | sized k t ih =>
    intro v
    have := arr _ _ _ _ (five_le _) (sum_le ih t.dynamic (itemsOf v)) (itemsOf_count v)
    rw [calls]
    show _ ≤ 5 * 2 ^ tupleNesting t * _
    omega
  | dyn t ih =>
    intro v
    have := arr _ _ _ _ (five_le _) (sum_le ih t.dynamic (itemsOf v)) (itemsOf_count v)
    rw [calls]
    exact this
  | tuple ts ih =>
    intro v
    have h1 := callsAll_le (K := 5 * 2 ^ tupleNestingAll ts) (ts := ts) (fun t ht v =>
      Nat.le_trans (ih t ht v) (Nat.mul_le_mul_right _ (Nat.mul_le_mul_left _
        (Nat.pow_le_pow_right (by omega) (tupleNesting_mem ht))))) (itemsOf v)
    have e : 5 * 2 ^ (tupleNestingAll ts + 1) = 2 * (5 * 2 ^ tupleNestingAll ts) := by rw [Nat.pow_succ]; ring
    have h5 := five_le (tupleNestingAll ts)
    have := arr _ _ _ _ (by omega) h1 (itemsOf_count v)
    rw [calls]
    show _ ≤ 5 * 2 ^ (tupleNestingAll ts + 1) * _
    rw [e]
    omega
  | _ => intro v; have := leaf v; simp only [calls, tupleNesting]; omega

theorem callsAll_ge {ts : List Ty} (h : ∀ t ∈ ts, ∀ x, Val.Of t x → valueCount (toPy t x) ≤ calls t (toPy t x)) :
    ∀ {xs : List Val}, Val.OfAll ts xs → valueCounts (toPyAll ts xs) ≤ callsAll ts (toPyAll ts xs) := by
  induction ts with
  | nil => intro xs hx; cases xs <;> simp [toPyAll, valueCounts, callsAll]
  | cons t ts ih =>
    intro xs hx
    cases xs with
    | nil => exact hx.elim
    | cons x xs =>
      have h1 := h t (by simp) x hx.1
      have h2 := ih (fun t ht => h t (by simp [ht])) hx.2
      simp only [toPyAll, valueCounts, callsAll]
      split <;> omega

theorem calls_ge (t : Ty) : ∀ x, Val.Of t x → valueCount (toPy t x) ≤ calls t (toPy t x) := by
  have arr : ∀ (t : Ty) (xs : List Val), (∀ x, Val.Of t x → valueCount (toPy t x) ≤ calls t (toPy t x)) →
      (∀ x ∈ xs, Val.Of t x) → valueCounts (xs.map (toPy t)) ≤
        ((xs.map (toPy t)).map fun x => calls t x + if t.dynamic then 3 else 0).sum := by
    intro t xs ih hx
    induction xs with
    | nil => simp [valueCounts]
    | cons x xs ihx =>
      have h1 := ih x (hx x (by simp))
      have h2 := ihx fun x hm => hx x (by simp [hm])
      simp only [List.map_cons, List.sum_cons, valueCounts] at h2 ⊢
      omega
  induction t using Ty.ind with
  | sized k t ih =>
    intro x hx
    cases x <;> first | exact hx.elim | skip
    have := arr t _ ih hx.2
    simp only [toPy, valueCount, calls, itemsOf]
    omega
  | dyn t ih =>
    intro x hx
    cases x <;> first | exact hx.elim | skip
    have := arr t _ ih hx
    simp only [toPy, valueCount, calls, itemsOf]
    omega
  | tuple ts ih =>
    intro x hx
    cases x <;> first | exact hx.elim | skip
    have := callsAll_ge ih hx
    simp only [toPy, valueCount, calls, itemsOf]
    omega
  | _ =>
    intro x hx
    cases x <;> first | exact hx.elim | (simp [toPy, valueCount, calls]; done)

theorem decode_counts [Ext] {types : List TypeStr} {ts : List Ty} (hT : List.Forall₂ Supported types ts)
    {data : Bytes} {strict : Bool} {v : PyVal} (h : decode types (.bytes data) strict = .ok v) :
    decodeSteps types data strict = calls (.tuple ts) v := by
  rw [decodeSteps_eq hT]
  have h : defaultRegistry.decodeWith (fun _ => true) types (.bytes data) strict = .ok v := h
  unfold Registry.decodeWith at h
  obtain ⟨b, hb, h⟩ := bind_eq_ok.1 h
  injection hb with hb
  subst hb
  obtain ⟨ds, hds, h⟩ := bind_eq_ok.1 h
  obtain ⟨⟨v', s'⟩, h2, h⟩ := bind_eq_ok.1 h
  injection h with h
  subst h
  obtain ⟨cs, hcs, hcd⟩ := lookups_dec hT strict
  rw [hcd] at hds
  injection hds with hds
  subst hds
  rw [lookups hT strict] at hcs
  injection hcs with hcs
  subst hcs
  have h2 : tupleDecode (fun _ => true) (((ts.map fun t => (ofTy t).setStrict strict).map (·.dec)).map EthAbi.wrapDyn)
      (Stream.init data) = .ok (v', s') := h2
  refine tuple_makes (cs := ts.map fun t => (ofTy t).setStrict strict) ?_ ?_ (st' := s')
  · rw [List.forall₂_map_right_iff, List.forall₂_same]
    intro t ht
    obtain ⟨s, _, hs⟩ := forall₂_mem_right hT ht
    exact setStrict_counts (supported_valid hs) strict
  · rw [← h2]
    congr 1
    simp only [List.map_map]
    exact List.map_congr_left fun c _ => wrapDyn_dec _

end Counted
end EthAbi
