import Verif.Lemmas.Taken

/-! # What the arguments are taken for has only one encoding: every `fixedMxN` read as `fixed256xN` -/
namespace EthAbi
open Spec

mutual
def widen : Ty → Ty
  | .fixed _ n => .fixed 256 n
  | .sized k t => .sized k (widen t)
  | .dyn t => .dyn (widen t)
  | .tuple ts => .tuple (widenAll ts)
  | t => t
def widenAll : List Ty → List Ty
  | [] => []
  | t :: ts => widen t :: widenAll ts
end

theorem widen_dynamic (t : Ty) : (widen t).dynamic = t.dynamic := by
  refine Spec.Ty.ind (P := fun t => (widen t).dynamic = t.dynamic) ?_ ?_ ?_ ?_ ?_ ?_ ?_ ?_ ?_ ?_ ?_ ?_ t
  iterate 9
    intros
    rfl
  · intro k t ih; simpa only [widen, Ty.dynamic] using ih
  · intro t ih; rfl
  · intro ts ih
    simp only [widen, Ty.dynamic]
    induction ts with
    | nil => rfl
    | cons t ts ih2 =>
      simp only [widenAll, Ty.anyDynamic]
      rw [ih t (by simp), ih2 fun t ht => ih t (by simp [ht])]

theorem widen_encAll {ts : List Ty} (ih : ∀ t ∈ ts, ∀ x, enc (widen t) x = enc t x) :
    ∀ xs, encAll (widenAll ts) xs = encAll ts xs := by
  induction ts with
  | nil => intro xs; rfl
  | cons t ts ih2 =>
    intro xs
    cases xs with
    | nil => rfl
    | cons x xs =>
      simp only [widenAll, encAll]
      rw [ih t (by simp), ih2 (fun t ht => ih t (by simp [ht])), widen_dynamic]

theorem widen_enc (t : Ty) : ∀ x, enc (widen t) x = enc t x := by
  refine Spec.Ty.ind (P := fun t => ∀ x, enc (widen t) x = enc t x) ?_ ?_ ?_ ?_ ?_ ?_ ?_ ?_ ?_ ?_ ?_ ?_ t
  iterate 9
    intros
    rename_i x
    cases x <;> rfl
  · intro k t ih x; cases x <;> simp only [widen, enc, widen_dynamic, ih]
  · intro t ih x; cases x <;> simp only [widen, enc, widen_dynamic, ih]
  · intro ts ih x; cases x <;> simp only [widen, enc, widen_encAll ih]

theorem widen_args (ts : List Ty) (xs : List Val) : encodeArgs (widenAll ts) xs = encodeArgs ts xs := by
  simp only [encodeArgs, widen_encAll fun t _ => widen_enc t]

theorem widenAll_valid {ts : List Ty} (ih : ∀ t ∈ ts, t.Valid → (widen t).Valid) (h : ∀ t ∈ ts, t.Valid) :
    ∀ t ∈ widenAll ts, t.Valid := by
  induction ts with
  | nil => simp [widenAll]
  | cons t ts ih2 =>
    intro u hu
    simp only [widenAll, List.mem_cons] at hu
    rcases hu with rfl | hu
    · exact ih t (by simp) (h t (by simp))
    · exact ih2 (fun t ht => ih t (by simp [ht])) (fun t ht => h t (by simp [ht])) u hu

theorem widen_valid (t : Ty) : t.Valid → (widen t).Valid := by
  refine Spec.Ty.ind (P := fun t => t.Valid → (widen t).Valid) ?_ ?_ ?_ ?_ ?_ ?_ ?_ ?_ ?_ ?_ ?_ ?_ t
  iterate 5
    intros
    assumption
  · intro m n h; exact ⟨by decide, h.2⟩
  iterate 3
    intros
    assumption
  · intro k t ih h; exact ⟨h.1, ih h.2⟩
  · intro t ih h; exact ih h
  · intro ts ih h
    refine ⟨?_, Ty.allValid_iff.2 (widenAll_valid ih (Ty.allValid_iff.1 h.2))⟩
    have := h.1
    cases ts with
    | nil => exact absurd rfl this
    | cons t ts => simp [widenAll]

theorem takenFixed_fits {m n : Nat} (hm : validBits m) {x : Dec10} {k : Int} (h : takenFixed m n x = some k) :
    fitsS 256 k := by
  obtain ⟨_, _, hmm⟩ := hm
  have hp : (2 : Int) ^ (m - 1) ≤ 2 ^ 255 := pow_le_pow_right₀ (by norm_num) (by omega)
  have h0 : (0 : Int) < 2 ^ (m - 1) := by positivity
  show -(2 ^ 255 : Int) ≤ k ∧ k < 2 ^ 255
  simp only [takenFixed] at h
  split at h
  · split at h
    · next hf => cases h; obtain ⟨h1, h2⟩ := hf; omega
    · cases h
  · split at h
    · next hc =>
      obtain ⟨h1, h2⟩ := hc
      injection h with h
      generalize hq : x.1 / 10 ^ (-(x.2 + (n : Int))).toNat = q at h h2
      have hq0 : q < 0 := by rw [← hq]; exact Int.ediv_neg_of_neg_of_pos h1 (by positivity)
      split at h <;> subst h <;> omega
    · cases h

theorem takenAll_of [Ext] {ts : List Ty} (ih : ∀ t ∈ ts, t.Valid → ∀ v x, taken t v = some x → Val.Of (widen t) x)
    (h : ∀ t ∈ ts, t.Valid) {vs : List PyVal} {xs : List Val} (hx : takenAll ts vs = some xs) :
    Val.OfAll (widenAll ts) xs := by
  induction ts generalizing vs xs with
  | nil =>
    cases vs with
    | nil => cases hx; trivial
    | cons v vs => cases hx
  | cons t ts ih2 =>
    cases vs with
    | nil => cases hx
    | cons v vs =>
      obtain ⟨y, ys, h1, h2, rfl⟩ := takenAll_cons.1 hx
      exact ⟨ih t (by simp) (h t (by simp)) v y h1,
        ih2 (fun t ht => ih t (by simp [ht])) (fun t ht => h t (by simp [ht])) h2⟩

theorem forall₂_of [Ext] {t : Ty} (ih : ∀ v x, taken t v = some x → Val.Of (widen t) x) {vs : List PyVal} {xs : List Val}
    (h : List.Forall₂ (fun v x => taken t v = some x) vs xs) : ∀ x ∈ xs, Val.Of (widen t) x := by
  induction h with
  | nil => simp
  | cons h1 _ ih2 =>
    intro y hy
    rcases List.mem_cons.1 hy with rfl | hy
    · exact ih _ _ h1
    · exact ih2 y hy

/-- What an argument is taken for is a value of the type with every `fixedMxN` widened. -/
theorem taken_of [Ext] (t : Ty) : t.Valid → ∀ v x, taken t v = some x → Val.Of (widen t) x := by
  refine Spec.Ty.ind (P := fun t => t.Valid → ∀ v x, taken t v = some x → Val.Of (widen t) x)
    ?_ ?_ ?_ ?_ ?_ ?_ ?_ ?_ ?_ ?_ ?_ ?_ t
  iterate 5
    intros
    rename_i v x h
    exact denote_of _ v x h
  · intro m n hv v x h
    obtain ⟨y, k, _, h2, rfl⟩ := taken_fixed.1 h
    exact takenFixed_fits hv.1 h2
  iterate 3
    intros
    rename_i v x h
    exact denote_of _ v x h
  · intro k t ih hv v x h
    obtain ⟨vs, xs, _, h2, h3, rfl⟩ := taken_sized.1 h
    exact ⟨by rw [← h2.length_eq, h3], forall₂_of (ih hv.2) h2⟩
  · intro t ih hv v x h
    obtain ⟨vs, xs, _, h2, rfl⟩ := taken_dyn.1 h
    exact forall₂_of (ih hv) h2
  · intro ts ih hv v x h
    obtain ⟨vs, xs, _, h2, rfl⟩ := taken_tuple.1 h
    exact takenAll_of ih (Ty.allValid_iff.1 hv.2) h2

end EthAbi
