import Verif.Lemmas.Shadow
import Verif.Lemmas.DecOf

/-!
# What decoding makes of any encoding

The fixed-point words of an encoding may be words of no value (`Verif/Lemmas/Shadow.lean`).  What the decoder makes of them
depends on the words only, and the only exception is `NonEmptyPaddingBytes`.
-/
namespace EthAbi
open Spec

mutual
/-- The value of type `t` in place of a value of `shadow t`. -/
def refill : Ty → Val → PyM Val
  | .ufixed m n, .raw b => leafDec (.ufixed m n) b
  | .fixed m n, .raw b => leafDec (.fixed m n) b
  | .sized _ t, .seq xs => do
    let ys ← refillMany (refill t) xs
    return .seq ys
  | .dyn t, .seq xs => do
    let ys ← refillMany (refill t) xs
    return .seq ys
  | .tuple ts, .seq xs => do
    let ys ← refillAll ts xs
    return .seq ys
  | _, x => .ok x
/-- The same for a list of types. -/
def refillAll : List Ty → List Val → PyM (List Val)
  | t :: ts, x :: xs => do
    let y ← refill t x
    let ys ← refillAll ts xs
    return y :: ys
  | _, _ => .ok []
/-- The same for a list of values of one type. -/
def refillMany (f : Val → PyM Val) : List Val → PyM (List Val)
  | [] => .ok []
  | x :: xs => do
    let y ← f x
    let ys ← refillMany f xs
    return y :: ys
end

/-- A result, or `NonEmptyPaddingBytes`. -/
def OrPadding {α : Type} (r : PyM α) : Prop := (∃ v, r = .ok v) ∨ r = .error .nonEmptyPaddingBytes

theorem OrPadding.ok {α : Type} (v : α) : OrPadding (.ok v : PyM α) := .inl ⟨v, rfl⟩

theorem OrPadding.bind {α β : Type} {r : PyM α} {f : α → PyM β} (h : OrPadding r) (hf : ∀ v, OrPadding (f v)) :
    OrPadding (r >>= f) := by
  rcases h with ⟨v, rfl⟩ | rfl
  · exact hf v
  · exact .inr rfl

theorem refillMany_tame {f : Val → PyM Val} (hf : ∀ x, OrPadding (f x)) (xs : List Val) : OrPadding (refillMany f xs) := by
  induction xs with
  | nil => exact .ok _
  | cons x xs ih => rw [refillMany]; exact (hf x).bind fun _ => ih.bind fun _ => .ok _

theorem refillAll_tame {ts : List Ty} (hf : ∀ t ∈ ts, ∀ x, OrPadding (refill t x)) (xs : List Val) :
    OrPadding (refillAll ts xs) := by
  induction ts generalizing xs with
  | nil => simp only [refillAll]; exact .ok _
  | cons t ts ih =>
    cases xs with
    | nil => simp only [refillAll]; exact .ok _
    | cons x xs =>
      rw [refillAll]
      exact (hf t (by simp) x).bind fun _ => (ih (fun t ht => hf t (by simp [ht])) xs).bind fun _ => .ok _

theorem leafU_tame (n : Nat) (b : Bytes) : OrPadding (leafU n b) := by
  unfold leafU
  split
  · exact .ok _
  · exact .inr rfl

theorem leafS_tame (n : Nat) (b : Bytes) : OrPadding (leafS n b) := by
  unfold leafS
  dsimp only
  split <;> split <;> first | exact .ok _ | exact .inr rfl

theorem refill_tame (t : Ty) : ∀ x, OrPadding (refill t x) := by
  refine Spec.Ty.ind (P := fun t => ∀ x, OrPadding (refill t x)) ?_ ?_ ?_ ?_ ?_ ?_ ?_ ?_ ?_ ?_ ?_ ?_ t
  · intro n x; cases x <;> exact .ok _
  · intro n x; cases x <;> exact .ok _
  · intro x; cases x <;> exact .ok _
  · intro x; cases x <;> exact .ok _
  · intro m n x; cases x <;> first | exact .ok _ | exact leafU_tame _ _
  · intro m n x; cases x <;> first | exact .ok _ | exact leafS_tame _ _
  · intro n x; cases x <;> exact .ok _
  · intro x; cases x <;> exact .ok _
  · intro x; cases x <;> exact .ok _
  · intro k t ih x
    cases x <;> simp only [refill] <;> first | exact .ok _ | exact (refillMany_tame ih _).bind fun _ => .ok _
  · intro t ih x
    cases x <;> simp only [refill] <;> first | exact .ok _ | exact (refillMany_tame ih _).bind fun _ => .ok _
  · intro ts ih x
    cases x <;> simp only [refill] <;> first | exact .ok _ | exact (refillAll_tame ih _).bind fun _ => .ok _

theorem posItem_refill {dynamic : Bool} {f g : Nat → PyM Val} {h : Val → PyM Val} {d : Bytes}
    (hf : ∀ p y, f p = .ok y → g p = h y) {base p : Nat} {y : Val} (hy : posItem dynamic f d base p = .ok y) :
    posItem dynamic g d base p = h y := by
  unfold posItem at hy ⊢
  cases dynamic with
  | false => exact hf _ _ hy
  | true =>
    simp only [if_true, bind_eq_ok] at hy ⊢
    obtain ⟨off, h1, h2⟩ := hy
    rw [h1]
    simp only [ok_bind]
    split at h2
    · cases h2
    · next hn =>
      rw [if_neg hn]
      exact hf _ _ h2

theorem posMany_refill {f g : Nat → PyM Val} {h : Val → PyM Val} (hf : ∀ p y, f p = .ok y → g p = h y) {step k p : Nat}
    {ys : List Val} (hy : posMany f step k p = .ok ys) : posMany g step k p = refillMany h ys := by
  induction k generalizing p ys with
  | zero => cases hy; rfl
  | succ k ih =>
    simp only [posMany, bind_eq_ok] at hy
    obtain ⟨x, h1, xs, h2, h3⟩ := hy
    cases h3
    rw [posMany, refillMany, hf _ _ h1, ih h2]

theorem posSeq_refill {dynamic : Bool} {f g : Nat → PyM Val} {h : Val → PyM Val} {d : Bytes}
    (hf : ∀ p y, f p = .ok y → g p = h y) {step k p : Nat} {ys : List Val}
    (hy : posSeq dynamic f step k d p = .ok ys) : posSeq dynamic g step k d p = refillMany h ys := by
  unfold posSeq at hy ⊢
  obtain ⟨_, h1, h2⟩ := bind_eq_ok.1 hy
  rw [h1, ok_bind]
  exact posMany_refill (fun p y hp => posItem_refill hf hp) h2

theorem posAll_refill {strict : Bool} {ts : List Ty} {d : Bytes}
    (hf : ∀ t ∈ ts, ∀ p y, posDec strict (shadow t) d p = .ok y → posDec strict t d p = refill t y) {base p : Nat}
    {ys : List Val} (hy : posAll strict (shadows ts) d base p = .ok ys) :
    posAll strict ts d base p = refillAll ts ys := by
  induction ts generalizing p ys with
  | nil => simp only [shadows, posAll] at hy ⊢; cases hy; simp only [refillAll]
  | cons t ts ih =>
    simp only [shadows, posAll, bind_eq_ok, shadow_dynamic, shadow_headStep] at hy
    obtain ⟨x, h1, xs, h2, h3⟩ := hy
    cases h3
    rw [posAll, refillAll, posItem_refill (hf t (by simp)) h1, ih (fun t ht => hf t (by simp [ht])) h2]

theorem checkAll_refill {strict : Bool} {ts : List Ty} {d : Bytes}
    (hf : ∀ t ∈ ts, ∀ p y, posDec true (shadow t) d p = .ok y → posDec true t d p = refill t y) {base lo p : Nat}
    {ys : List Val} (hc : checkAll (shadows ts) d base lo p = .ok ())
    (hy : posAll strict (shadows ts) d base p = .ok ys) :
    checkAll ts d base lo p = .ok () ∨
      checkAll ts d base lo p = .error .nonEmptyPaddingBytes ∧ refillAll ts ys = .error .nonEmptyPaddingBytes := by
  induction ts generalizing p ys with
  | nil => exact .inl rfl
  | cons t ts ih =>
    simp only [shadows, posAll, bind_eq_ok, shadow_dynamic, shadow_headStep] at hy
    obtain ⟨x, h1, xs, h2, h3⟩ := hy
    cases h3
    simp only [shadows, checkAll, checkHead, shadow_dynamic, shadow_headStep] at hc
    obtain ⟨_, hc1, hc2⟩ := bind_eq_ok.1 hc
    have ih := ih (fun t ht => hf t (by simp [ht])) hc2 h2
    rw [checkAll, checkHead, refillAll]
    cases hd : t.dynamic with
    | true =>
      simp only [hd, if_true] at hc1 ⊢
      rw [hc1, ok_bind]
      rcases ih with ih | ⟨ih1, ih2⟩
      · exact .inl ih
      · refine .inr ⟨ih1, ?_⟩
        rw [ih2]
        rcases refill_tame t x with ⟨v, hv⟩ | hv <;> rw [hv] <;> rfl
    | false =>
      simp only [hd, Bool.false_eq_true, if_false] at hc1 ⊢
      obtain ⟨x', h5, -⟩ := bind_eq_ok.1 hc1
      have hx : x' = x := by
        simp only [posItem, hd, Bool.false_eq_true, if_false] at h1
        rw [posDec_static_strict (by rw [shadow_dynamic, hd]) strict true] at h1
        rw [h1] at h5
        cases h5; rfl
      subst hx
      rw [hf t (by simp) _ _ h5]
      rcases refill_tame t x' with ⟨v, hv⟩ | hv
      · rw [hv]
        simp only [ok_bind]
        rcases ih with ih | ⟨ih1, ih2⟩
        · exact .inl ih
        · exact .inr ⟨ih1, by rw [ih2]; rfl⟩
      · rw [hv]
        exact .inr ⟨rfl, rfl⟩

theorem tuple_refill {strict : Bool} {ts : List Ty} {d : Bytes}
    (hf : ∀ strict, ∀ t ∈ ts, ∀ p y, posDec strict (shadow t) d p = .ok y → posDec strict t d p = refill t y)
    {base lo p : Nat} {ys : List Val} (hc : checkAll (shadows ts) d base lo p = .ok ())
    (hy : posAll strict (shadows ts) d base p = .ok ys) :
    (checkAll ts d base lo p >>= fun _ => posAll strict ts d base p) = refillAll ts ys := by
  rcases checkAll_refill (hf true) hc hy with h | ⟨h1, h2⟩
  · rw [h, ok_bind, posAll_refill (hf strict) hy]
  · rw [h1, h2]; rfl

theorem shadow_headWordsAll (ts : List Ty) : headWordsAll (shadows ts) = headWordsAll ts := by
  have h : ∀ t, headWords (shadow t) = headWords t := by
    intro t
    have h1 := shadow_dynamic t
    have h2 : arrayDim (shadow t) = arrayDim t := by cases t <;> rfl
    simp only [headWords, h1, h2]
  simp only [headWordsAll, shadows_eq, List.map_map]
  congr 2
  funext t
  exact h t

theorem word_refill {d : Bytes} {p : Nat} {y : Val} {t : Ty} (hl : t.isLeaf = true) {strict : Bool}
    (h : posDec strict (.bytesM 32) d p = .ok y) : ∃ b, y = .raw b ∧ posDec strict t d p = leafDec t b := by
  rw [posDec_leaf rfl, bind_eq_ok] at h
  obtain ⟨b, h1, h2⟩ := h
  have hb : b.length = 32 := by
    unfold bytesAt at h1
    split at h1
    · next hp => cases h1; simp; omega
    · cases h1
  refine ⟨b, ?_, by rw [posDec_leaf hl, h1]; rfl⟩
  simp only [leafDec] at h2
  split at h2
  · cases h2; rw [List.take_of_length_le (by omega)]
  · cases h2

theorem posDec_refill (t : Ty) : ∀ (strict : Bool) (d : Bytes) (p : Nat) (y : Val),
    posDec strict (shadow t) d p = .ok y → posDec strict t d p = refill t y := by
  refine Spec.Ty.ind (P := fun t => ∀ (strict : Bool) (d : Bytes) (p : Nat) (y : Val),
    posDec strict (shadow t) d p = .ok y → posDec strict t d p = refill t y) ?_ ?_ ?_ ?_ ?_ ?_ ?_ ?_ ?_ ?_ ?_ ?_ t
  · intro n s d p y h; exact h.trans (by cases y <;> rfl)
  · intro n s d p y h; exact h.trans (by cases y <;> rfl)
  · intro s d p y h; exact h.trans (by cases y <;> rfl)
  · intro s d p y h; exact h.trans (by cases y <;> rfl)
  · intro m n s d p y h
    obtain ⟨b, rfl, h'⟩ := word_refill (t := .ufixed m n) rfl h
    exact h'
  · intro m n s d p y h
    obtain ⟨b, rfl, h'⟩ := word_refill (t := .fixed m n) rfl h
    exact h'
  · intro n s d p y h; exact h.trans (by cases y <;> rfl)
  · intro s d p y h; exact h.trans (by cases y <;> rfl)
  · intro s d p y h; exact h.trans (by cases y <;> rfl)
  · intro k t ih s d p y h
    simp only [shadow, posDec, shadow_dynamic, shadow_headStep, bind_eq_ok] at h
    obtain ⟨xs, h1, h2⟩ := h
    cases h2
    simp only [posDec, refill]
    rw [posSeq_refill (ih true d) h1]
  · intro t ih s d p y h
    simp only [shadow, posDec, shadow_dynamic, shadow_headStep, bind_eq_ok] at h
    obtain ⟨k, hk, xs, h1, h2⟩ := h
    cases h2
    simp only [posDec, refill]
    rw [hk, ok_bind, posSeq_refill (ih true d) h1]
  · intro ts ih s d p y h
    simp only [shadow, posDec, bind_eq_ok, shadow_headWordsAll] at h
    obtain ⟨_, hc, xs, h1, h2⟩ := h
    cases h2
    simp only [posDec, refill]
    rw [← tuple_refill (fun s t ht => ih t ht s d) hc h1, bind_assoc']

theorem posTop_refill {strict : Bool} {ts : List Ty} {d : Bytes} {ys : List Val}
    (h : posTop strict (shadows ts) d = .ok ys) : posTop strict ts d = refillAll ts ys := by
  simp only [posTop, bind_eq_ok, shadow_headWordsAll] at h
  obtain ⟨_, hc, h1⟩ := h
  unfold posTop
  exact tuple_refill (fun s t _ => posDec_refill t s d) hc h1

end EthAbi
