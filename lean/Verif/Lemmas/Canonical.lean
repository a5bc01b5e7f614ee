import Verif.Lemmas.Api

/-! # The canonical Python value of a value of the type is one -/
namespace EthAbi
open Spec

theorem hexDigit_lower (n : Nat) : IsLowerHex (hexDigit n) := by
  have := Nat.mod_lt n (show 0 < 16 by omega)
  unfold hexDigit IsLowerHex; split <;> simp only <;> omega

theorem toPy_canonicalAll {ts : List Ty} (ih : ∀ t ∈ ts, ∀ x, Val.Of t x → Canonical t (toPy t x))
    {xs : List Val} (h : Val.OfAll ts xs) : CanonicalAll ts (toPyAll ts xs) := by
  induction ts generalizing xs with
  | nil => cases xs <;> simp [Val.OfAll] at h; simp [toPyAll, CanonicalAll]
  | cons t ts ih2 =>
    cases xs with
    | nil => exact h.elim
    | cons x xs => exact ⟨ih t (by simp) x h.1, ih2 (fun t ht => ih t (by simp [ht])) h.2⟩

theorem toPy_canonical (t : Ty) : ∀ x, Val.Of t x → Canonical t (toPy t x) := by
  refine Spec.Ty.ind (P := fun t => ∀ x, Val.Of t x → Canonical t (toPy t x))
    ?_ ?_ ?_ ?_ ?_ ?_ ?_ ?_ ?_ ?_ ?_ ?_ t
  · intro n x h; cases x <;> simp only [Val.Of] at h; exact h
  · intro n x h; cases x <;> simp only [Val.Of] at h; exact h
  · intro x h
    cases x <;> simp only [Val.Of] at h
    rename_i b
    refine ⟨by simp [encodeHexDigits_length, h, zeroX], rfl, fun c hc => ?_⟩
    obtain ⟨n, rfl⟩ := mem_encodeHexDigits (b := b) (by simpa [zeroX] using hc)
    exact hexDigit_lower n
  · intro x h; cases x <;> simp only [Val.Of] at h; trivial
  · intro m n x h; cases x <;> simp only [Val.Of] at h
    exact ⟨_, gridDec_V _ n, h.1, h.2⟩
  · intro m n x h; cases x <;> simp only [Val.Of] at h
    exact ⟨_, gridDec_V _ n, h.1, h.2⟩
  · intro m x h; cases x <;> simp only [Val.Of] at h; exact h
  · intro x h; cases x <;> simp only [Val.Of] at h; trivial
  · intro x h; cases x <;> simp only [Val.Of] at h; exact h
  · intro k t ih x h
    cases x <;> simp only [Val.Of] at h
    simp only [toPy, Canonical, List.length_map, List.mem_map]
    refine ⟨h.1, ?_⟩
    rintro v ⟨y, hy, rfl⟩
    exact ih y (h.2 y hy)
  · intro t ih x h
    cases x <;> simp only [Val.Of] at h
    simp only [toPy, Canonical, List.mem_map]
    rintro v ⟨y, hy, rfl⟩
    exact ih y (h y hy)
  · intro ts ih x h
    cases x <;> simp only [Val.Of] at h
    exact toPy_canonicalAll ih h

end EthAbi
