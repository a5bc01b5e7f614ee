import Verif.Lemmas.SpecFacts
import Verif.Lemmas.Decimal
import Verif.Lemmas.Address
import Verif.Lemmas.Utf8
import Verif.Spec.Values

/-! # The canonical Python value of a value denotes that value -/
namespace EthAbi
open Spec

theorem gridDec_V (k : Int) (n : Nat) : (gridDec k n).V = k * (10 : ℚ) ^ (-(n : Int)) := by
  induction n generalizing k with
  | zero => simp [gridDec, Dec10.V]
  | succ n ih =>
    simp only [gridDec]
    split
    · next h =>
      rw [ih]
      have hk : k = 10 * (k / 10) := by omega
      have hk' : (k : ℚ) = 10 * ((k / 10 : Int) : ℚ) := by exact_mod_cast hk
      rw [hk', show (-((n + 1 : Nat) : Int)) = -(n : Int) - 1 by push_cast; ring, zpow_sub₀ (by norm_num)]
      field_simp
    · simp [Dec10.V]

theorem onGrid_gridDec (k : Int) (n : Nat) : onGrid? n (gridDec k n) = some k :=
  onGrid_some_iff.2 (gridDec_V k n)

theorem denote_toPy_list [Ext] {t : Ty} (ih : ∀ x, Val.Of t x → denote t (toPy t x) = some x) :
    ∀ xs : List Val, (∀ x ∈ xs, Val.Of t x) →
      List.Forall₂ (fun v x => denote t v = some x) (xs.map (toPy t)) xs
  | [], _ => .nil
  | x :: xs, h => .cons (ih x (h x (by simp))) (denote_toPy_list ih xs fun y hy => h y (by simp [hy]))

theorem denote_toPyAll [Ext] {ts : List Ty}
    (ih : ∀ t ∈ ts, ∀ x, Val.Of t x → denote t (toPy t x) = some x) {xs : List Val}
    (h : Val.OfAll ts xs) : denoteAll ts (toPyAll ts xs) = some xs := by
  induction ts generalizing xs with
  | nil => cases xs <;> simp [Val.OfAll] at h; rfl
  | cons t ts ih2 =>
    cases xs with
    | nil => simp [Val.OfAll] at h
    | cons x xs =>
      simp only [Val.OfAll] at h
      simp only [toPyAll]
      exact denoteAll_cons.2 ⟨x, xs, ih t (by simp) x h.1, ih2 (fun t ht => ih t (by simp [ht])) h.2, rfl⟩

theorem denote_toPy [Ext] (t : Ty) : ∀ x, Val.Of t x → denote t (toPy t x) = some x := by
  refine Spec.Ty.ind (P := fun t => ∀ x, Val.Of t x → denote t (toPy t x) = some x)
    ?_ ?_ ?_ ?_ ?_ ?_ ?_ ?_ ?_ ?_ ?_ ?_ t
  · intro n x h; cases x <;> simp only [Val.Of] at h
    simp [toPy, denote, h]
  · intro n x h; cases x <;> simp only [Val.Of] at h
    simp [toPy, denote, h]
  · intro x h; cases x <;> simp only [Val.Of] at h
    simp [toPy, denote, address_toPy h]
  · intro x h; cases x <;> simp only [Val.Of] at h
    rcases h with rfl | rfl <;> simp [toPy, denote]
  · intro m n x h; cases x <;> simp only [Val.Of] at h
    simp only [toPy, denote, number?, Option.bind_eq_bind, Option.bind_some, Prod.mk.eta, onGrid_gridDec,
      if_pos h]
  · intro m n x h; cases x <;> simp only [Val.Of] at h
    simp only [toPy, denote, number?, Option.bind_eq_bind, Option.bind_some, Prod.mk.eta, onGrid_gridDec,
      if_pos h]
  · intro m x h; cases x <;> simp only [Val.Of] at h
    simp [toPy, denote, asBytes?, h]
  · intro x h; cases x <;> simp only [Val.Of] at h
    simp [toPy, denote, asBytes?]
  · intro x h; cases x <;> simp only [Val.Of] at h
    simp [toPy, denote, h]
  · intro k t ih x h; cases x <;> simp only [Val.Of] at h <;> try exact h.elim
    rename_i xs
    exact denote_sized.2 ⟨_, xs, rfl, denote_toPy_list ih xs h.2, by simp [h.1], rfl⟩
  · intro t ih x h; cases x <;> simp only [Val.Of] at h <;> try exact h.elim
    rename_i xs
    exact denote_dyn.2 ⟨_, xs, rfl, denote_toPy_list ih xs h, rfl⟩
  · intro ts ih x h; cases x <;> simp only [Val.Of] at h <;> try exact h.elim
    rename_i xs
    exact denote_tuple.2 ⟨_, xs, rfl, denote_toPyAll ih h, rfl⟩

theorem toPy_noSurrogatesAll {ts : List Ty}
    (ih : ∀ t ∈ ts, ∀ x, Val.Of t x → NoSurrogates (toPy t x)) {xs : List Val}
    (h : Val.OfAll ts xs) : NoSurrogatesAll (toPyAll ts xs) := by
  induction ts generalizing xs with
  | nil => cases xs <;> simp [Val.OfAll] at h; simp [toPyAll, NoSurrogatesAll]
  | cons t ts ih2 =>
    cases xs with
    | nil => simp [Val.OfAll] at h
    | cons x xs =>
      exact ⟨ih t (by simp) x h.1, ih2 (fun t ht => ih t (by simp [ht])) h.2⟩

theorem noSurrogatesAll_map {f : Val → PyVal} {xs : List Val} (h : ∀ x ∈ xs, NoSurrogates (f x)) :
    NoSurrogatesAll (xs.map f) := by
  induction xs with
  | nil => trivial
  | cons x xs ih => exact ⟨h x (by simp), ih fun y hy => h y (by simp [hy])⟩

theorem utf8Encode_ascii {s : PyStr} (h : ∀ c ∈ s, c.val < 0x80) : (utf8Encode? s).isSome := by
  induction s with
  | nil => rfl
  | cons c cs ih =>
    obtain ⟨b, hb⟩ := Option.isSome_iff_exists.1 (ih fun c hc => h c (by simp [hc]))
    have hc : utf8Char c = some [UInt8.ofNat c.val] := by
      have hdef : utf8Char c = if c.val < 0x80 then some [UInt8.ofNat c.val] else _ := rfl
      rw [hdef, if_pos (h c (by simp))]
    simp [utf8Encode?, hc, hb]

theorem address_utf8 (b : Bytes) : (utf8Encode? (zeroX ++ encodeHexDigits b)).isSome := by
  refine utf8Encode_ascii fun c hc => ?_
  rcases List.mem_append.1 hc with hc | hc
  · simp only [zeroX, List.mem_cons, List.not_mem_nil, or_false] at hc
    rcases hc with rfl | rfl <;> simp only <;> omega
  · obtain ⟨n, rfl⟩ := mem_encodeHexDigits hc
    have := Nat.mod_lt n (show 0 < 16 by omega)
    unfold hexDigit; split <;> simp only <;> omega

theorem toPy_noSurrogates [Ext] (t : Ty) : ∀ x, Val.Of t x → NoSurrogates (toPy t x) := by
  refine Spec.Ty.ind (P := fun t => ∀ x, Val.Of t x → NoSurrogates (toPy t x))
    ?_ ?_ ?_ ?_ ?_ ?_ ?_ ?_ ?_ ?_ ?_ ?_ t
  · intro n x h; cases x <;> simp only [Val.Of] at h; trivial
  · intro n x h; cases x <;> simp only [Val.Of] at h; trivial
  · intro x h; cases x <;> simp only [Val.Of] at h
    rename_i b
    simp only [toPy, NoSurrogates]
    exact address_utf8 b
  · intro x h; cases x <;> simp only [Val.Of] at h; trivial
  · intro m n x h; cases x <;> simp only [Val.Of] at h; trivial
  · intro m n x h; cases x <;> simp only [Val.Of] at h; trivial
  · intro m x h; cases x <;> simp only [Val.Of] at h; trivial
  · intro x h; cases x <;> simp only [Val.Of] at h; trivial
  · intro x h; cases x <;> simp only [Val.Of] at h; exact h
  · intro k t ih x h; cases x <;> simp only [Val.Of] at h <;> try exact h.elim
    exact noSurrogatesAll_map fun x hx => ih x (h.2 x hx)
  · intro t ih x h; cases x <;> simp only [Val.Of] at h <;> try exact h.elim
    exact noSurrogatesAll_map fun x hx => ih x (h x hx)
  · intro ts ih x h; cases x <;> simp only [Val.Of] at h <;> try exact h.elim
    exact toPy_noSurrogatesAll ih h

theorem toPy_onGridAll_aux {ts : List Ty} (ih : ∀ t ∈ ts, ∀ x, Val.Of t x → OnGrid t (toPy t x))
    {xs : List Val} (h : Val.OfAll ts xs) : OnGridAll ts (toPyAll ts xs) := by
  induction ts generalizing xs with
  | nil => cases xs <;> simp [Val.OfAll] at h; simp [OnGridAll]
  | cons t ts ih2 =>
    cases xs with
    | nil => simp [Val.OfAll] at h
    | cons x xs =>
      exact ⟨ih t (by simp) x h.1, ih2 (fun t ht => ih t (by simp [ht])) h.2⟩

theorem toPy_onGrid (t : Ty) : ∀ x, Val.Of t x → OnGrid t (toPy t x) := by
  refine Spec.Ty.ind (P := fun t => ∀ x, Val.Of t x → OnGrid t (toPy t x))
    ?_ ?_ ?_ ?_ ?_ ?_ ?_ ?_ ?_ ?_ ?_ ?_ t
  · intro n x h; cases x <;> simp only [Val.Of] at h; simp [OnGrid]
  · intro n x h; cases x <;> simp only [Val.Of] at h; simp [OnGrid]
  · intro x h; cases x <;> simp only [Val.Of] at h; simp [OnGrid]
  · intro x h; cases x <;> simp only [Val.Of] at h; simp [OnGrid]
  · intro m n x h; cases x <;> simp only [Val.Of] at h
    intro y hy
    simp only [toPy, number?, Prod.mk.eta] at hy
    injection hy with hy
    subst hy
    rw [onGrid_gridDec]; rfl
  · intro m n x h; cases x <;> simp only [Val.Of] at h
    intro y hy
    simp only [toPy, number?, Prod.mk.eta] at hy
    injection hy with hy
    subst hy
    rw [onGrid_gridDec]; rfl
  · intro m x h; cases x <;> simp only [Val.Of] at h; simp [OnGrid]
  · intro x h; cases x <;> simp only [Val.Of] at h; simp [OnGrid]
  · intro x h; cases x <;> simp only [Val.Of] at h; simp [OnGrid]
  · intro k t ih x h; cases x <;> simp only [Val.Of] at h <;> try exact h.elim
    intro vs hvs u hu
    cases hvs
    obtain ⟨y, hy, rfl⟩ := List.mem_map.1 hu
    exact ih y (h.2 y hy)
  · intro t ih x h; cases x <;> simp only [Val.Of] at h <;> try exact h.elim
    intro vs hvs u hu
    cases hvs
    obtain ⟨y, hy, rfl⟩ := List.mem_map.1 hu
    exact ih y (h y hy)
  · intro ts ih x h; cases x <;> simp only [Val.Of] at h <;> try exact h.elim
    intro vs hvs
    cases hvs
    exact toPy_onGridAll_aux ih h

theorem toPy_onGridAll {ts : List Ty} {xs : List Val} (h : Val.OfAll ts xs) :
    OnGridAll ts (toPyAll ts xs) := toPy_onGridAll_aux (fun t _ => toPy_onGrid t) h

end EthAbi
