import Verif.Lemmas.Errors

/-! # Decoded sequences are no longer than the data -/
namespace EthAbi
open Spec

theorem headBytes_words {ts : List Ty} (hv : ∀ t ∈ ts, t.Valid) : 32 * ts.length ≤ headBytes ts :=
  (codeHead_words hv).trans (codeHead_le hv)

theorem everySeqs_iff {P : Nat → Prop} {vs : List PyVal} :
    EverySeqs P vs ↔ ∀ v ∈ vs, EverySeq P v := by
  induction vs with
  | nil => simp [EverySeqs]
  | cons v vs ih => simp [EverySeqs, ih]

theorem readsItem_exists {dynamic : Bool} {R : Nat → Val → Prop} {d : Bytes} {base lo q : Nat}
    {x : Val} (h : ReadsItem dynamic R d base lo q x) : ∃ p, R p x := by
  cases dynamic with
  | true => obtain ⟨off, _, _, _, _, h⟩ := h; exact ⟨_, h⟩
  | false => exact ⟨q, h⟩

theorem readsMany_mem {dynamic : Bool} {R : Nat → Val → Prop} {step : Nat} {d : Bytes}
    {base lo q : Nat} {xs : List Val} (h : ReadsMany dynamic R step d base lo q xs) :
    ∀ x ∈ xs, ∃ p, R p x := by
  induction xs generalizing q with
  | nil => simp
  | cons x xs ih =>
    intro y hy
    rcases List.mem_cons.1 hy with rfl | hy
    · exact readsItem_exists h.1
    · exact ih h.2 y hy

theorem readsAll_everySeqs {P : Nat → Prop} {mh : List Ty → Nat} {strict : Bool} {ts : List Ty}
    {d : Bytes} (ih : ∀ t ∈ ts, ∀ p x, Reads mh strict t d p x → EverySeq P (toPy t x))
    {base lo q : Nat} {xs : List Val} (h : ReadsAll mh strict ts d base lo q xs) :
    EverySeqs P (toPyAll ts xs) := by
  induction ts generalizing q xs with
  | nil => cases xs <;> simp [toPyAll, EverySeqs]
  | cons t ts ih2 =>
    cases xs with
    | nil => simp [toPyAll, EverySeqs]
    | cons x xs =>
      simp only [ReadsAll] at h
      obtain ⟨p, hp⟩ := readsItem_exists h.1
      exact ⟨ih t (by simp) p x hp, ih2 (fun t ht => ih t (by simp [ht])) h.2⟩

theorem toPyAll_length {ts : List Ty} {xs : List Val} (h : xs.length = ts.length) :
    (toPyAll ts xs).length = ts.length := by
  induction ts generalizing xs with
  | nil => cases xs <;> simp [toPyAll] at *
  | cons t ts ih =>
    cases xs with
    | nil => simp at h
    | cons x xs => simp only [toPyAll, List.length_cons] at *; rw [ih (by omega)]

theorem readsAll_words {mh : List Ty → Nat} {strict : Bool} {ts : List Ty} {d : Bytes}
    (hv : ∀ t ∈ ts, t.Valid) {base lo q : Nat} {xs : List Val}
    (h : ReadsAll mh strict ts d base lo q xs) : 32 * ts.length ≤ d.length := by
  by_cases hne : ts = []
  · subst hne; simp
  · have := readsAll_head hv h hne
    have := headBytes_words hv
    omega

theorem reads_everySeq {mh : List Ty → Nat} (t : Ty) : t.Valid → ∀ (strict : Bool) (d : Bytes) (p : Nat)
    (x : Val), Reads mh strict t d p x → EverySeq (fun k => 32 * k ≤ d.length) (toPy t x) := by
  refine Spec.Ty.ind (P := fun t => t.Valid → ∀ (strict : Bool) (d : Bytes) (p : Nat)
    (x : Val), Reads mh strict t d p x → EverySeq (fun k => 32 * k ≤ d.length) (toPy t x))
    ?_ ?_ ?_ ?_ ?_ ?_ ?_ ?_ ?_ ?_ ?_ ?_ t
  iterate 9
    intros
    rename_i x h
    have hof := reads_of _ _ _ _ _ h
    cases x <;> first | (simp [toPy, EverySeq]; done) | exact hof.elim
  · intro k t ih hv strict d p x h
    have hof := reads_of _ _ _ _ _ h
    cases x with
    | seq xs =>
      simp only [toPy, EverySeq, List.length_map, everySeqs_iff, List.mem_map]
      have h' := h
      simp only [Reads] at h
      constructor
      · rw [readsMany_all] at h
        have := readsAll_words (by
          intro t' ht'; rw [(List.mem_replicate.1 ht').2]; exact hv.2) h.2
        simpa using this
      · rintro v ⟨y, hy, rfl⟩
        obtain ⟨p', hp'⟩ := readsMany_mem h.2 y hy
        exact ih hv.2 _ _ _ _ hp'
    | _ => exact hof.elim
  · intro t ih hv strict d p x h
    have hof := reads_of _ _ _ _ _ h
    cases x with
    | seq xs =>
      simp only [toPy, EverySeq, List.length_map, everySeqs_iff, List.mem_map]
      constructor
      · have := reads_dyn_length (t := t) hv h
        have h1 := headStep_pos (t := t) hv
        nlinarith
      · simp only [Reads] at h
        rintro v ⟨y, hy, rfl⟩
        obtain ⟨p', hp'⟩ := readsMany_mem h.2.2 y hy
        exact ih hv _ _ _ _ hp'
    | _ => exact hof.elim
  · intro ts ih hv strict d p x h
    have hof := reads_of _ _ _ _ _ h
    have hv' := Ty.allValid_iff.1 hv.2
    cases x with
    | seq xs =>
      simp only [Reads] at h
      simp only [toPy, EverySeq]
      refine ⟨?_, readsAll_everySeqs (fun t ht => ih t ht (hv' t ht) true d) h⟩
      rw [toPyAll_length (readsAll_length h)]
      exact readsAll_words hv' h
    | _ => exact hof.elim

theorem readsArgs_everySeq {mh : List Ty → Nat} {strict : Bool} {ts : List Ty}
    (hv : ∀ t ∈ ts, t.Valid) {d : Bytes} {xs : List Val} (h : ReadsArgs mh strict ts d xs) :
    EverySeq (fun k => 32 * k ≤ d.length) (.tuple (toPyAll ts xs)) := by
  simp only [EverySeq]
  refine ⟨?_, readsAll_everySeqs (fun t ht => reads_everySeq t (hv t ht) strict d) h⟩
  rw [toPyAll_length (readsAll_length h)]
  exact readsAll_words hv h

end EthAbi
