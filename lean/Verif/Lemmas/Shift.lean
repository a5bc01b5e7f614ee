import Verif.Lemmas.Api

/-! # Reading behind a prefix -/
namespace EthAbi
open Spec

theorem at_shift {w d : Bytes} {p : Nat} {b : Bytes} : At (w ++ d) (w.length + p) b ↔ At d p b := by
  simp only [At, ← List.drop_drop, List.drop_left' rfl]

theorem readsBytes_shift {w d : Bytes} {p : Nat} {b : Bytes} :
    ReadsBytes (w ++ d) (w.length + p) b ↔ ReadsBytes d p b := by
  simp only [ReadsBytes, Nat.add_assoc, at_shift]

theorem readsItem_shift {dynamic : Bool} {R R' : Nat → Val → Prop} {w d : Bytes}
    (h : ∀ p x, R' (w.length + p) x ↔ R p x) {base lo q : Nat} {x : Val} :
    ReadsItem dynamic R' (w ++ d) (w.length + base) (w.length + lo) (w.length + q) x ↔
      ReadsItem dynamic R d base lo q x := by
  cases dynamic
  · simp only [ReadsItem, Bool.false_eq_true, if_false, h]
  · simp only [ReadsItem, if_true, at_shift, Nat.add_assoc, h, List.length_append]
    simp only [Nat.add_le_add_iff_left, Nat.add_lt_add_iff_left]

theorem readsAll_shift {mh : List Ty → Nat} {ts : List Ty} {w d : Bytes}
    (ih : ∀ t ∈ ts, ∀ p x, Reads mh true t (w ++ d) (w.length + p) x ↔ Reads mh true t d p x)
    {base lo q : Nat} {xs : List Val} :
    ReadsAll mh true ts (w ++ d) (w.length + base) (w.length + lo) (w.length + q) xs ↔
      ReadsAll mh true ts d base lo q xs := by
  induction ts generalizing q xs with
  | nil => cases xs <;> simp [ReadsAll]
  | cons t ts ih2 =>
    cases xs with
    | nil => simp [ReadsAll]
    | cons x xs =>
      simp only [ReadsAll, readsItem_shift (ih t (by simp))]
      rw [Nat.add_assoc, ih2 fun t ht => ih t (by simp [ht])]

theorem readsMany_shift {mh : List Ty → Nat} {t : Ty} {w d : Bytes}
    (ih : ∀ p x, Reads mh true t (w ++ d) (w.length + p) x ↔ Reads mh true t d p x)
    {base lo q : Nat} {xs : List Val} :
    ReadsMany t.dynamic (Reads mh true t (w ++ d)) (headStep t) (w ++ d) (w.length + base)
        (w.length + lo) (w.length + q) xs ↔
      ReadsMany t.dynamic (Reads mh true t d) (headStep t) d base lo q xs := by
  rw [readsMany_all, readsMany_all]
  exact readsAll_shift fun t' ht' => by rw [(List.mem_replicate.1 ht').2]; exact ih

theorem reads_shift {mh : List Ty → Nat} (t : Ty) : ∀ (w d : Bytes) (p : Nat) (x : Val),
    Reads mh true t (w ++ d) (w.length + p) x ↔ Reads mh true t d p x := by
  refine Spec.Ty.ind (P := fun t => ∀ (w d : Bytes) (p : Nat) (x : Val),
    Reads mh true t (w ++ d) (w.length + p) x ↔ Reads mh true t d p x)
    ?_ ?_ ?_ ?_ ?_ ?_ ?_ ?_ ?_ ?_ ?_ ?_ t
  iterate 7
    intros
    simp only [Reads, at_shift]
  · intro w d p x
    cases x <;> simp only [Reads, if_true, readsBytes_shift, at_shift]
  · intro w d p x
    cases x <;> simp only [Reads, if_true, readsBytes_shift, at_shift]
  · intro k t ih w d p x
    cases x <;> simp only [Reads, at_shift]
    rw [Nat.add_assoc, readsMany_shift (ih w d)]
  · intro t ih w d p x
    cases x <;> simp only [Reads, at_shift]
    simp only [Nat.add_assoc]
    rw [readsMany_shift (ih w d)]
  · intro ts ih w d p x
    cases x <;> simp only [Reads, at_shift]
    simp only [Nat.add_assoc]
    exact readsAll_shift fun t ht => ih t ht w d

end EthAbi
