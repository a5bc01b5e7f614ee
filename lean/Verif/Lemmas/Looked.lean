import Verif.Spec.Looked
import Verif.Lemmas.Api

/-! # The bytes a result depends on -/
namespace EthAbi
open Spec

/-- `P` holds for all data that agree with `d` at some `n` positions. -/
def Foot (strict : Bool) (d : Bytes) (n : Nat) (P : Bytes → Prop) : Prop :=
  ∃ S : List Nat, S.length ≤ n ∧ (∀ p ∈ S, p < d.length) ∧ ∀ d', LongAs strict d d' → AgreeAt S d d' → P d'

theorem longAs_le {strict : Bool} {d d' : Bytes} (h : LongAs strict d d') : d.length ≤ d'.length := by
  cases strict
  · exact Nat.le_of_eq (Eq.symm h)
  · exact h

namespace Foot
variable {strict : Bool} {d : Bytes} {n m : Nat} {P Q : Bytes → Prop}

theorem of_strict (h : Foot true d n P) : Foot strict d n P := by
  obtain ⟨S, h1, h2, h3⟩ := h
  exact ⟨S, h1, h2, fun d' hl => h3 d' (longAs_le hl)⟩

theorem mono (h : Foot strict d n P) (hn : n ≤ m) (hP : ∀ d', LongAs strict d d' → P d' → Q d') : Foot strict d m Q := by
  obtain ⟨S, h1, h2, h3⟩ := h
  exact ⟨S, by omega, h2, fun d' hl ha => hP d' hl (h3 d' hl ha)⟩

theorem and (hP : Foot strict d n P) (hQ : Foot strict d m Q) : Foot strict d (n + m) (fun d' => P d' ∧ Q d') := by
  obtain ⟨S, h1, h2, h3⟩ := hP
  obtain ⟨T, g1, g2, g3⟩ := hQ
  refine ⟨S ++ T, by simp; omega, ?_, ?_⟩
  · intro p hp
    rcases List.mem_append.1 hp with h | h
    · exact h2 p h
    · exact g2 p h
  · intro d' hl ha
    exact ⟨h3 d' hl fun p hp => ha p (by simp [hp]), g3 d' hl fun p hp => ha p (by simp [hp])⟩

theorem always (h : ∀ d', LongAs strict d d' → P d') : Foot strict d 0 P :=
  ⟨[], by simp, by simp, fun d' hl _ => h d' hl⟩

end Foot

theorem foot_at {d : Bytes} {p : Nat} {b : Bytes} (h : At d p b) : Foot true d b.length (fun d' => At d' p b) := by
  refine ⟨List.range' p b.length, by simp, ?_, ?_⟩
  · intro q hq
    simp only [List.mem_range'_1] at hq
    have := at_length h (by omega)
    omega
  · intro d' _ ha
    rw [At, List.prefix_iff_getElem?] at h ⊢
    intro i hi
    rw [← h i hi, List.getElem?_drop, List.getElem?_drop]
    exact ha _ (by simp only [List.mem_range'_1]; omega)

theorem foot_bytes {d : Bytes} {p : Nat} {b : Bytes} (h : ReadsBytes d p b) :
    Foot true d (be32 b.length ++ padRight32 b).length (fun d' => ReadsBytes d' p b) := by
  rw [List.length_append]
  exact (foot_at h.1).and (foot_at h.2)

theorem foot_lax {d : Bytes} {p : Nat} {b : Bytes} (h : ReadsBytesLax d p b) :
    Foot false d (be32 b.length ++ padRight32 b).length (fun d' => ReadsBytesLax d' p b) := by
  obtain ⟨n, h1, h2, h3, h4⟩ := h
  have hb : At d (p + 32) b := by rw [h4]; exact List.take_prefix _ _
  have hf := (foot_at h2).of_strict (strict := false) |>.and ((foot_at hb).of_strict (strict := false))
  refine hf.mono ?_ ?_
  · simp only [List.length_append, be32_length, padRight32]
    omega
  · rintro d' hl ⟨g1, g2⟩
    refine ⟨n, h1, g1, h3, ?_⟩
    have hl : d'.length = d.length := hl
    have hlen : ((d'.drop (p + 32)).take n).length = b.length := by
      rw [h4]; simp [hl]
    have := List.prefix_of_prefix_length_le g2 (List.take_prefix n (d'.drop (p + 32))) (by rw [hlen])
    exact this.eq_of_length hlen.symm

theorem tails_length (es : List Elem) : (tails es).length = (es.map fun e => if e.1 then e.2.length else 0).sum := by
  induction es with
  | nil => rfl
  | cons e es ih => obtain ⟨dy, b⟩ := e; cases dy <;> simp [tails, ih]

theorem heads_len (off : Nat) (es : List Elem) : (heads off es).length = headSize es := by
  induction es generalizing off with
  | nil => rfl
  | cons e es ih => obtain ⟨dy, b⟩ := e; cases dy <;> simp [heads, headSize, ih, be32_length]

/-- The bytes of an element: with its offset, if it has one. -/
theorem layout_len_cons (dy : Bool) (b : Bytes) (es : List Elem) :
    (layout ((dy, b) :: es)).length = ((if dy then 32 else 0) + b.length) + (layout es).length := by
  simp only [layout, List.length_append, heads_len, headSize, tails]
  cases dy <;> simp <;> omega

theorem foot_item {strict : Bool} {dynamic : Bool} {R : Bytes → Nat → Val → Prop} {d : Bytes} {base lo q n : Nat} {x : Val}
    (h : ReadsItem dynamic (R d) d base lo q x)
    (hR : ∀ p, R d p x → Foot strict d n (fun d' => R d' p x)) :
    Foot strict d ((if dynamic then 32 else 0) + n) (fun d' => ReadsItem dynamic (R d') d' base lo q x) := by
  cases dynamic with
  | false =>
    simp only [ReadsItem, Bool.false_eq_true, if_false, Nat.zero_add] at h ⊢
    exact hR q h
  | true =>
    simp only [ReadsItem, if_true] at h ⊢
    obtain ⟨off, h1, h2, h3, h4, h5⟩ := h
    have := (foot_at h2).of_strict (strict := strict) |>.and (hR _ h5)
    rw [be32_length] at this
    refine this.mono (Nat.le_refl _) ?_
    rintro d' hl ⟨g1, g2⟩
    exact ⟨off, h1, g1, h3, lt_of_lt_of_le h4 (longAs_le hl), g2⟩

theorem foot_many {strict : Bool} {t : Ty} {R : Bytes → Nat → Val → Prop} {step : Nat} {d : Bytes} {base lo q : Nat}
    {xs : List Val} (h : ReadsMany t.dynamic (R d) step d base lo q xs)
    (hR : ∀ x p, R d p x → Foot strict d (enc t x).length (fun d' => R d' p x)) :
    Foot strict d (layout (xs.map fun v => (t.dynamic, enc t v))).length
      (fun d' => ReadsMany t.dynamic (R d') step d' base lo q xs) := by
  induction xs generalizing q with
  | nil => exact (Foot.always fun _ _ => trivial).mono (Nat.zero_le _) fun _ _ h => h
  | cons x xs ih =>
    rw [List.map_cons, layout_len_cons]
    exact (foot_item h.1 (hR x)).and (ih h.2)

theorem foot_all {mh : List Ty → Nat} {strict : Bool} {ts : List Ty}
    (ih : ∀ t ∈ ts, ∀ d p x, Reads mh strict t d p x → Foot strict d (enc t x).length (fun d' => Reads mh strict t d' p x))
    {d : Bytes} {base lo q : Nat} {xs : List Val} (h : ReadsAll mh strict ts d base lo q xs) :
    Foot strict d (layout (encAll ts xs)).length (fun d' => ReadsAll mh strict ts d' base lo q xs) := by
  induction ts generalizing q xs with
  | nil =>
    cases xs with
    | nil => exact (Foot.always fun _ _ => by simp only [ReadsAll]).mono (Nat.zero_le _) fun _ _ h => h
    | cons _ _ => simp only [ReadsAll] at h
  | cons t ts ih2 =>
    cases xs with
    | nil => simp only [ReadsAll] at h
    | cons x xs =>
      simp only [ReadsAll, encAll, layout_len_cons] at h ⊢
      exact (foot_item (R := fun d => Reads mh strict t d) h.1 (fun p hp => ih t (by simp) d p x hp)).and
        (ih2 (fun t ht => ih t (by simp [ht])) h.2)

theorem foot_leaf {d : Bytes} {p : Nat} {t : Ty} {x : Val} {strict : Bool} (h : Val.Of t x ∧ At d p (enc t x)) :
    Foot strict d (enc t x).length (fun d' => Val.Of t x ∧ At d' p (enc t x)) :=
  ((foot_at h.2).mono (Nat.le_refl _) fun _ _ g => ⟨h.1, g⟩).of_strict

theorem foot_reads (mh : List Ty → Nat) (t : Ty) : ∀ strict d p x, Reads mh strict t d p x →
    Foot strict d (enc t x).length (fun d' => Reads mh strict t d' p x) := by
  refine Spec.Ty.ind (P := fun t => ∀ strict d p x, Reads mh strict t d p x →
    Foot strict d (enc t x).length (fun d' => Reads mh strict t d' p x)) ?_ ?_ ?_ ?_ ?_ ?_ ?_ ?_ ?_ ?_ ?_ ?_ t
  · intro n strict d p x h; simp only [Reads] at h ⊢; exact foot_leaf h
  · intro n strict d p x h; simp only [Reads] at h ⊢; exact foot_leaf h
  · intro strict d p x h; simp only [Reads] at h ⊢; exact foot_leaf h
  · intro strict d p x h; simp only [Reads] at h ⊢; exact foot_leaf h
  · intro m n strict d p x h; simp only [Reads] at h ⊢; exact foot_leaf h
  · intro m n strict d p x h; simp only [Reads] at h ⊢; exact foot_leaf h
  · intro n strict d p x h; simp only [Reads] at h ⊢; exact foot_leaf h
  · intro strict d p x h
    cases x with
    | raw b =>
      simp only [Reads, enc] at h ⊢
      cases strict
      · exact foot_lax h
      · exact foot_bytes h
    | _ => simp only [Reads] at h; exact absurd h.1 (by simp [Val.Of])
  · intro strict d p x h
    cases x with
    | text s =>
      simp only [Reads] at h ⊢
      obtain ⟨b, hb, h⟩ := h
      simp only [enc, hb]
      cases strict
      · exact (foot_lax h).mono (Nat.le_refl _) fun _ _ g => ⟨b, rfl, g⟩
      · exact (foot_bytes h).mono (Nat.le_refl _) fun _ _ g => ⟨b, rfl, g⟩
    | _ => simp only [Reads] at h; exact absurd h.1 (by simp [Val.Of])
  · intro k t ih strict d p x h
    cases x with
    | seq xs =>
      simp only [Reads, enc] at h ⊢
      refine ((foot_many (R := fun d => Reads mh true t d) h.2 fun x p hx => ih true d p x hx).mono (Nat.le_refl _)
        fun _ _ g => ⟨h.1, g⟩).of_strict
    | _ => simp only [Reads] at h; exact absurd h.1 (by simp [Val.Of])
  · intro t ih strict d p x h
    cases x with
    | seq xs =>
      simp only [Reads, enc, List.length_append] at h ⊢
      exact (((foot_at h.2.1).and (foot_many (R := fun d => Reads mh true t d) h.2.2 fun x p hx => ih true d p x hx)).mono
        (Nat.le_refl _) fun _ _ g => ⟨h.1, g⟩).of_strict
    | _ => simp only [Reads] at h; exact absurd h.1 (by simp [Val.Of])
  · intro ts ih strict d p x h
    cases x with
    | seq xs =>
      simp only [Reads, enc] at h ⊢
      exact (foot_all (fun t ht d p x hx => ih t ht true d p x hx) h).of_strict
    | _ => simp only [Reads] at h; exact absurd h.1 (by simp [Val.Of])

theorem foot_args {mh : List Ty → Nat} {strict : Bool} {ts : List Ty} {d : Bytes} {xs : List Val}
    (h : ReadsArgs mh strict ts d xs) :
    Foot strict d (encodeArgs ts xs).length (fun d' => ReadsArgs mh strict ts d' xs) :=
  foot_all (fun t _ => foot_reads mh t strict) h

end EthAbi
