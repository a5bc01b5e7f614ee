import Verif.Lemmas.Errors

/-! # What a decoder does when bytes are appended to the data -/
namespace EthAbi
open Spec

/-- The two errors that more data may cure. -/
def Short (e : Exc) : Prop := e = .insufficientDataBytes ∨ e = .invalidPointer

/-- What was a result on the shorter data is one on the longer, and an error is the same unless it may be cured. -/
def Grow {α : Type} (r r' : PyM α) : Prop :=
  (∀ x, r = .ok x → r' = .ok x) ∧ ∀ e, r = .error e → ¬ Short e → r' = .error e

theorem Grow.refl {α : Type} (r : PyM α) : Grow r r := ⟨fun _ h => h, fun _ h _ => h⟩

theorem Grow.short {α : Type} {r r' : PyM α} {e : Exc} (h : r = .error e) (he : Short e) : Grow r r' := by
  subst h
  exact ⟨fun _ h => (by cases h), fun _ h hn => (by cases h; exact absurd he hn)⟩

theorem Grow.bind {α β : Type} {r r' : PyM α} {f f' : α → PyM β} (h : Grow r r')
    (hf : ∀ x, r = .ok x → Grow (f x) (f' x)) : Grow (r >>= f) (r' >>= f') := by
  cases hr : r with
  | ok x =>
    rw [h.1 x hr, ok_bind, ok_bind]
    exact hf x hr
  | error e =>
    rw [error_bind]
    refine ⟨fun _ h => (by cases h), fun e' he hn => ?_⟩
    cases he
    rw [h.2 e hr hn, error_bind]

theorem bytesAt_grow (d more : Bytes) (p n : Nat) : Grow (bytesAt d p n) (bytesAt (d ++ more) p n) := by
  unfold bytesAt
  by_cases h : p + n ≤ d.length
  · have h' : p + n ≤ (d ++ more).length := by rw [List.length_append]; omega
    rw [if_pos h, if_pos h', List.drop_append_of_le_length (by omega),
      List.take_append_of_le_length (by rw [List.length_drop]; omega)]
    exact .refl _
  · rw [if_neg h]
    exact .short rfl (.inl rfl)

theorem wordAt_grow (d more : Bytes) (p : Nat) : Grow (wordAt d p) (wordAt (d ++ more) p) :=
  (bytesAt_grow d more p 32).bind fun _ _ => .refl _

theorem posBytes_grow (d more : Bytes) (p : Nat) : Grow (posBytes true d p) (posBytes true (d ++ more) p) := by
  unfold posBytes
  refine (wordAt_grow d more p).bind fun n hn => ?_
  have hp : p + 32 ≤ d.length := by
    have := (wordAt_iff.1 hn)
    simp only [wordAt, bytesAt] at hn
    split at hn
    · assumption
    · cases hn
  by_cases ho : ssizeMax < ceil32 n
  · simp only [if_pos ho]
    exact .refl _
  · simp only [if_neg ho]
    by_cases hl : ((d.drop (p + 32)).take (ceil32 n)).length < ceil32 n
    · simp only [if_pos hl]
      exact .short rfl (.inl rfl)
    · have : ((d ++ more).drop (p + 32)).take (ceil32 n) = (d.drop (p + 32)).take (ceil32 n) := by
        rw [List.drop_append_of_le_length hp, List.take_append_of_le_length]
        rw [List.length_take] at hl
        omega
      rw [this]
      exact .refl _

theorem checkPtr_grow (d more : Bytes) (base lo p : Nat) :
    Grow (checkPtr d base lo p) (checkPtr (d ++ more) base lo p) := by
  unfold checkPtr
  refine (wordAt_grow d more p).bind fun off _ => ?_
  by_cases h : base + off < lo ∨ d.length ≤ base + off
  · rw [if_pos h]
    exact .short rfl (.inr rfl)
  · have h' : ¬ (base + off < lo ∨ (d ++ more).length ≤ base + off) := by rw [List.length_append]; omega
    rw [if_neg h, if_neg h']
    exact .refl _

theorem checkPtrs_grow (d more : Bytes) (base lo k p : Nat) :
    Grow (checkPtrs d base lo k p) (checkPtrs (d ++ more) base lo k p) := by
  induction k generalizing p with
  | zero => exact .refl _
  | succ k ih => exact (checkPtr_grow d more base lo p).bind fun _ _ => ih _

theorem posItem_grow {dynamic : Bool} {f f' : Nat → PyM Val} {d more : Bytes} (hf : ∀ p, Grow (f p) (f' p))
    (base p : Nat) : Grow (posItem dynamic f d base p) (posItem dynamic f' (d ++ more) base p) := by
  unfold posItem
  split
  · refine (wordAt_grow d more p).bind fun off _ => ?_
    split
    · exact .refl _
    · exact hf _
  · exact hf _

theorem posMany_grow {f f' : Nat → PyM Val} (hf : ∀ p, Grow (f p) (f' p)) (step k p : Nat) :
    Grow (posMany f step k p) (posMany f' step k p) := by
  induction k generalizing p with
  | zero => exact .refl _
  | succ k ih => exact (hf p).bind fun _ _ => (ih _).bind fun _ _ => .refl _

theorem posSeq_grow {dynamic : Bool} {f f' : Nat → PyM Val} {d more : Bytes} (hf : ∀ p, Grow (f p) (f' p))
    (step k p : Nat) : Grow (posSeq dynamic f step k d p) (posSeq dynamic f' step k (d ++ more) p) := by
  unfold posSeq
  refine Grow.bind ?_ fun _ _ => posMany_grow (posItem_grow hf p) step k p
  split
  · exact checkPtrs_grow ..
  · exact .refl _

theorem checkAll_grow {ts : List Ty} {d more : Bytes}
    (hf : ∀ t ∈ ts, ∀ p, Grow (posDec true t d p) (posDec true t (d ++ more) p)) (base lo p : Nat) :
    Grow (checkAll ts d base lo p) (checkAll ts (d ++ more) base lo p) := by
  induction ts generalizing p with
  | nil => exact .refl _
  | cons t ts ih =>
    simp only [checkAll, checkHead]
    refine Grow.bind ?_ fun _ _ => ih (fun t ht => hf t (by simp [ht])) _
    split
    · exact checkPtr_grow ..
    · exact (hf t (by simp) p).bind fun _ _ => .refl _

theorem posAll_grow {ts : List Ty} {d more : Bytes}
    (hf : ∀ t ∈ ts, ∀ p, Grow (posDec true t d p) (posDec true t (d ++ more) p)) (base p : Nat) :
    Grow (posAll true ts d base p) (posAll true ts (d ++ more) base p) := by
  induction ts generalizing p with
  | nil => exact .refl _
  | cons t ts ih =>
    simp only [posAll]
    exact (posItem_grow (hf t (by simp)) base p).bind fun _ _ =>
      (ih (fun t ht => hf t (by simp [ht])) _).bind fun _ _ => .refl _

theorem posDec_grow (d more : Bytes) (t : Ty) :
    ∀ p : Nat, Grow (posDec true t d p) (posDec true t (d ++ more) p) := by
  refine Spec.Ty.ind (P := fun t => ∀ p : Nat, Grow (posDec true t d p) (posDec true t (d ++ more) p))
    ?_ ?_ ?_ ?_ ?_ ?_ ?_ ?_ ?_ ?_ ?_ ?_ t
  iterate 7
    intros
    rw [posDec_leaf rfl, posDec_leaf rfl]
    exact (bytesAt_grow d more _ 32).bind fun _ _ => .refl _
  · intro p
    simp only [posDec]
    exact (posBytes_grow d more p).bind fun _ _ => .refl _
  · intro p
    simp only [posDec]
    exact (posBytes_grow d more p).bind fun _ _ => .refl _
  · intro k t ih p
    simp only [posDec]
    exact (posSeq_grow ih _ _ _).bind fun _ _ => .refl _
  · intro t ih p
    simp only [posDec]
    exact (wordAt_grow d more p).bind fun k _ => (posSeq_grow ih _ _ _).bind fun _ _ => .refl _
  · intro ts ih p
    simp only [posDec]
    exact (checkAll_grow ih _ _ _).bind fun _ _ => (posAll_grow ih _ _).bind fun _ _ => .refl _

theorem posTop_grow (ts : List Ty) (d more : Bytes) : Grow (posTop true ts d) (posTop true ts (d ++ more)) :=
  (checkAll_grow (fun t _ => posDec_grow d more t) _ _ _).bind fun _ _ =>
    posAll_grow (fun t _ => posDec_grow d more t) _ _

/-! ## Static types -/

/-- The errors in what takes the bytes from `p` to `q`. -/
def StaticErr (d : Bytes) (q : Nat) (e : Exc) : Prop :=
  e = .nonEmptyPaddingBytes ∨ (e = .insufficientDataBytes ∧ d.length < q)

theorem StaticErr.mono {d : Bytes} {q q' : Nat} {e : Exc} (h : StaticErr d q e) (hq : q ≤ q') : StaticErr d q' e :=
  h.imp id fun ⟨h1, h2⟩ => ⟨h1, by omega⟩

theorem posMany_static {f : Nat → PyM Val} {d : Bytes} {base step k p : Nat} {e : Exc}
    (hf : ∀ p e, f p = .error e → StaticErr d (p + step) e)
    (h : posMany (posItem false f d base) step k p = .error e) : StaticErr d (p + k * step) e := by
  induction k generalizing p with
  | zero => cases h
  | succ k ih =>
    simp only [posMany, bind_eq_error, pure_eq_ok] at h
    rcases h with h | ⟨_, _, h | ⟨_, _, h⟩⟩
    · exact (hf _ _ h).mono (by rw [Nat.add_mul]; omega)
    · exact (ih h).mono (by rw [Nat.add_mul]; omega)
    · cases h

theorem checkAll_static {ts : List Ty} {d : Bytes} {base lo p : Nat} {e : Exc}
    (hs : Ty.anyDynamic ts = false)
    (hf : ∀ t ∈ ts, t.dynamic = false → ∀ p e, posDec true t d p = .error e → StaticErr d (p + t.size) e)
    (h : checkAll ts d base lo p = .error e) : StaticErr d (p + Ty.sizes ts) e := by
  induction ts generalizing p with
  | nil => cases h
  | cons t ts ih =>
    simp only [Ty.anyDynamic, Bool.or_eq_false_iff] at hs
    simp only [checkAll, checkHead, headStep, hs.1, bind_eq_error, Bool.false_eq_true, if_false] at h
    simp only [Ty.sizes]
    rcases h with (h | ⟨_, _, h⟩) | ⟨_, _, h⟩
    · exact (hf t (by simp) hs.1 _ _ h).mono (by omega)
    · cases h
    · exact (ih hs.2 (fun t ht => hf t (by simp [ht])) h).mono (by omega)

theorem posAll_static {strict : Bool} {ts : List Ty} {d : Bytes} {base p : Nat} {e : Exc}
    (hs : Ty.anyDynamic ts = false)
    (hf : ∀ t ∈ ts, t.dynamic = false → ∀ p e, posDec strict t d p = .error e → StaticErr d (p + t.size) e)
    (h : posAll strict ts d base p = .error e) : StaticErr d (p + Ty.sizes ts) e := by
  induction ts generalizing p with
  | nil => cases h
  | cons t ts ih =>
    simp only [Ty.anyDynamic, Bool.or_eq_false_iff] at hs
    simp only [posAll, posItem, headStep, hs.1, bind_eq_error, Bool.false_eq_true, if_false, pure_eq_ok] at h
    simp only [Ty.sizes]
    rcases h with h | ⟨_, _, h | ⟨_, _, h⟩⟩
    · exact (hf t (by simp) hs.1 _ _ h).mono (by omega)
    · exact (ih hs.2 (fun t ht => hf t (by simp [ht])) h).mono (by omega)
    · cases h

theorem posDec_static (t : Ty) : t.dynamic = false → ∀ (strict : Bool) (d : Bytes) (p : Nat) (e : Exc),
    posDec strict t d p = .error e → StaticErr d (p + t.size) e := by
  refine Spec.Ty.ind (P := fun t => t.dynamic = false → ∀ (strict : Bool) (d : Bytes) (p : Nat) (e : Exc),
    posDec strict t d p = .error e → StaticErr d (p + t.size) e) ?_ ?_ ?_ ?_ ?_ ?_ ?_ ?_ ?_ ?_ ?_ ?_ t
  iterate 7
    intros
    rename_i h
    rw [posDec_leaf rfl, bind_eq_error] at h
    rcases h with h | ⟨b, h1, h⟩
    · refine .inr ⟨bytesAt_error h, ?_⟩
      simp only [bytesAt] at h
      split at h
      · cases h
      · simp only [Ty.size]; omega
    · exact .inl (leafDec_error rfl h)
  · intro h; cases h
  · intro h; cases h
  · intro k t ih hs strict d p e h
    have hs' : t.dynamic = false := hs
    simp only [posDec, bind_eq_error, pure_eq_ok, posSeq, hs', Bool.false_eq_true, if_false, headStep] at h
    rcases h with (h | ⟨_, _, h⟩) | ⟨_, _, h⟩
    · cases h
    · exact posMany_static (fun p e he => ih hs' true d p e he) h
    · cases h
  · intro t _ h; cases h
  · intro ts ih hs strict d p e h
    have hs' : Ty.anyDynamic ts = false := hs
    simp only [posDec, bind_eq_error, pure_eq_ok] at h
    rcases h with h | ⟨_, h1, h | ⟨_, _, h⟩⟩
    · exact checkAll_static hs' (fun t ht hst p e => ih t ht hst true d p e) h
    · exact posAll_static hs' (fun t ht hst p e => ih t ht hst true d p e) h
    · cases h

theorem posTop_static {strict : Bool} {ts : List Ty} {d : Bytes} {e : Exc} (hs : Ty.anyDynamic ts = false)
    (h : posTop strict ts d = .error e) : StaticErr d (Ty.sizes ts) e := by
  simp only [posTop, bind_eq_error] at h
  rcases h with h | ⟨_, _, h⟩
  · simpa using checkAll_static hs (fun t _ hst p e => posDec_static t hst true d p e) h
  · simpa using posAll_static hs (fun t _ hst p e => posDec_static t hst strict d p e) h

end EthAbi
