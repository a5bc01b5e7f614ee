import Verif.Lemmas.Api

/-! # Which exceptions a decoding raises, and when -/
namespace EthAbi
open Spec

/-- A length word so large that the padded length does not fit in `Py_ssize_t`. -/
def HugeWord (d : Bytes) : Prop := ∃ p n, n < 2 ^ 256 ∧ At d p (be32 n) ∧ ssizeMax < ceil32 n

/-- A byte string that is not UTF-8. -/
def BadText (d : Bytes) : Prop := ∃ p b, ReadsBytesLax d p b ∧ ∀ s, utf8Encode? s ≠ some b

/-- The exceptions of decoding a type that has byte strings (`hb`) or texts (`hs`) in it. -/
def ErrOf (d : Bytes) (hb hs : Prop) (e : Exc) : Prop :=
  e = .insufficientDataBytes ∨ e = .nonEmptyPaddingBytes ∨ e = .invalidPointer ∨
    (e = .overflowError ∧ hb ∧ HugeWord d) ∨ (e = .unicodeDecodeError ∧ hs ∧ BadText d)

theorem ErrOf.mono {d : Bytes} {hb hb' hs hs' : Prop} (h1 : hb → hb') (h2 : hs → hs') {e : Exc}
    (h : ErrOf d hb hs e) : ErrOf d hb' hs' e := by
  unfold ErrOf at *
  tauto

theorem posBytes_cause {strict : Bool} {d : Bytes} {p : Nat} {e : Exc} {hs : Prop}
    (h : posBytes strict d p = .error e) : ErrOf d True hs e := by
  simp only [posBytes, bind_eq_error] at h
  rcases h with h | ⟨n, h1, h2⟩
  · exact Or.inl (wordAt_error h)
  · split at h2
    · next hc =>
      simp at h2
      have := wordAt_iff.1 h1
      exact Or.inr (Or.inr (Or.inr (Or.inl ⟨h2.symm, trivial, p, n, this.1, this.2, hc⟩)))
    · repeat' split at h2
      all_goals simp at h2
      all_goals simp [ErrOf, ← h2]

theorem posBytes_lax {strict : Bool} {d : Bytes} {p : Nat} {b : Bytes} (h : posBytes strict d p = .ok b) :
    ReadsBytesLax d p b := by
  simp only [posBytes, bind_eq_ok] at h
  obtain ⟨n, h1, h2⟩ := h
  obtain ⟨h3, h4⟩ := wordAt_iff.1 h1
  split at h2
  · simp at h2
  · next hc =>
    refine ⟨n, h3, h4, by omega, ?_⟩
    have hn : n ≤ ceil32 n := by simp only [ceil32]; split <;> omega
    have : b = ((d.drop (p + 32)).take (ceil32 n)).take n := by
      repeat' split at h2
      all_goals simp at h2
      all_goals exact h2.symm
    rw [this, List.take_take, Nat.min_eq_left hn]

/-- The pointer has been tested, so the seek cannot overflow. -/
theorem posItem_cause {dynamic : Bool} {f : Nat → PyM Val} {d : Bytes} (hd : d.length ≤ ssizeMax)
    {base lo q : Nat} {e : Exc} {E : Exc → Prop} (hE : E .insufficientDataBytes)
    (hf : ∀ p e, f p = .error e → E e) (hc : dynamic = true → checkPtr d base lo q = .ok ())
    (h : posItem dynamic f d base q = .error e) : E e := by
  simp only [posItem] at h
  split at h
  · next hdy =>
    obtain ⟨off, h1, h2, h3, h4⟩ := checkPtr_iff.1 (hc hdy)
    rw [wordAt_iff.2 ⟨h1, h2⟩, ok_bind, if_neg (by omega)] at h
    exact hf _ _ (by simpa using h)
  · exact hf _ _ h

theorem posMany_cause {dynamic : Bool} {f : Nat → PyM Val} {d : Bytes} (hd : d.length ≤ ssizeMax)
    {step : Nat} (hs : dynamic = true → step = 32) {base lo k q : Nat} {e : Exc} {E : Exc → Prop}
    (hE : E .insufficientDataBytes) (hf : ∀ p e, f p = .error e → E e)
    (hc : dynamic = true → checkPtrs d base lo k q = .ok ())
    (h : posMany (posItem dynamic f d base) step k q = .error e) : E e := by
  induction k generalizing q with
  | zero => cases h
  | succ k ih =>
    have hc' : dynamic = true → checkPtr d base lo q = .ok () ∧ checkPtrs d base lo k (q + 32) = .ok () := by
      intro hdy
      have := hc hdy
      simp only [checkPtrs, bind_eq_ok] at this
      obtain ⟨⟨⟩, h1, h2⟩ := this
      exact ⟨h1, h2⟩
    simp only [posMany, bind_eq_error, pure_eq_ok] at h
    rcases h with h | ⟨_, _, h | ⟨_, _, h⟩⟩
    · exact posItem_cause hd hE hf (fun hdy => (hc' hdy).1) h
    · exact ih (fun hdy => by rw [hs hdy]; exact (hc' hdy).2) h
    · cases h

theorem posSeq_cause {dynamic : Bool} {f : Nat → PyM Val} {step k : Nat} {d : Bytes}
    (hd : d.length ≤ ssizeMax) (hs : dynamic = true → step = 32) {p : Nat} {e : Exc} {E : Exc → Prop}
    (hE : E .insufficientDataBytes) (hE' : E .invalidPointer) (hf : ∀ p e, f p = .error e → E e)
    (h : posSeq dynamic f step k d p = .error e) : E e := by
  simp only [posSeq, bind_eq_error] at h
  rcases h with h | ⟨_, h1, h⟩
  · split at h
    · rcases checkPtrs_error h with rfl | rfl
      · exact hE
      · exact hE'
    · cases h
  · exact posMany_cause hd hs hE hf (fun hdy => by rw [if_pos hdy] at h1; exact h1) h

theorem checkAll_cause {ts : List Ty} {d : Bytes} {base lo q : Nat} {e : Exc} {E : Exc → Prop}
    (hE : E .insufficientDataBytes) (hE' : E .invalidPointer)
    (hf : ∀ t ∈ ts, ∀ p e, posDec true t d p = .error e → E e)
    (h : checkAll ts d base lo q = .error e) : E e := by
  induction ts generalizing q with
  | nil => cases h
  | cons t ts ih =>
    simp only [checkAll, bind_eq_error, checkHead] at h
    rcases h with h | ⟨_, _, h⟩
    · split at h
      · rcases checkPtr_error h with rfl | rfl
        · exact hE
        · exact hE'
      · simp only [bind_eq_error] at h
        rcases h with h | ⟨_, _, h⟩
        · exact hf t (by simp) _ _ h
        · cases h
    · exact ih (fun t ht => hf t (by simp [ht])) h

theorem posAll_cause {strict : Bool} {ts : List Ty} {d : Bytes} (hd : d.length ≤ ssizeMax)
    {base lo q : Nat} {e : Exc} {E : Exc → Prop} (hE : E .insufficientDataBytes)
    (hf : ∀ t ∈ ts, ∀ p e, posDec strict t d p = .error e → E e)
    (hc : checkAll ts d base lo q = .ok ())
    (h : posAll strict ts d base q = .error e) : E e := by
  induction ts generalizing q with
  | nil => cases h
  | cons t ts ih =>
    simp only [checkAll, bind_eq_ok, checkHead] at hc
    obtain ⟨⟨⟩, h1, h2⟩ := hc
    simp only [posAll, bind_eq_error, pure_eq_ok] at h
    rcases h with h | ⟨_, _, h | ⟨_, _, h⟩⟩
    · exact posItem_cause hd hE (hf t (by simp)) (fun hdy => by rw [if_pos hdy] at h1; exact h1) h
    · exact ih (fun t ht => hf t (by simp [ht])) h2 h
    · cases h

/-- `bytes` or `string` occurs in the type. -/
def HasBytes (t : Ty) : Prop := Occurs .bytes t ∨ Occurs .string t

theorem ErrOf.insufficient {d : Bytes} {hb hs : Prop} : ErrOf d hb hs .insufficientDataBytes := .inl rfl
theorem ErrOf.pointer {d : Bytes} {hb hs : Prop} : ErrOf d hb hs .invalidPointer :=
  .inr (.inr (.inl rfl))

theorem headStep_dyn {t : Ty} (h : t.dynamic = true) : headStep t = 32 := by simp [headStep, h]

theorem posDec_cause (t : Ty) : ∀ (strict : Bool) (d : Bytes), d.length ≤ ssizeMax → ∀ (p : Nat) (e : Exc),
    posDec strict t d p = .error e → ErrOf d (HasBytes t) (Occurs .string t) e := by
  refine Spec.Ty.ind (P := fun t => ∀ (strict : Bool) (d : Bytes), d.length ≤ ssizeMax →
    ∀ (p : Nat) (e : Exc), posDec strict t d p = .error e →
      ErrOf d (HasBytes t) (Occurs .string t) e) ?_ ?_ ?_ ?_ ?_ ?_ ?_ ?_ ?_ ?_ ?_ ?_ t
  iterate 7
    intros
    rename_i h
    rw [posDec_leaf rfl, bind_eq_error] at h
    rcases h with h | ⟨b, h1, h⟩
    · exact Or.inl (bytesAt_error h)
    · exact Or.inr (Or.inl (leafDec_error rfl h))
  · intro strict d hd p e h
    simp only [posDec, bind_eq_error, pure_eq_ok] at h
    rcases h with h | ⟨_, _, h⟩
    · exact (posBytes_cause h).mono (fun _ => .inl .self) id
    · cases h
  · intro strict d hd p e h
    simp only [posDec, bind_eq_error, pure_eq_ok] at h
    rcases h with h | ⟨b, h1, h | ⟨_, _, h⟩⟩
    · exact (posBytes_cause h).mono (fun _ => .inr .self) id
    · rw [utf8Decode_error h]
      refine .inr (.inr (.inr (.inr ⟨rfl, .self, p, b, posBytes_lax h1, fun s hs => ?_⟩)))
      rw [utf8Decode_ok_iff.2 hs] at h
      cases h
    · cases h
  · intro k t ih strict d hd p e h
    simp only [posDec, bind_eq_error, pure_eq_ok] at h
    rcases h with h | ⟨_, _, h⟩
    · exact posSeq_cause hd headStep_dyn .insufficient .pointer (fun p e he =>
        (ih true d hd p e he).mono (Or.imp .sized .sized) .sized) h
    · cases h
  · intro t ih strict d hd p e h
    simp only [posDec, bind_eq_error, pure_eq_ok] at h
    rcases h with h | ⟨_, _, h | ⟨_, _, h⟩⟩
    · exact Or.inl (wordAt_error h)
    · exact posSeq_cause hd headStep_dyn .insufficient .pointer (fun p e he =>
        (ih true d hd p e he).mono (Or.imp .dyn .dyn) .dyn) h
    · cases h
  · intro ts ih strict d hd p e h
    have hf : ∀ t ∈ ts, ∀ p e, posDec true t d p = .error e →
        ErrOf d (HasBytes (.tuple ts)) (Occurs .string (.tuple ts)) e := fun t ht p e he =>
      (ih t ht true d hd p e he).mono (Or.imp (.tuple ht) (.tuple ht)) (.tuple ht)
    simp only [posDec, bind_eq_error, pure_eq_ok] at h
    rcases h with h | ⟨_, h1, h | ⟨_, _, h⟩⟩
    · exact checkAll_cause .insufficient .pointer hf h
    · exact posAll_cause hd .insufficient hf h1 h
    · cases h

theorem posTop_cause {strict : Bool} {ts : List Ty} {d : Bytes} (hd : d.length ≤ ssizeMax) {e : Exc}
    (h : posTop strict ts d = .error e) :
    ErrOf d (∃ t ∈ ts, HasBytes t) (∃ t ∈ ts, Occurs .string t) e := by
  have hf : ∀ strict, ∀ t ∈ ts, ∀ p e, posDec strict t d p = .error e →
      ErrOf d (∃ t ∈ ts, HasBytes t) (∃ t ∈ ts, Occurs .string t) e := fun strict t ht p e he =>
    (posDec_cause t strict d hd p e he).mono (fun h => ⟨t, ht, h⟩) (fun h => ⟨t, ht, h⟩)
  simp only [posTop, bind_eq_error] at h
  rcases h with h | ⟨_, h1, h⟩
  · exact checkAll_cause .insufficient .pointer (hf true) h
  · exact posAll_cause hd .insufficient (hf strict) h1 h

/-- The exceptions of `decode` on supported types. -/
theorem decode_cause [Ext] {types : List TypeStr} {ts : List Ty} (hT : Names types ts) {data : PyVal}
    {d : Bytes} (hd : IsBytes data d) (hl : Fits d) {strict : Bool} {e : Exc}
    (h : decode types data strict = .error e) :
    ErrOf d (∃ t ∈ ts, HasBytes t) (∃ t ∈ ts, Occurs .string t) e := by
  have h2 := decode_eq hT (isBytes_iff.1 hd) hl strict
  rw [h] at h2
  cases hp : posTop strict ts d with
  | ok xs => rw [hp] at h2; cases h2
  | error e' =>
    rw [hp] at h2
    cases h2
    exact posTop_cause hl hp

/-! ## Relaxed reading -/

theorem readsItem_iff {dynamic : Bool} {R R' : Nat → Val → Prop} {d : Bytes} {base lo q : Nat}
    {x : Val} (h : ∀ p, R p x ↔ R' p x) :
    ReadsItem dynamic R d base lo q x ↔ ReadsItem dynamic R' d base lo q x :=
  ⟨fun hr => readsItem_imp hr fun p => (h p).1, fun hr => readsItem_imp hr fun p => (h p).2⟩

theorem readsMany_iff {dynamic : Bool} {R R' : Nat → Val → Prop} (h : ∀ p x, R p x ↔ R' p x)
    {step : Nat} {d : Bytes} {base lo q : Nat} {xs : List Val} :
    ReadsMany dynamic R step d base lo q xs ↔ ReadsMany dynamic R' step d base lo q xs := by
  induction xs generalizing q with
  | nil => exact Iff.rfl
  | cons x xs ih => simp only [ReadsMany, ih, readsItem_iff (fun p => h p x)]

theorem readsRelaxedAll_iff {mh : List Ty → Nat} {strict : Bool} {ts : List Ty} {d : Bytes}
    (h : ∀ t ∈ ts, ∀ p x, Reads mh strict t d p x ↔ ReadsRelaxed mh t d p x) {base lo q : Nat}
    {xs : List Val} :
    ReadsAll mh strict ts d base lo q xs ↔ ReadsRelaxedAll mh ts d base lo q xs := by
  induction ts generalizing q xs with
  | nil => cases xs <;> exact Iff.rfl
  | cons t ts ih =>
    cases xs with
    | nil => exact Iff.rfl
    | cons x xs =>
      simp only [ReadsAll, ReadsRelaxedAll, ih fun t ht => h t (by simp [ht]),
        readsItem_iff (fun p => h t (by simp) p x)]

/-- Without byte strings there is nothing to relax. -/
theorem reads_relaxed {mh : List Ty → Nat} (t : Ty) : ¬ HasBytes t → ∀ (strict : Bool) (d : Bytes)
    (p : Nat) (x : Val), Reads mh strict t d p x ↔ ReadsRelaxed mh t d p x := by
  refine Spec.Ty.ind (P := fun t => ¬ HasBytes t → ∀ (strict : Bool) (d : Bytes)
    (p : Nat) (x : Val), Reads mh strict t d p x ↔ ReadsRelaxed mh t d p x)
    ?_ ?_ ?_ ?_ ?_ ?_ ?_ ?_ ?_ ?_ ?_ ?_ t
  iterate 7
    intros
    simp only [Reads, ReadsRelaxed]
  · intro h; exact absurd (.inl .self) h
  · intro h; exact absurd (.inr .self) h
  · intro k t ih h strict d p x
    have ih := ih (fun hc => h (Or.imp .sized .sized hc)) true d
    cases x <;> simp only [Reads, ReadsRelaxed]
    rw [readsMany_iff ih]
  · intro t ih h strict d p x
    have ih := ih (fun hc => h (Or.imp .dyn .dyn hc)) true d
    cases x <;> simp only [Reads, ReadsRelaxed]
    rw [readsMany_iff ih]
  · intro ts ih h strict d p x
    cases x <;> simp only [Reads, ReadsRelaxed]
    exact readsRelaxedAll_iff fun t ht =>
      ih t ht (fun hc => h (Or.imp (.tuple ht) (.tuple ht) hc)) true d

theorem readsMany_imp {dynamic : Bool} {R R' : Nat → Val → Prop} (h : ∀ p x, R p x → R' p x)
    {step : Nat} {d : Bytes} {base lo q : Nat} {xs : List Val}
    (hr : ReadsMany dynamic R step d base lo q xs) : ReadsMany dynamic R' step d base lo q xs := by
  induction xs generalizing q with
  | nil => trivial
  | cons x xs ih => exact ⟨readsItem_imp hr.1 fun p => h p x, ih hr.2⟩

theorem readsAll_imp_relaxed {mh : List Ty → Nat} {strict : Bool} {ts : List Ty} {d : Bytes}
    (h : ∀ t ∈ ts, ∀ p x, Reads mh strict t d p x → ReadsRelaxed mh t d p x) {base lo q : Nat}
    {xs : List Val} (hr : ReadsAll mh strict ts d base lo q xs) :
    ReadsRelaxedAll mh ts d base lo q xs := by
  induction ts generalizing q xs with
  | nil => cases xs <;> exact hr
  | cons t ts ih =>
    cases xs with
    | nil => exact hr
    | cons x xs =>
      exact ⟨readsItem_imp hr.1 fun p => h t (by simp) p x, ih (fun t ht => h t (by simp [ht])) hr.2⟩

/-- A reading is a relaxed one. -/
theorem reads_imp_relaxed {mh : List Ty → Nat} (t : Ty) : ∀ (strict : Bool) (d : Bytes),
    d.length ≤ ssizeMax → ∀ (p : Nat) (x : Val), Reads mh strict t d p x → ReadsRelaxed mh t d p x := by
  refine Spec.Ty.ind (P := fun t => ∀ (strict : Bool) (d : Bytes),
    d.length ≤ ssizeMax → ∀ (p : Nat) (x : Val), Reads mh strict t d p x → ReadsRelaxed mh t d p x)
    ?_ ?_ ?_ ?_ ?_ ?_ ?_ ?_ ?_ ?_ ?_ ?_ t
  iterate 7
    intros
    rename_i h
    simpa only [Reads, ReadsRelaxed] using h
  · intro strict d hd p x h
    cases x with
    | raw b =>
      simp only [Reads, ReadsRelaxed] at h ⊢
      cases strict with
      | true => exact readsBytes_lax hd h
      | false => exact h
    | _ => simpa only [Reads, ReadsRelaxed] using h
  · intro strict d hd p x h
    cases x with
    | text b =>
      simp only [Reads, ReadsRelaxed] at h ⊢
      obtain ⟨b, hb, h⟩ := h
      refine ⟨b, hb, ?_⟩
      cases strict with
      | true => exact readsBytes_lax hd h
      | false => exact h
    | _ => simpa only [Reads, ReadsRelaxed] using h
  · intro k t ih strict d hd p x h
    cases x with
    | seq xs =>
      simp only [Reads, ReadsRelaxed] at h ⊢
      exact ⟨h.1, readsMany_imp (ih true d hd) h.2⟩
    | _ => simpa only [Reads, ReadsRelaxed] using h
  · intro t ih strict d hd p x h
    cases x with
    | seq xs =>
      simp only [Reads, ReadsRelaxed] at h ⊢
      exact ⟨h.1, h.2.1, readsMany_imp (ih true d hd) h.2.2⟩
    | _ => simpa only [Reads, ReadsRelaxed] using h
  · intro ts ih strict d hd p x h
    cases x with
    | seq xs =>
      simp only [Reads, ReadsRelaxed] at h ⊢
      exact readsAll_imp_relaxed (fun t ht => ih t ht true d hd) h
    | _ => simpa only [Reads, ReadsRelaxed] using h

theorem reads_relaxed_top {mh : List Ty → Nat} {t : Ty} (h : t = .bytes ∨ t = .string ∨ ¬ HasBytes t)
    (d : Bytes) (p : Nat) (x : Val) : Reads mh false t d p x ↔ ReadsRelaxed mh t d p x := by
  rcases h with rfl | rfl | h
  · cases x <;> simp [Reads, ReadsRelaxed]
  · cases x <;> simp [Reads, ReadsRelaxed]
  · exact reads_relaxed t h false d p x

/-! ## Pointers -/

theorem headWords_pos {t : Ty} (hv : t.Valid) : 1 ≤ headWords t := by
  rw [headWords]
  split
  · exact Nat.le_refl _
  · cases t <;> simp only [arrayDim] <;> try omega
    exact hv.1

theorem codeHead_words {ts : List Ty} (hv : ∀ t ∈ ts, t.Valid) : 32 * ts.length ≤ codeHead ts := by
  induction ts with
  | nil => simp
  | cons t ts ih =>
    have ih := ih fun t ht => hv t (by simp [ht])
    have := headWords_pos (hv t (by simp))
    simp only [codeHead, headWordsAll, List.map_cons, List.sum_cons, List.length_cons] at *
    omega

theorem codeHead_flat {ts : List Ty} (h : ∀ t ∈ ts, t.dynamic = true ∨ t.flat = true) :
    codeHead ts = headBytes ts := by
  induction ts with
  | nil => rfl
  | cons t ts ih =>
    have ih := ih fun t ht => h t (by simp [ht])
    have h1 : 32 * headWords t = headStep t := by
      rw [headWords, headStep]
      cases hd : t.dynamic with
      | true => rfl
      | false =>
        simp only [Bool.false_eq_true, if_false]
        have hf := (h t (by simp)).resolve_left (by simp [hd])
        cases t <;> try rfl
        · rename_i k t
          simp only [arrayDim, Ty.size]
          simp only [Ty.flat] at hf
          cases t <;> simp only [Ty.elementary, Bool.false_eq_true] at hf <;>
            simp only [Ty.size] <;> omega
        · simp [Ty.flat] at hf
    simp only [codeHead, headWordsAll, headBytes, List.map_cons, List.sum_cons] at *
    omega

/-- Other bounds on the pointers that are not larger. -/
theorem reads_minHead {mh mh' : List Ty → Nat} (t : Ty) :
    (∀ us, Occurs (.tuple us) t → mh us ≤ mh' us) → ∀ (strict : Bool) (d : Bytes)
    (p : Nat) (x : Val), Reads mh' strict t d p x → Reads mh strict t d p x := by
  refine Spec.Ty.ind (P := fun t =>
    (∀ us, Occurs (.tuple us) t → mh us ≤ mh' us) → ∀ (strict : Bool) (d : Bytes)
    (p : Nat) (x : Val), Reads mh' strict t d p x → Reads mh strict t d p x)
    ?_ ?_ ?_ ?_ ?_ ?_ ?_ ?_ ?_ ?_ ?_ ?_ t
  iterate 9
    intros
    rename_i x h
    cases x <;> simpa only [Reads] using h
  · intro k t ih ho strict d p x h
    cases x with
    | seq xs =>
      simp only [Reads] at h ⊢
      exact ⟨h.1, readsMany_imp (ih (fun us h => ho us (.sized h)) true d) h.2⟩
    | _ => simpa only [Reads] using h
  · intro t ih ho strict d p x h
    cases x with
    | seq xs =>
      simp only [Reads] at h ⊢
      exact ⟨h.1, h.2.1, readsMany_imp (ih (fun us h => ho us (.dyn h)) true d) h.2.2⟩
    | _ => simpa only [Reads] using h
  · intro ts ih ho strict d p x h
    cases x with
    | seq xs =>
      simp only [Reads] at h ⊢
      exact readsAll_minHead (fun t ht => ih t ht (fun us h => ho us (.tuple ht h)) true d)
        (Nat.add_le_add_left (ho ts .self) p) h
    | _ => simpa only [Reads] using h

theorem readsArgs_minHead {mh mh' : List Ty → Nat} {ts : List Ty}
    (ho : ∀ us, Occurs (.tuple us) (.tuple ts) → mh us ≤ mh' us) {strict : Bool} {d : Bytes}
    {xs : List Val} (h : ReadsArgs mh' strict ts d xs) : ReadsArgs mh strict ts d xs :=
  readsAll_minHead (fun t ht => reads_minHead t (fun us h => ho us (.tuple ht h)) strict d)
    (ho ts .self) h

theorem occurs_valid {u t : Ty} (h : Occurs u t) (hv : t.Valid) : u.Valid := by
  induction h with
  | self => exact hv
  | sized _ ih => exact ih hv.2
  | dyn _ ih => exact ih hv
  | tuple hm _ ih => exact ih (Spec.Ty.allValid_iff.1 hv.2 _ hm)

theorem checkAll_bad {ts : List Ty} {d : Bytes} {lo q i off : Nat} (hd : ∀ t ∈ ts, t.dynamic = true)
    (hl : q + 32 * ts.length ≤ d.length) (hi : i < ts.length) (hoff : off < 2 ^ 256)
    (hat : At d (q + 32 * i) (be32 off)) (hbad : off < lo ∨ d.length ≤ off) :
    checkAll ts d 0 lo q = .error .invalidPointer := by
  induction ts generalizing q i with
  | nil => simp at hi
  | cons t ts ih =>
    simp only [List.length_cons] at hl hi
    simp only [checkAll, checkHead, hd t (by simp), if_true]
    have hw : ∃ n, wordAt d q = .ok n := by
      simp only [wordAt, bytesAt, if_pos (show q + 32 ≤ d.length by omega)]
      exact ⟨_, rfl⟩
    obtain ⟨n, hn⟩ := hw
    have hc : ∀ m, wordAt d q = .ok m → (m < lo ∨ d.length ≤ m) →
        checkPtr d 0 lo q = .error .invalidPointer := by
      intro m hm hb
      simp only [checkPtr, hm, ok_bind, Nat.zero_add, if_pos hb]
      rfl
    cases i with
    | zero =>
      have : wordAt d q = .ok off := wordAt_iff.2 ⟨hoff, hat⟩
      rw [hc off this hbad]
      rfl
    | succ i =>
      have hstep : headStep t = 32 := headStep_dyn (hd t (by simp))
      have hrec := ih (q := q + 32) (i := i) (fun t h => hd t (by simp [h])) (by omega) (by omega)
        (by rwa [show q + 32 + 32 * i = q + 32 * (i + 1) by omega])
      rw [hstep, hrec]
      cases hp : checkPtr d 0 lo q with
      | ok u => rfl
      | error e =>
        rcases checkPtr_error hp with rfl | rfl
        · exfalso
          simp only [checkPtr, hn, ok_bind] at hp
          split at hp <;> cases hp
        · rfl

end EthAbi
