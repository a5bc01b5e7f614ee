import Verif.Lemmas.Reads

/-! # Consequences of reading -/
namespace EthAbi
open Spec

theorem readsMany_all {mh : List Ty → Nat} {t : Ty} {d : Bytes} {base lo q : Nat} {xs : List Val} :
    ReadsMany t.dynamic (Reads mh true t d) (headStep t) d base lo q xs ↔
      ReadsAll mh true (List.replicate xs.length t) d base lo q xs := by
  induction xs generalizing q with
  | nil => simp [ReadsMany, ReadsAll]
  | cons x xs ih => simp [ReadsMany, ReadsAll, List.replicate_succ, ih]

theorem ofAll_replicate {t : Ty} {xs : List Val} :
    Val.OfAll (List.replicate xs.length t) xs ↔ ∀ x ∈ xs, Val.Of t x := by
  induction xs with
  | nil => simp [Val.OfAll]
  | cons x xs ih => simp [Val.OfAll, List.replicate_succ, ih]

theorem encAll_replicate (t : Ty) (xs : List Val) :
    encAll (List.replicate xs.length t) xs = xs.map fun x => (t.dynamic, enc t x) := by
  induction xs with
  | nil => rfl
  | cons x xs ih => simp [encAll, List.replicate_succ, ih]

theorem ofAll_length {ts : List Ty} {xs : List Val} (h : Val.OfAll ts xs) : xs.length = ts.length := by
  induction ts generalizing xs with
  | nil => cases xs <;> simp [Val.OfAll] at h ⊢
  | cons t ts ih =>
    cases xs with
    | nil => simp [Val.OfAll] at h
    | cons x xs => simp [Val.OfAll] at h; simp [ih h.2]

theorem readsAll_length {mh : List Ty → Nat} {strict : Bool} {ts : List Ty} {d : Bytes}
    {base lo q : Nat} {xs : List Val} (h : ReadsAll mh strict ts d base lo q xs) :
    xs.length = ts.length := by
  induction ts generalizing xs q with
  | nil => cases xs <;> simp [ReadsAll] at h ⊢
  | cons t ts ih =>
    cases xs with
    | nil => simp [ReadsAll] at h
    | cons x xs => simp [ReadsAll] at h; simp [ih h.2]

/-! ## What is read is a value of the type -/

theorem readsItem_imp {dynamic : Bool} {R R' : Nat → Val → Prop} {d : Bytes} {base lo q : Nat}
    {x : Val} (h : ReadsItem dynamic R d base lo q x) (hR : ∀ p, R p x → R' p x) :
    ReadsItem dynamic R' d base lo q x := by
  cases dynamic <;> simp only [ReadsItem, if_true, Bool.false_eq_true, if_false] at h ⊢
  · exact hR _ h
  · obtain ⟨off, h1, h2, h3, h4, h5⟩ := h
    exact ⟨off, h1, h2, h3, h4, hR _ h5⟩

theorem readsItem_some {dynamic : Bool} {R : Nat → Val → Prop} {d : Bytes} {base lo q : Nat}
    {x : Val} (h : ReadsItem dynamic R d base lo q x) : ∃ p, R p x := by
  cases dynamic <;> simp only [ReadsItem, if_true, Bool.false_eq_true, if_false] at h
  · exact ⟨_, h⟩
  · obtain ⟨off, _, _, _, _, h5⟩ := h
    exact ⟨_, h5⟩

theorem readsAll_of {mh : List Ty → Nat} {strict : Bool} {ts : List Ty} {d : Bytes}
    (ih : ∀ t ∈ ts, ∀ p x, Reads mh strict t d p x → Val.Of t x) {base lo q : Nat}
    {xs : List Val} (h : ReadsAll mh strict ts d base lo q xs) : Val.OfAll ts xs := by
  induction ts generalizing q xs with
  | nil => cases xs <;> simp [ReadsAll] at h; trivial
  | cons t ts ih2 =>
    cases xs with
    | nil => simp [ReadsAll] at h
    | cons x xs =>
      simp only [ReadsAll] at h
      obtain ⟨p, hp⟩ := readsItem_some h.1
      exact ⟨ih t (by simp) p x hp, ih2 (fun t ht => ih t (by simp [ht])) h.2⟩

theorem reads_of {mh : List Ty → Nat} (t : Ty) : ∀ (strict : Bool) (d : Bytes) (p : Nat) (x : Val),
    Reads mh strict t d p x → Val.Of t x := by
  refine Spec.Ty.ind (P := fun t => ∀ (strict : Bool) (d : Bytes) (p : Nat) (x : Val),
    Reads mh strict t d p x → Val.Of t x) ?_ ?_ ?_ ?_ ?_ ?_ ?_ ?_ ?_ ?_ ?_ ?_ t
  iterate 7
    intros
    rename_i h
    simp only [Reads] at h
    exact h.1
  · intro strict d p x h
    cases x <;> first | exact h.1.elim | trivial
  · intro strict d p x h
    cases x <;> try exact h.1.elim
    simp only [Reads] at h
    obtain ⟨b, h1, _⟩ := h
    simp [Val.Of, h1]
  · intro k t ih strict d p x h
    cases x <;> try exact h.1.elim
    simp only [Reads] at h
    rw [readsMany_all] at h
    exact ⟨h.1, ofAll_replicate.1 (readsAll_of (fun t' ht' => by
      rw [(List.mem_replicate.1 ht').2]; exact ih true d) h.2)⟩
  · intro t ih strict d p x h
    cases x <;> try exact h.1.elim
    simp only [Reads] at h
    rw [readsMany_all] at h
    exact ofAll_replicate.1 (readsAll_of (fun t' ht' => by
      rw [(List.mem_replicate.1 ht').2]; exact ih true d) h.2.2)
  · intro ts ih strict d p x h
    cases x <;> try exact h.1.elim
    simp only [Reads] at h
    exact readsAll_of (fun t ht => ih t ht true d) h

/-! ## A canonical encoding is read -/

theorem headBytes_replicate (k : Nat) (t : Ty) : headBytes (List.replicate k t) = k * headStep t := by
  induction k with
  | zero => simp [headBytes]
  | succ k ih =>
    simp only [headBytes, List.replicate_succ, List.map_cons, List.sum_cons, Nat.succ_mul] at ih ⊢
    omega

theorem size_pos (t : Ty) : t.Valid → 32 ≤ t.size := by
  refine Spec.Ty.ind (P := fun t => t.Valid → 32 ≤ t.size) ?_ ?_ ?_ ?_ ?_ ?_ ?_ ?_ ?_ ?_ ?_ ?_ t
  iterate 9 (intros; simp [Ty.size])
  · intro k t ih hv
    simp only [Ty.Valid] at hv
    simp only [Ty.size]
    have := ih hv.2
    nlinarith [hv.1]
  · intros; simp [Ty.size]
  · intro ts ih hv
    simp only [Ty.Valid] at hv
    obtain ⟨hne, hv⟩ := hv
    cases ts with
    | nil => exact absurd rfl hne
    | cons t ts =>
      simp only [Ty.size, Ty.sizes]
      have := ih t (by simp) hv.1
      omega

theorem headStep_pos {t : Ty} (hv : t.Valid) : 32 ≤ headStep t := by
  rw [headStep]; split
  · omega
  · exact size_pos t hv

theorem codeHead_le {ts : List Ty} (hv : ∀ t ∈ ts, t.Valid) : codeHead ts ≤ headBytes ts := by
  induction ts with
  | nil => simp [codeHead, headWordsAll, headBytes]
  | cons t ts ih =>
    have ih := ih fun t ht => hv t (by simp [ht])
    have h1 : 32 * headWords t ≤ headStep t := by
      have hs := headStep_pos (hv t (by simp))
      rw [headWords]
      cases hd : t.dynamic with
      | true => simpa using hs
      | false =>
        simp only [Bool.false_eq_true, if_false]
        cases t <;> simp only [arrayDim] <;> try omega
        rename_i k t
        have hv := hv (.sized k t) (by simp)
        simp only [Ty.Valid] at hv
        simp only [Ty.dynamic] at hd
        simp only [headStep, Ty.dynamic, hd, Bool.false_eq_true, if_false, Ty.size]
        have := size_pos t hv.2
        nlinarith
    simp only [codeHead, headWordsAll, headBytes, List.map_cons, List.sum_cons] at *
    omega

theorem headSize_eq {ts : List Ty} (hv : ∀ t ∈ ts, t.Valid) {xs : List Val} (h : Val.OfAll ts xs) :
    headSize (encAll ts xs) = headBytes ts := by
  induction ts generalizing xs with
  | nil => cases xs <;> simp [Val.OfAll] at h; rfl
  | cons t ts ih =>
    cases xs with
    | nil => simp [Val.OfAll] at h
    | cons x xs =>
      simp only [Val.OfAll] at h
      have := ih (fun t ht => hv t (by simp [ht])) h.2
      simp only [encAll, headSize, headBytes, List.map_cons, List.sum_cons, this, headStep]
      congr 1
      split
      · rfl
      · next hd => exact (enc_length t (hv t (by simp)) x h.1).2.2 (by simpa using hd)

theorem readsAll_enc {mh : List Ty → Nat} {strict : Bool} {ts : List Ty} {d : Bytes}
    (hd : d.length ≤ ssizeMax) (hv : ∀ t ∈ ts, t.Valid)
    (ih : ∀ t ∈ ts, ∀ p x, Val.Of t x → At d p (enc t x) → Reads mh strict t d p x)
    {base lo q off : Nat} {xs : List Val} (hx : Val.OfAll ts xs)
    (h1 : At d q (heads off (encAll ts xs))) (h2 : At d (base + off) (tails (encAll ts xs)))
    (hlo : lo ≤ base + off) : ReadsAll mh strict ts d base lo q xs := by
  induction ts generalizing q xs off with
  | nil => cases xs <;> simp [Val.OfAll] at hx; trivial
  | cons t ts ih2 =>
    cases xs with
    | nil => simp [Val.OfAll] at hx
    | cons x xs =>
      simp only [Val.OfAll] at hx
      have ih2 := @ih2 (fun t ht => hv t (by simp [ht])) (fun t ht => ih t (by simp [ht]))
      have hvt := hv t (by simp)
      have hlen := enc_length t hvt x hx.1
      simp only [encAll, heads, tails] at h1 h2
      simp only [ReadsAll]
      cases hdy : t.dynamic with
      | true =>
        simp only [hdy, if_true, at_append, be32_length] at h1 h2
        have h3 := at_length h2.1 (by omega)
        refine ⟨?_, ?_⟩
        · simp only [ReadsItem, if_true]
          have : off < 2 ^ 256 := by
            have : ssizeMax < 2 ^ 256 := by simp [ssizeMax]
            omega
          exact ⟨off, this, h1.1, hlo, by omega, ih t (by simp) _ _ hx.1 h2.1⟩
        · refine ih2 (off := off + (enc t x).length) hx.2 ?_ ?_ (by omega)
          · simp only [headStep, hdy, if_true]; exact h1.2
          · rw [← Nat.add_assoc]; exact h2.2
      | false =>
        simp only [hdy, Bool.false_eq_true, if_false, at_append, List.nil_append] at h1 h2
        refine ⟨?_, ?_⟩
        · simp only [ReadsItem, Bool.false_eq_true, if_false]
          exact ih t (by simp) _ _ hx.1 h1.1
        · refine ih2 (off := off) hx.2 ?_ h2 hlo
          simp only [headStep, hdy, Bool.false_eq_true, if_false]
          rw [← hlen.2.2 hdy]; exact h1.2

theorem readsAll_layout {mh : List Ty → Nat} {strict : Bool} {ts : List Ty} {d : Bytes}
    (hd : d.length ≤ ssizeMax) (hv : ∀ t ∈ ts, t.Valid)
    (ih : ∀ t ∈ ts, ∀ p x, Val.Of t x → At d p (enc t x) → Reads mh strict t d p x)
    {base n : Nat} {xs : List Val} (hx : Val.OfAll ts xs)
    (h : At d base (layout (encAll ts xs))) (hlo : n ≤ headBytes ts) :
    ReadsAll mh strict ts d base (base + n) base xs := by
  rw [layout, at_append, heads_length] at h
  refine readsAll_enc hd hv ih hx h.1 h.2 ?_
  rw [headSize_eq hv hx]; omega

/-- `mh` asks for no more than the real head. -/
def MinHeadOk (mh : List Ty → Nat) : Prop := ∀ ts, (∀ t ∈ ts, t.Valid) → mh ts ≤ headBytes ts

theorem codeHead_ok : MinHeadOk codeHead := fun _ h => codeHead_le h

theorem headBytes_ok : MinHeadOk headBytes := fun _ _ => Nat.le_refl _

theorem readsBytes_enc {strict : Bool} {d : Bytes} (hd : d.length ≤ ssizeMax) {p : Nat} {b : Bytes}
    (h : At d p (be32 b.length ++ padRight32 b)) :
    if strict then ReadsBytes d p b else ReadsBytesLax d p b := by
  rw [at_append, be32_length] at h
  cases strict with
  | true => exact h
  | false =>
    simp only [Bool.false_eq_true, if_false]
    have hc : ceil32 b.length ≤ ssizeMax := by
      have h1 := padRight32_length b
      rcases Nat.eq_zero_or_pos (ceil32 b.length) with h0 | h0
      · omega
      · have := at_length h.2 (by omega)
        omega
    refine ⟨b.length, ceil32_lt hc, h.1, hc, ?_⟩
    have := h.2
    rw [padRight32, at_append] at this
    exact at_iff_take.1 this.1

theorem reads_enc {mh : List Ty → Nat} (hmh : MinHeadOk mh) (t : Ty) : t.Valid → ∀ (strict : Bool)
    (d : Bytes), d.length ≤ ssizeMax → ∀ (p : Nat) (x : Val), Val.Of t x → At d p (enc t x) →
    Reads mh strict t d p x := by
  refine Spec.Ty.ind (P := fun t => t.Valid → ∀ (strict : Bool)
    (d : Bytes), d.length ≤ ssizeMax → ∀ (p : Nat) (x : Val), Val.Of t x → At d p (enc t x) →
    Reads mh strict t d p x) ?_ ?_ ?_ ?_ ?_ ?_ ?_ ?_ ?_ ?_ ?_ ?_ t
  iterate 7
    intros
    simp only [Reads]
    exact ⟨by assumption, by assumption⟩
  · intro _ strict d hd p x hx h
    cases x <;> try exact hx.elim
    simp only [Reads]
    exact readsBytes_enc hd h
  · intro _ strict d hd p x hx h
    cases x <;> try exact hx.elim
    simp only [Reads]
    simp only [Val.Of] at hx
    obtain ⟨b, hb⟩ := Option.isSome_iff_exists.1 hx
    simp only [enc, hb] at h
    exact ⟨b, hb, readsBytes_enc hd h⟩
  · intro k t ih hv strict d hd p x hx h
    cases x <;> try exact hx.elim
    rename_i xs
    simp only [Val.Of] at hx
    simp only [Ty.Valid] at hv
    simp only [enc, ← encAll_replicate] at h
    simp only [Reads]
    rw [readsMany_all]
    obtain ⟨rfl, hx⟩ := hx
    refine ⟨rfl, readsAll_layout hd ?_ ?_ (ofAll_replicate.2 hx) h ?_⟩
    · intro t' ht'; rw [(List.mem_replicate.1 ht').2]; exact hv.2
    · intro t' ht'; rw [(List.mem_replicate.1 ht').2]; exact ih hv.2 true d hd
    · simp only [headBytes_replicate]
      have := headStep_pos hv.2
      nlinarith
  · intro t ih hv strict d hd p x hx h
    cases x <;> try exact hx.elim
    rename_i xs
    simp only [Val.Of] at hx
    simp only [Ty.Valid] at hv
    simp only [enc, ← encAll_replicate, at_append, be32_length] at h
    simp only [Reads]
    have hvs : ∀ t' ∈ List.replicate xs.length t, t'.Valid := by
      intro t' ht'; rw [(List.mem_replicate.1 ht').2]; exact hv
    have hlen : 32 * xs.length ≤ (layout (encAll (List.replicate xs.length t) xs)).length := by
      rw [layout_length, headSize_eq hvs (ofAll_replicate.2 hx)]
      simp only [headBytes_replicate]
      have := headStep_pos hv
      nlinarith
    have hsm : ssizeMax < 2 ^ 256 := by simp [ssizeMax]
    rw [readsMany_all]
    refine ⟨?_, h.1, readsAll_layout hd hvs ?_ (ofAll_replicate.2 hx) h.2 ?_⟩
    · rcases Nat.eq_zero_or_pos xs.length with h0 | h0
      · rw [h0]; positivity
      · have := at_length h.2 (by omega)
        omega
    · intro t' ht'; rw [(List.mem_replicate.1 ht').2]; exact ih hv true d hd
    · simp only [headBytes_replicate]
      have := headStep_pos hv
      nlinarith
  · intro ts ih hv strict d hd p x hx h
    cases x <;> try exact hx.elim
    rename_i xs
    have hvs := Spec.Ty.allValid_iff.1 hv.2
    simp only [enc] at h
    simp only [Reads]
    exact readsAll_layout hd hvs (fun t ht => ih t ht (hvs t ht) true d hd) hx h (hmh ts hvs)

theorem readsArgs_enc {mh : List Ty → Nat} (hmh : MinHeadOk mh) {ts : List Ty}
    (hv : ∀ t ∈ ts, t.Valid) (strict : Bool) {d : Bytes} (hd : d.length ≤ ssizeMax) {xs : List Val}
    (hx : Val.OfAll ts xs) (h : layout (encAll ts xs) <+: d) : ReadsArgs mh strict ts d xs := by
  have := readsAll_layout (mh := mh) (strict := strict) hd hv
    (fun t ht p x hx => reads_enc hmh t (hv t ht) strict d hd p x hx) (base := 0) hx h (hmh ts hv)
  rw [Nat.zero_add] at this
  exact this

/-! ## Asking less of the pointers -/

theorem readsAll_minHead {mh mh' : List Ty → Nat} {strict : Bool} {ts : List Ty} {d : Bytes}
    (ih : ∀ t ∈ ts, ∀ p x, Reads mh' strict t d p x → Reads mh strict t d p x) {base lo lo' q : Nat}
    (hlo : lo ≤ lo') {xs : List Val} (h : ReadsAll mh' strict ts d base lo' q xs) :
    ReadsAll mh strict ts d base lo q xs := by
  induction ts generalizing q xs with
  | nil => cases xs <;> simp [ReadsAll] at h; trivial
  | cons t ts ih2 =>
    cases xs with
    | nil => simp [ReadsAll] at h
    | cons x xs =>
      simp only [ReadsAll] at h ⊢
      refine ⟨?_, ih2 (fun t ht => ih t (by simp [ht])) h.2⟩
      have := readsItem_imp h.1 (fun p => ih t (by simp) p x)
      cases hd : t.dynamic <;> simp only [hd, ReadsItem, if_true, Bool.false_eq_true, if_false] at this ⊢
      · exact this
      · obtain ⟨off, h1, h2, h3, h4, h5⟩ := this
        exact ⟨off, h1, h2, by omega, h4, h5⟩

/-! ## More data, same value -/

theorem readsAll_mono {mh : List Ty → Nat} {ts : List Ty} {d e : Bytes}
    (ih : ∀ t ∈ ts, ∀ p x, Reads mh true t d p x → Reads mh true t (d ++ e) p x) {base lo q : Nat}
    {xs : List Val} (h : ReadsAll mh true ts d base lo q xs) :
    ReadsAll mh true ts (d ++ e) base lo q xs := by
  induction ts generalizing q xs with
  | nil => cases xs <;> simp [ReadsAll] at h; trivial
  | cons t ts ih2 =>
    cases xs with
    | nil => simp [ReadsAll] at h
    | cons x xs =>
      simp only [ReadsAll] at h ⊢
      refine ⟨?_, ih2 (fun t ht => ih t (by simp [ht])) h.2⟩
      have := readsItem_imp h.1 (fun p => ih t (by simp) p x)
      cases hd : t.dynamic <;> simp only [hd, ReadsItem, if_true, Bool.false_eq_true, if_false] at this ⊢
      · exact this
      · obtain ⟨off, h1, h2, h3, h4, h5⟩ := this
        exact ⟨off, h1, at_mono h2, h3, by simp; omega, h5⟩

theorem reads_mono {mh : List Ty → Nat} (t : Ty) : ∀ (d e : Bytes) (p : Nat) (x : Val),
    Reads mh true t d p x → Reads mh true t (d ++ e) p x := by
  refine Spec.Ty.ind (P := fun t => ∀ (d e : Bytes) (p : Nat) (x : Val),
    Reads mh true t d p x → Reads mh true t (d ++ e) p x) ?_ ?_ ?_ ?_ ?_ ?_ ?_ ?_ ?_ ?_ ?_ ?_ t
  iterate 7
    intros
    rename_i h
    simp only [Reads] at h ⊢
    exact ⟨h.1, at_mono h.2⟩
  · intro d e p x h
    cases x <;> try exact h.1.elim
    exact ⟨at_mono h.1, at_mono h.2⟩
  · intro d e p x h
    cases x <;> try exact h.1.elim
    obtain ⟨b, h1, h2⟩ := h
    exact ⟨b, h1, at_mono h2.1, at_mono h2.2⟩
  · intro k t ih d e p x h
    cases x <;> try exact h.1.elim
    simp only [Reads, readsMany_all] at h ⊢
    refine ⟨h.1, readsAll_mono ?_ h.2⟩
    intro t' ht'; rw [(List.mem_replicate.1 ht').2]; exact ih d e
  · intro t ih d e p x h
    cases x <;> try exact h.1.elim
    simp only [Reads, readsMany_all] at h ⊢
    refine ⟨h.1, at_mono h.2.1, readsAll_mono ?_ h.2.2⟩
    intro t' ht'; rw [(List.mem_replicate.1 ht').2]; exact ih d e
  · intro ts ih d e p x h
    cases x <;> try exact h.1.elim
    simp only [Reads] at h ⊢
    exact readsAll_mono (fun t ht => ih t ht d e) h

/-! ## A canonical encoding is read only as a whole -/

theorem readsAll_within {mh : List Ty → Nat} {ts : List Ty} {d e : Bytes}
    (hde : (d ++ e).length < 2 ^ 256)
    (hv : ∀ t ∈ ts, t.Valid)
    (ih : ∀ t ∈ ts, ∀ p x, Reads mh true t d p x → At (d ++ e) p (enc t x) →
      p + (enc t x).length ≤ d.length) {base lo q off : Nat}
    {xs : List Val} (h : ReadsAll mh true ts d base lo q xs)
    (h1 : At (d ++ e) q (heads off (encAll ts xs)))
    (h2 : At (d ++ e) (base + off) (tails (encAll ts xs))) :
    (0 < headSize (encAll ts xs) → q + headSize (encAll ts xs) ≤ d.length) ∧
    (0 < (tails (encAll ts xs)).length → base + off + (tails (encAll ts xs)).length ≤ d.length) := by
  induction ts generalizing q xs off with
  | nil => cases xs <;> simp [ReadsAll] at h; simp [encAll, headSize, tails]
  | cons t ts ih2 =>
    cases xs with
    | nil => simp [ReadsAll] at h
    | cons x xs =>
      have hvt := hv t (by simp)
      simp only [ReadsAll] at h
      obtain ⟨p0, hp0⟩ := readsItem_some h.1
      have hof := reads_of t _ _ _ _ hp0
      have hlen := enc_length t hvt x hof
      have ih2 := @ih2 (fun t ht => hv t (by simp [ht])) (fun t ht => ih t (by simp [ht]))
      simp only [encAll, heads, tails, headSize] at h1 h2 ⊢
      cases hdy : t.dynamic with
      | true =>
        simp only [hdy, if_true, at_append, be32_length, ReadsItem] at h1 h2 h
        obtain ⟨⟨off', ho1, ho2, ho3, ho4, ho5⟩, hrest⟩ := h
        have hlt := at_length h2.1 (by omega)
        have hoff : off' = off := by
          have e1 := wordAt_iff.2 ⟨ho1, at_mono (e := e) ho2⟩
          have e2 := wordAt_iff.2 ⟨show off < 2 ^ 256 by omega, h1.1⟩
          rw [e1] at e2
          injection e2
        subst hoff
        have hq := at_length ho2 (by rw [be32_length]; omega)
        rw [be32_length] at hq
        have hthis := ih t (by simp) _ _ ho5 h2.1
        have := ih2 (q := q + 32) (off := off' + (enc t x).length) (by simpa [headStep, hdy] using hrest)
          h1.2 (by rw [← Nat.add_assoc]; exact h2.2)
        simp only [if_true, List.length_append]
        omega
      | false =>
        simp only [hdy, Bool.false_eq_true, if_false, at_append, ReadsItem, List.nil_append] at h1 h2 h
        have hthis := ih t (by simp) _ _ h.1 h1.1
        have := ih2 (q := q + (enc t x).length) (off := off)
          (by have := h.2; simp only [headStep, hdy, Bool.false_eq_true, if_false] at this
              rw [hlen.2.2 hdy]; exact this) h1.2 h2
        simp only [Bool.false_eq_true, if_false, List.nil_append]
        omega

theorem headSize_pos_of_ne {ts : List Ty} (hv : ∀ t ∈ ts, t.Valid) (hne : ts ≠ []) {xs : List Val}
    (h : Val.OfAll ts xs) : 32 ≤ headSize (encAll ts xs) := by
  rw [headSize_eq hv h]
  cases ts with
  | nil => exact absurd rfl hne
  | cons t ts =>
    have := headStep_pos (hv t (by simp))
    simp only [headBytes, List.map_cons, List.sum_cons]
    omega

theorem reads_within {mh : List Ty → Nat} (t : Ty) : t.Valid → ∀ (d e : Bytes) (p : Nat) (x : Val),
    (d ++ e).length < 2 ^ 256 → Reads mh true t d p x → At (d ++ e) p (enc t x) →
    p + (enc t x).length ≤ d.length := by
  refine Spec.Ty.ind (P := fun t => t.Valid → ∀ (d e : Bytes) (p : Nat) (x : Val),
    (d ++ e).length < 2 ^ 256 → Reads mh true t d p x → At (d ++ e) p (enc t x) →
    p + (enc t x).length ≤ d.length) ?_ ?_ ?_ ?_ ?_ ?_ ?_ ?_ ?_ ?_ ?_ ?_ t
  iterate 7
    intros
    rename_i hv d e p x hde h hat
    simp only [Reads] at h
    have := enc_length _ hv x h.1
    exact at_length h.2 (by omega)
  · intro _ d e p x _ h hat
    cases x <;> try exact h.1.elim
    clear hat
    rename_i b
    have h1 := at_length h.1 (by rw [be32_length]; omega)
    rw [be32_length] at h1
    simp only [enc, List.length_append, be32_length]
    rcases Nat.eq_zero_or_pos (padRight32 b).length with h0 | h0
    · omega
    · have := at_length h.2 h0; omega
  · intro _ d e p x _ h _
    cases x <;> try exact h.1.elim
    obtain ⟨b, hb, h⟩ := h
    have h1 := at_length h.1 (by rw [be32_length]; omega)
    rw [be32_length] at h1
    simp only [enc, hb, List.length_append, be32_length]
    rcases Nat.eq_zero_or_pos (padRight32 b).length with h0 | h0
    · omega
    · have := at_length h.2 h0; omega
  · intro k t ih hv d e p x hde h hat
    cases x <;> try exact h.1.elim
    rename_i xs
    simp only [Ty.Valid] at hv
    simp only [Reads, readsMany_all] at h
    have hvs : ∀ t' ∈ List.replicate xs.length t, t'.Valid := by
      intro t' ht'; rw [(List.mem_replicate.1 ht').2]; exact hv.2
    simp only [enc, ← encAll_replicate] at hat ⊢
    have hof := readsAll_of (fun t' ht' => reads_of t' true d) h.2
    have hp := headSize_pos_of_ne hvs (by
      intro h0; rw [List.replicate_eq_nil_iff] at h0; omega) hof
    rw [layout, at_append, heads_length] at hat
    have := readsAll_within hde hvs (by
      intro t' ht'; rw [(List.mem_replicate.1 ht').2]; exact fun p x => ih hv.2 d e p x hde) h.2 hat.1 hat.2
    rw [layout_length]
    omega
  · intro t ih hv d e p x hde h hat
    cases x <;> try exact h.1.elim
    rename_i xs
    simp only [Ty.Valid] at hv
    simp only [Reads, readsMany_all] at h
    have hvs : ∀ t' ∈ List.replicate xs.length t, t'.Valid := by
      intro t' ht'; rw [(List.mem_replicate.1 ht').2]; exact hv
    simp only [enc, ← encAll_replicate, at_append, be32_length] at hat
    simp only [enc, ← encAll_replicate]
    have hw := at_length h.2.1 (by rw [be32_length]; omega)
    rw [be32_length] at hw
    rw [layout, at_append, heads_length] at hat
    have := readsAll_within hde hvs (by
      intro t' ht'; rw [(List.mem_replicate.1 ht').2]; exact fun p x => ih hv d e p x hde) h.2.2 hat.2.1 hat.2.2
    rw [List.length_append, be32_length, layout_length]
    omega
  · intro ts ih hv d e p x hde h hat
    cases x <;> try exact h.1.elim
    rename_i xs
    have hvs := Spec.Ty.allValid_iff.1 hv.2
    simp only [Reads] at h
    simp only [enc] at hat ⊢
    have hof := readsAll_of (fun t' ht' => reads_of t' true d) h
    have hp := headSize_pos_of_ne hvs hv.1 hof
    rw [layout, at_append, heads_length] at hat
    have := readsAll_within hde hvs (fun t ht p x => ih t ht (hvs t ht) d e p x hde) h hat.1 hat.2
    rw [layout_length]
    omega

theorem readsArgs_within {mh : List Ty → Nat} {ts : List Ty} (hv : ∀ t ∈ ts, t.Valid) (hne : ts ≠ [])
    {d e : Bytes} (hde : (d ++ e).length < 2 ^ 256) {xs : List Val} (h : ReadsArgs mh true ts d xs)
    (hat : layout (encAll ts xs) <+: d ++ e) : (layout (encAll ts xs)).length ≤ d.length := by
  have hof := readsAll_of (fun t' ht' => reads_of t' true d) h
  have hp := headSize_pos_of_ne hv hne hof
  have hat : At (d ++ e) 0 (layout (encAll ts xs)) := hat
  rw [layout, at_append, heads_length] at hat
  have := readsAll_within hde hv (fun t ht p x => reads_within t (hv t ht) d e p x hde) h hat.1 hat.2
  rw [layout_length]
  omega

/-! ## Strict readings are lax readings -/

theorem readsBytes_lax {d : Bytes} (hd : d.length ≤ ssizeMax) {p : Nat} {b : Bytes}
    (h : ReadsBytes d p b) : ReadsBytesLax d p b :=
  readsBytes_enc (strict := false) hd (by rw [at_append, be32_length]; exact h)

theorem reads_lax {mh : List Ty → Nat} {t : Ty} {d : Bytes} (hd : d.length ≤ ssizeMax) {p : Nat}
    {x : Val} (h : Reads mh true t d p x) : Reads mh false t d p x := by
  cases t
  case bytes =>
    cases x <;> try exact h
    exact readsBytes_lax hd h
  case string =>
    cases x <;> try exact h
    obtain ⟨b, h1, h2⟩ := h
    exact ⟨b, h1, readsBytes_lax hd h2⟩
  all_goals first | exact h | (cases x <;> (simp only [Reads] at h ⊢; exact h))

theorem readsAll_lax {mh : List Ty → Nat} {ts : List Ty} {d : Bytes} (hd : d.length ≤ ssizeMax)
    {base lo q : Nat} {xs : List Val} (h : ReadsAll mh true ts d base lo q xs) :
    ReadsAll mh false ts d base lo q xs := by
  induction ts generalizing q xs with
  | nil => cases xs <;> simp [ReadsAll] at h; trivial
  | cons t ts ih2 =>
    cases xs with
    | nil => simp [ReadsAll] at h
    | cons x xs =>
      simp only [ReadsAll] at h ⊢
      exact ⟨readsItem_imp h.1 fun p hp => reads_lax hd hp, ih2 h.2⟩

/-! ## Static types are read only from their canonical encoding -/

theorem readsAll_static {mh : List Ty → Nat} {strict : Bool} {ts : List Ty} {d : Bytes}
    (hv : ∀ t ∈ ts, t.Valid)
    (ih : ∀ t ∈ ts, t.dynamic = false → ∀ p x, Reads mh strict t d p x → At d p (enc t x))
    (hs : Ty.anyDynamic ts = false) {base lo q : Nat} {xs : List Val}
    (h : ReadsAll mh strict ts d base lo q xs) : At d q (layout (encAll ts xs)) := by
  have hst : ∀ a ∈ encAll ts xs, a.1 = false := by
    clear h ih hv
    induction ts generalizing xs with
    | nil => simp [encAll]
    | cons t ts ih =>
      simp only [Ty.anyDynamic, Bool.or_eq_false_iff] at hs
      cases xs with
      | nil => simp [encAll]
      | cons x xs =>
        intro a ha
        simp only [encAll, List.mem_cons] at ha
        rcases ha with rfl | ha
        · exact hs.1
        · exact ih hs.2 a ha
  rw [layout_static hst]
  clear hst
  induction ts generalizing q xs with
  | nil => simp [encAll, at_nil]
  | cons t ts ih2 =>
    simp only [Ty.anyDynamic, Bool.or_eq_false_iff] at hs
    cases xs with
    | nil => simp [encAll, at_nil]
    | cons x xs =>
      simp only [ReadsAll, hs.1, ReadsItem, Bool.false_eq_true, if_false] at h
      have h1 := ih t (by simp) hs.1 _ _ h.1
      have hlen := (enc_length t (hv t (by simp)) x (reads_of t _ _ _ _ h.1)).2.2 hs.1
      have h2 := ih2 (fun t ht => hv t (by simp [ht])) (fun t ht => ih t (by simp [ht])) hs.2 h.2
      simp only [encAll, List.map_cons, List.flatten_cons, at_append]
      refine ⟨h1, ?_⟩
      rw [hlen]
      simpa [headStep, hs.1] using h2

theorem anyDynamic_replicate (k : Nat) {t : Ty} (h : t.dynamic = false) :
    Ty.anyDynamic (List.replicate k t) = false := by
  induction k with
  | zero => rfl
  | succ k ih => simp [List.replicate_succ, Ty.anyDynamic, h, ih]

theorem reads_static {mh : List Ty → Nat} (t : Ty) : t.Valid → t.dynamic = false →
    ∀ (strict : Bool) (d : Bytes) (p : Nat) (x : Val), Reads mh strict t d p x → At d p (enc t x) := by
  refine Spec.Ty.ind (P := fun t => t.Valid → t.dynamic = false →
    ∀ (strict : Bool) (d : Bytes) (p : Nat) (x : Val), Reads mh strict t d p x → At d p (enc t x))
    ?_ ?_ ?_ ?_ ?_ ?_ ?_ ?_ ?_ ?_ ?_ ?_ t
  iterate 7
    intros
    rename_i h
    simp only [Reads] at h
    exact h.2
  · intro _ h; cases h
  · intro _ h; cases h
  · intro k t ih hv hs strict d p x h
    cases x <;> try exact h.1.elim
    simp only [Reads, readsMany_all] at h
    simp only [enc, ← encAll_replicate]
    have hmem : ∀ t' ∈ List.replicate (List.length ‹List Val›) t, t' = t :=
      fun t' ht' => (List.mem_replicate.1 ht').2
    refine readsAll_static ?_ ?_ (anyDynamic_replicate _ (by simpa [Ty.dynamic] using hs)) h.2
    · intro t' ht'; rw [hmem t' ht']; exact hv.2
    · intro t' ht'; rw [hmem t' ht']; exact fun hs p x => ih hv.2 hs true d p x
  · intro t _ _ h; cases h
  · intro ts ih hv hs strict d p x h
    cases x <;> try exact h.1.elim
    have hvs := Spec.Ty.allValid_iff.1 hv.2
    simp only [Reads] at h
    exact readsAll_static hvs (fun t ht hs p x => ih t ht (hvs t ht) hs true d p x) hs h

/-! ## Every reading is of bytes that exist -/

/-- A reading needs at least the head. -/
theorem readsAll_head {mh : List Ty → Nat} {strict : Bool} {ts : List Ty} {d : Bytes}
    (hv : ∀ t ∈ ts, t.Valid) {base lo q : Nat} {xs : List Val}
    (h : ReadsAll mh strict ts d base lo q xs) (hne : ts ≠ []) : q + headBytes ts ≤ d.length := by
  induction ts generalizing q xs with
  | nil => exact absurd rfl hne
  | cons t ts ih2 =>
    cases xs with
    | nil => simp [ReadsAll] at h
    | cons x xs =>
      simp only [ReadsAll] at h
      have hv1 := hv t (by simp)
      have h1 : q + headStep t ≤ d.length := by
        cases hd : t.dynamic with
        | true =>
          simp only [hd, ReadsItem, if_true] at h
          obtain ⟨⟨off, _, h2, _⟩, _⟩ := h
          have := at_length h2 (by rw [be32_length]; omega)
          rw [be32_length] at this
          simpa [headStep, hd] using this
        | false =>
          simp only [hd, ReadsItem, Bool.false_eq_true, if_false] at h
          have hof := reads_of t _ _ _ _ h.1
          have hl := enc_length t hv1 x hof
          have h2 := at_length (reads_static t hv1 hd _ _ _ _ h.1) (by omega)
          simp only [headStep, hd, Bool.false_eq_true, if_false]
          rw [← hl.2.2 hd]; exact h2
      cases ts with
      | nil => simpa [headBytes] using h1
      | cons t' ts' =>
        have := ih2 (fun t ht => hv t (by simp [ht])) h.2 (by simp)
        simp only [headBytes, List.map_cons, List.sum_cons] at this ⊢
        omega

/-- The items of a decoded array have their own heads in the data. -/
theorem reads_dyn_length {mh : List Ty → Nat} {strict : Bool} {t : Ty} (hv : t.Valid) {d : Bytes}
    {p : Nat} {xs : List Val} (h : Reads mh strict (.dyn t) d p (.seq xs)) :
    p + 32 + headStep t * xs.length ≤ d.length := by
  simp only [Reads, readsMany_all] at h
  have hw := at_length h.2.1 (by rw [be32_length]; omega)
  rw [be32_length] at hw
  rcases Nat.eq_zero_or_pos xs.length with h0 | h0
  · rw [h0]; omega
  · have := readsAll_head (by
      intro t' ht'; rw [(List.mem_replicate.1 ht').2]; exact hv) h.2.2 (by
      intro hn; rw [List.replicate_eq_nil_iff] at hn; omega)
    simp only [headBytes_replicate] at this
    rw [Nat.mul_comm]; exact this

/-! ## Errors -/

/-- The exceptions of a decoding. -/
def DecErr (e : Exc) : Prop :=
  e = .insufficientDataBytes ∨ e = .nonEmptyPaddingBytes ∨ e = .invalidPointer ∨
    e = .overflowError ∨ e = .unicodeDecodeError

theorem posBytes_error {strict : Bool} {d : Bytes} {p : Nat} {e : Exc}
    (h : posBytes strict d p = .error e) :
    e = .insufficientDataBytes ∨ e = .nonEmptyPaddingBytes ∨ e = .overflowError := by
  simp only [posBytes, bind_eq_error] at h
  rcases h with h | ⟨n, h1, h2⟩
  · exact Or.inl (wordAt_error h)
  · repeat' split at h2
    all_goals simp at h2
    all_goals simp [← h2]

theorem checkPtr_error {d : Bytes} {base lo q : Nat} {e : Exc} (h : checkPtr d base lo q = .error e) :
    e = .insufficientDataBytes ∨ e = .invalidPointer := by
  simp only [checkPtr, bind_eq_error] at h
  rcases h with h | ⟨n, h1, h2⟩
  · exact Or.inl (wordAt_error h)
  · split at h2 <;> simp at h2
    exact Or.inr h2.symm

theorem checkPtrs_error {d : Bytes} {base lo k q : Nat} {e : Exc}
    (h : checkPtrs d base lo k q = .error e) : e = .insufficientDataBytes ∨ e = .invalidPointer := by
  induction k generalizing q with
  | zero => cases h
  | succ k ih =>
    simp only [checkPtrs, bind_eq_error] at h
    rcases h with h | ⟨_, _, h⟩
    · exact checkPtr_error h
    · exact ih h

theorem posItem_error {dynamic : Bool} {f : Nat → PyM Val} {d : Bytes} {base q : Nat} {e : Exc}
    (hf : ∀ p e, f p = .error e → DecErr e) (h : posItem dynamic f d base q = .error e) : DecErr e := by
  simp only [posItem] at h
  split at h
  · simp only [bind_eq_error] at h
    rcases h with h | ⟨n, h1, h2⟩
    · exact Or.inl (wordAt_error h)
    · split at h2
      · simp at h2; simp [DecErr, ← h2]
      · exact hf _ _ (by simpa using h2)
  · exact hf _ _ h

theorem posMany_error {f : Nat → PyM Val} {step k q : Nat} {e : Exc}
    (hf : ∀ p e, f p = .error e → DecErr e) (h : posMany f step k q = .error e) : DecErr e := by
  induction k generalizing q with
  | zero => cases h
  | succ k ih =>
    simp only [posMany, bind_eq_error, pure_eq_ok] at h
    rcases h with h | ⟨_, _, h | ⟨_, _, h⟩⟩
    · exact hf _ _ h
    · exact ih h
    · cases h

theorem posSeq_error {dynamic : Bool} {f : Nat → PyM Val} {step k : Nat} {d : Bytes} {p : Nat} {e : Exc}
    (hf : ∀ p e, f p = .error e → DecErr e) (h : posSeq dynamic f step k d p = .error e) : DecErr e := by
  simp only [posSeq, bind_eq_error] at h
  rcases h with h | ⟨_, _, h⟩
  · split at h
    · rcases checkPtrs_error h with rfl | rfl <;> simp [DecErr]
    · cases h
  · exact posMany_error (fun q e => posItem_error hf) h

theorem posAll_error {strict : Bool} {ts : List Ty} {d : Bytes} {base q : Nat} {e : Exc}
    (hf : ∀ t ∈ ts, ∀ p e, posDec strict t d p = .error e → DecErr e)
    (h : posAll strict ts d base q = .error e) : DecErr e := by
  induction ts generalizing q with
  | nil => cases h
  | cons t ts ih =>
    simp only [posAll, bind_eq_error, pure_eq_ok] at h
    rcases h with h | ⟨_, _, h | ⟨_, _, h⟩⟩
    · exact posItem_error (hf t (by simp)) h
    · exact ih (fun t ht => hf t (by simp [ht])) h
    · cases h

theorem checkAll_error {ts : List Ty} {d : Bytes} {base lo q : Nat} {e : Exc}
    (hf : ∀ t ∈ ts, ∀ p e, posDec true t d p = .error e → DecErr e)
    (h : checkAll ts d base lo q = .error e) : DecErr e := by
  induction ts generalizing q with
  | nil => cases h
  | cons t ts ih =>
    simp only [checkAll, bind_eq_error, checkHead] at h
    rcases h with h | ⟨_, _, h⟩
    · split at h
      · rcases checkPtr_error h with rfl | rfl <;> simp [DecErr]
      · simp only [bind_eq_error] at h
        rcases h with h | ⟨_, _, h⟩
        · exact hf t (by simp) _ _ h
        · cases h
    · exact ih (fun t ht => hf t (by simp [ht])) h

theorem posDec_error (t : Ty) : ∀ (strict : Bool) (d : Bytes) (p : Nat) (e : Exc),
    posDec strict t d p = .error e → DecErr e := by
  refine Spec.Ty.ind (P := fun t => ∀ (strict : Bool) (d : Bytes) (p : Nat) (e : Exc),
    posDec strict t d p = .error e → DecErr e) ?_ ?_ ?_ ?_ ?_ ?_ ?_ ?_ ?_ ?_ ?_ ?_ t
  iterate 7
    intros
    rename_i h
    rw [posDec_leaf rfl, bind_eq_error] at h
    rcases h with h | ⟨b, h1, h⟩
    · exact Or.inl (bytesAt_error h)
    · exact Or.inr (Or.inl (leafDec_error rfl h))
  · intro strict d p e h
    simp only [posDec, bind_eq_error, pure_eq_ok] at h
    rcases h with h | ⟨_, _, h⟩
    · rcases posBytes_error h with rfl | rfl | rfl <;> simp [DecErr]
    · cases h
  · intro strict d p e h
    simp only [posDec, bind_eq_error, pure_eq_ok] at h
    rcases h with h | ⟨_, _, h | ⟨_, _, h⟩⟩
    · rcases posBytes_error h with rfl | rfl | rfl <;> simp [DecErr]
    · rw [utf8Decode_error h]; simp [DecErr]
    · cases h
  · intro k t ih strict d p e h
    simp only [posDec, bind_eq_error, pure_eq_ok] at h
    rcases h with h | ⟨_, _, h⟩
    · exact posSeq_error (ih true d) h
    · cases h
  · intro t ih strict d p e h
    simp only [posDec, bind_eq_error, pure_eq_ok] at h
    rcases h with h | ⟨_, _, h | ⟨_, _, h⟩⟩
    · exact Or.inl (wordAt_error h)
    · exact posSeq_error (ih true d) h
    · cases h
  · intro ts ih strict d p e h
    simp only [posDec, bind_eq_error, pure_eq_ok] at h
    rcases h with h | ⟨_, _, h | ⟨_, _, h⟩⟩
    · exact checkAll_error (fun t ht => ih t ht true d) h
    · exact posAll_error (fun t ht => ih t ht true d) h
    · cases h

theorem posTop_error {strict : Bool} {ts : List Ty} {d : Bytes} {e : Exc}
    (h : posTop strict ts d = .error e) : DecErr e := by
  simp only [posTop, bind_eq_error] at h
  rcases h with h | ⟨_, _, h⟩
  · exact checkAll_error (fun t _ => posDec_error t true d) h
  · exact posAll_error (fun t _ => posDec_error t strict d) h

end EthAbi
