import Verif.Lemmas.LeafDec

/-! # Decoding by positions is reading in the sense of the specification -/
namespace EthAbi
open Spec

/-- The bytes of the head that `TupleDecoder.validate_pointers` makes offsets skip. -/
def codeHead (ts : List Ty) : Nat := 32 * headWordsAll ts

theorem at_append {d : Bytes} {p : Nat} {a b : Bytes} :
    At d p (a ++ b) ↔ At d p a ∧ At d (p + a.length) b := by
  simp only [At]
  constructor
  · rintro ⟨r, hr⟩
    refine ⟨⟨b ++ r, by rw [← hr, List.append_assoc]⟩, ⟨r, ?_⟩⟩
    rw [← List.drop_drop, ← hr, List.append_assoc, List.drop_left' rfl]
  · rintro ⟨⟨r, hr⟩, ⟨s, hs⟩⟩
    refine ⟨s, ?_⟩
    rw [← List.drop_drop, ← hr, List.drop_left' rfl] at hs
    rw [List.append_assoc, hs, hr]

theorem at_nil (d : Bytes) (p : Nat) : At d p [] := List.nil_prefix

theorem at_length {d : Bytes} {p : Nat} {b : Bytes} (h : At d p b) (hb : 0 < b.length) :
    p + b.length ≤ d.length := by
  have := List.IsPrefix.length_le h
  rw [List.length_drop] at this
  omega

theorem at_iff_take {d : Bytes} {p : Nat} {b : Bytes} :
    At d p b ↔ b = (d.drop p).take b.length := List.prefix_iff_eq_take

theorem at_mono {d e : Bytes} {p : Nat} {b : Bytes} (h : At d p b) : At (d ++ e) p b := by
  cases b with
  | nil => exact at_nil _ _
  | cons x b =>
    have hl := at_length h (by simp)
    simp only [At] at *
    rw [List.drop_append_of_le_length (by simp at hl; omega)]
    exact h.trans (List.prefix_append _ _)

theorem bytesAt_iff {d : Bytes} {p n : Nat} (hn : 0 < n) {b : Bytes} :
    bytesAt d p n = .ok b ↔ b.length = n ∧ At d p b := by
  simp only [bytesAt]
  constructor
  · intro h
    split at h
    · injection h with h
      subst h
      have : ((d.drop p).take n).length = n := by simp; omega
      exact ⟨this, List.take_prefix _ _⟩
    · cases h
  · rintro ⟨h1, h2⟩
    have := at_length h2 (by omega)
    rw [if_pos (by omega), ← h1, ← at_iff_take.1 h2]

theorem bytesAt_error {d : Bytes} {p n : Nat} {e : Exc} (h : bytesAt d p n = .error e) :
    e = .insufficientDataBytes := by
  simp only [bytesAt] at h
  split at h <;> cases h; rfl

theorem wordAt_iff {d : Bytes} {p n : Nat} :
    wordAt d p = .ok n ↔ n < 2 ^ 256 ∧ At d p (be32 n) := by
  simp only [wordAt, bind_eq_ok, pure_eq_ok, bytesAt_iff (show 0 < 32 by omega)]
  constructor
  · rintro ⟨b, ⟨h1, h2⟩, h3⟩
    injection h3 with h3
    subst h3
    refine ⟨?_, ?_⟩
    · have := bigEndianToInt_lt b
      rw [h1] at this
      exact lt_of_lt_of_eq this (by norm_num)
    · rw [be32_bigEndianToInt h1]; exact h2
  · rintro ⟨h1, h2⟩
    exact ⟨be32 n, ⟨be32_length n, h2⟩, by rw [bigEndianToInt_be32 h1]⟩

theorem wordAt_error {d : Bytes} {p : Nat} {e : Exc} (h : wordAt d p = .error e) :
    e = .insufficientDataBytes := by
  simp only [wordAt, bind_eq_error, pure_eq_ok] at h
  rcases h with h | ⟨_, _, h⟩
  · exact bytesAt_error h
  · cases h

theorem ceil32_lt {n : Nat} (h : ceil32 n ≤ ssizeMax) : n < 2 ^ 256 := by
  rw [ceil32_eq] at h
  have : ssizeMax < 2 ^ 256 := by simp [ssizeMax]
  omega

theorem posBytes_strict_iff {d : Bytes} (hd : d.length ≤ ssizeMax) {p : Nat} {b : Bytes} :
    posBytes true d p = .ok b ↔ ReadsBytes d p b := by
  simp only [posBytes, bind_eq_ok, wordAt_iff, ReadsBytes, if_true]
  constructor
  · rintro ⟨n, ⟨hn, hat⟩, h⟩
    split at h
    · simp at h
    · next hov =>
      split at h
      · simp at h
      · next hlen =>
        split at h
        · simp at h
        · next hz =>
          simp only [ok_bind, pure_eq_ok] at h
          injection h with h
          simp only [not_not] at hz
          simp only [not_lt] at hlen
          have hc : ((d.drop (p + 32)).take (ceil32 n)).length = ceil32 n := by
            simp only [List.length_take, List.length_drop] at hlen ⊢; omega
          have hnc : n ≤ ceil32 n := by rw [ceil32_eq]; omega
          have hbl : b.length = n := by rw [← h, List.length_take, hc]; omega
          rw [hbl]
          refine ⟨hat, ?_⟩
          have : padRight32 b = (d.drop (p + 32)).take (ceil32 n) := by
            conv_rhs => rw [← List.take_append_drop n ((d.drop (p + 32)).take (ceil32 n)), h, hz]
            rw [padRight32, hbl, ceil32_eq]
            congr 2; omega
          rw [this]
          exact List.take_prefix _ _
  · rintro ⟨h1, h2⟩
    have hpl := padRight32_length b
    have hnc : b.length ≤ ceil32 b.length := by rw [ceil32_eq]; omega
    have hcl : ceil32 b.length ≤ d.length := by
      rcases Nat.eq_zero_or_pos (ceil32 b.length) with h | h
      · omega
      · have := at_length h2 (by omega); omega
    have hb : b.length < 2 ^ 256 := ceil32_lt (by omega)
    refine ⟨b.length, ⟨hb, h1⟩, ?_⟩
    have h3 := at_iff_take.1 h2
    rw [hpl] at h3
    rw [← h3, if_neg (by omega), if_neg (by omega)]
    have h4 : (padRight32 b).drop b.length = List.replicate (ceil32 b.length - b.length) 0 := by
      rw [padRight32, List.drop_left' rfl, ceil32_eq]; congr 1; omega
    rw [if_neg (by rw [h4]; simp)]
    simp only [ok_bind, pure_eq_ok]
    rw [padRight32, List.take_left' rfl]

theorem posBytes_lax_iff {d : Bytes} {p : Nat} {b : Bytes} :
    posBytes false d p = .ok b ↔ ReadsBytesLax d p b := by
  simp only [posBytes, bind_eq_ok, wordAt_iff, ReadsBytesLax, Bool.false_eq_true, if_false]
  constructor
  · rintro ⟨n, ⟨hn, hat⟩, h⟩
    split at h
    · simp at h
    · next hov =>
      simp only [ok_bind, pure_eq_ok] at h
      injection h with h
      have hnc : n ≤ ceil32 n := by rw [ceil32_eq]; omega
      refine ⟨n, hn, hat, by omega, ?_⟩
      rw [← h, List.take_take, Nat.min_eq_left hnc]
  · rintro ⟨n, hn, h1, h2, rfl⟩
    have hnc : n ≤ ceil32 n := by rw [ceil32_eq]; omega
    refine ⟨n, ⟨hn, h1⟩, ?_⟩
    rw [if_neg (by omega)]
    simp only [ok_bind, pure_eq_ok]
    rw [List.take_take, Nat.min_eq_left hnc]

theorem posBytes_iff {strict : Bool} {d : Bytes} (hd : d.length ≤ ssizeMax) {p : Nat} {b : Bytes} :
    posBytes strict d p = .ok b ↔ (if strict then ReadsBytes d p b else ReadsBytesLax d p b) := by
  cases strict
  · simp only [Bool.false_eq_true, if_false]; exact posBytes_lax_iff
  · simp only [if_true]; exact posBytes_strict_iff hd

theorem checkPtr_iff {d : Bytes} {base lo q : Nat} :
    checkPtr d base lo q = .ok () ↔
      ∃ off, off < 2 ^ 256 ∧ At d q (be32 off) ∧ lo ≤ base + off ∧ base + off < d.length := by
  simp only [checkPtr, bind_eq_ok, wordAt_iff]
  constructor
  · rintro ⟨off, ⟨h1, h2⟩, h3⟩
    split at h3
    · cases h3
    · exact ⟨off, h1, h2, by omega, by omega⟩
  · rintro ⟨off, h1, h2, h3, h4⟩
    exact ⟨off, ⟨h1, h2⟩, by rw [if_neg (by omega)]; rfl⟩

/-- The validation and the decoding of one element together. -/
theorem posItem_iff {dynamic : Bool} {f : Nat → PyM Val} {R : Nat → Val → Prop} {d : Bytes}
    (hd : d.length ≤ ssizeMax) (hf : ∀ p x, f p = .ok x ↔ R p x) {base lo q : Nat} {x : Val} :
    ((dynamic = true → checkPtr d base lo q = .ok ()) ∧ posItem dynamic f d base q = .ok x) ↔
      ReadsItem dynamic R d base lo q x := by
  cases dynamic with
  | false => simp [posItem, ReadsItem, hf]
  | true =>
    simp only [posItem, ReadsItem, if_true, true_imp_iff, checkPtr_iff, bind_eq_ok]
    constructor
    · rintro ⟨⟨off, h1, h2, h3, h4⟩, off', h5, h6⟩
      have h7 := wordAt_iff.2 ⟨h1, h2⟩
      rw [h7] at h5
      injection h5 with h5
      subst h5
      rw [if_neg (by omega)] at h6
      exact ⟨off, h1, h2, h3, h4, (hf _ _).1 (by simpa using h6)⟩
    · rintro ⟨off, h1, h2, h3, h4, h5⟩
      refine ⟨⟨off, h1, h2, h3, h4⟩, off, wordAt_iff.2 ⟨h1, h2⟩, ?_⟩
      rw [if_neg (by omega)]
      simpa using (hf _ _).2 h5

theorem posMany_iff {dynamic : Bool} {f : Nat → PyM Val} {R : Nat → Val → Prop} {d : Bytes}
    (hd : d.length ≤ ssizeMax) (hf : ∀ p x, f p = .ok x ↔ R p x) {step : Nat}
    (hs : dynamic = true → step = 32) {base lo k q : Nat} {xs : List Val} :
    ((dynamic = true → checkPtrs d base lo k q = .ok ()) ∧
      posMany (posItem dynamic f d base) step k q = .ok xs) ↔
      xs.length = k ∧ ReadsMany dynamic R step d base lo q xs := by
  induction k generalizing q xs with
  | zero =>
    simp only [checkPtrs, posMany, implies_true, true_and]
    cases xs <;> simp [ReadsMany]
  | succ k ih =>
    cases xs with
    | nil => 
      simp [posMany, bind_eq_ok]
    | cons x xs =>
      simp only [checkPtrs, posMany, ReadsMany, bind_eq_ok, pure_eq_ok, ← posItem_iff hd hf,
        List.length_cons, Nat.add_right_cancel_iff]
      constructor
      · rintro ⟨h1, y, h2, ys, h3, h4⟩
        injection h4 with h4
        injection h4 with h4 h5
        subst h4 h5
        have := (ih (q := q + step) (xs := ys)).1 ⟨fun hdy => by
          obtain ⟨_, _, h⟩ := h1 hdy
          rw [hs hdy]; exact h, h3⟩
        exact ⟨this.1, ⟨fun hdy => by obtain ⟨⟨⟩, h, _⟩ := h1 hdy; exact h, h2⟩, this.2⟩
      · rintro ⟨h1, ⟨h2, h3⟩, h4⟩
        obtain ⟨h5, h6⟩ := (ih (q := q + step) (xs := xs)).2 ⟨h1, h4⟩
        refine ⟨fun hdy => ⟨(), h2 hdy, ?_⟩, x, h3, xs, h6, rfl⟩
        have := h5 hdy
        rw [hs hdy] at this
        exact this

theorem posSeq_iff {dynamic : Bool} {f : Nat → PyM Val} {R : Nat → Val → Prop} {d : Bytes}
    (hd : d.length ≤ ssizeMax) (hf : ∀ p x, f p = .ok x ↔ R p x) {step : Nat}
    (hs : dynamic = true → step = 32) {k p : Nat} {xs : List Val} :
    posSeq dynamic f step k d p = .ok xs ↔
      xs.length = k ∧ ReadsMany dynamic R step d p (p + 32 * k) p xs := by
  rw [← posMany_iff hd hf hs]
  cases dynamic with
  | false => simp [posSeq]
  | true =>
    simp only [posSeq, if_true, bind_eq_ok, true_imp_iff]
    exact ⟨fun ⟨_, h1, h2⟩ => ⟨h1, h2⟩, fun ⟨h1, h2⟩ => ⟨(), h1, h2⟩⟩

theorem posAll_iff {ts : List Ty} {strict : Bool} {d : Bytes} (hd : d.length ≤ ssizeMax)
    (hf : ∀ t ∈ ts, ∀ p x, posDec strict t d p = .ok x ↔ Reads codeHead strict t d p x)
    {base lo q : Nat} {xs : List Val} :
    (checkAll ts d base lo q = .ok () ∧ posAll strict ts d base q = .ok xs) ↔
      ReadsAll codeHead strict ts d base lo q xs := by
  induction ts generalizing q xs with
  | nil => cases xs <;> simp [checkAll, posAll, ReadsAll]
  | cons t ts ih =>
    have ih := fun q xs => ih (q := q) (xs := xs) (fun t ht => hf t (by simp [ht]))
    have hft := hf t (by simp)
    cases xs with
    | nil => simp [posAll, bind_eq_ok, ReadsAll]
    | cons x xs =>
      simp only [checkAll, posAll, ReadsAll, bind_eq_ok, pure_eq_ok, ← posItem_iff hd hft]
      constructor
      · rintro ⟨⟨⟨⟩, h1, h2⟩, y, h3, ys, h4, h5⟩
        injection h5 with h5
        injection h5 with h5 h6
        subst h5 h6
        refine ⟨⟨fun hdy => ?_, h3⟩, (ih _ _).1 ⟨h2, h4⟩⟩
        simpa [checkHead, hdy] using h1
      · rintro ⟨⟨h1, h2⟩, h3⟩
        obtain ⟨h4, h5⟩ := (ih _ _).2 h3
        refine ⟨⟨(), ?_, h4⟩, x, h2, xs, h5, rfl⟩
        cases hdy : t.dynamic with
        | true => simpa [checkHead] using h1 hdy
        | false =>
          simp only [hdy, posItem, Bool.false_eq_true, if_false] at h2
          simp only [checkHead, Bool.false_eq_true, if_false]
          rw [posDec_static_strict hdy true strict, h2]
          rfl

/-- A successful decoding is exactly a reading. -/
theorem posDec_iff (t : Ty) : t.Valid → ∀ (strict : Bool) (d : Bytes), d.length ≤ ssizeMax →
    ∀ p x, posDec strict t d p = .ok x ↔ Reads codeHead strict t d p x := by
  refine Spec.Ty.ind (P := fun t => t.Valid → ∀ (strict : Bool) (d : Bytes), d.length ≤ ssizeMax →
    ∀ p x, posDec strict t d p = .ok x ↔ Reads codeHead strict t d p x)
    ?_ ?_ ?_ ?_ ?_ ?_ ?_ ?_ ?_ ?_ ?_ ?_ t
  iterate 7
    intros
    rename_i hv strict d hd p x
    rw [posDec_leaf rfl, bind_eq_ok]
    simp only [bytesAt_iff (show 0 < 32 by omega), Reads]
    constructor
    · rintro ⟨b, ⟨h1, h2⟩, h3⟩
      obtain ⟨h4, h5⟩ := (leafDec_iff rfl hv h1).1 h3
      exact ⟨h4, by rw [h5]; exact h2⟩
    · rintro ⟨h1, h2⟩
      have hl : (enc _ x).length = 32 := (enc_length _ hv x h1).2.2 rfl
      exact ⟨_, ⟨hl, h2⟩, (leafDec_iff rfl hv hl).2 ⟨h1, rfl⟩⟩
  · intro _ strict d hd p x
    simp only [posDec, bind_eq_ok, pure_eq_ok, posBytes_iff hd]
    constructor
    · rintro ⟨b, h1, h2⟩
      injection h2 with h2; subst h2
      exact h1
    · cases x <;> try (rintro ⟨⟨⟩, _⟩; done)
      intro h
      exact ⟨_, h, rfl⟩
  · intro _ strict d hd p x
    simp only [posDec, bind_eq_ok, pure_eq_ok, posBytes_iff hd, utf8Decode_ok_iff]
    constructor
    · rintro ⟨b, h1, s, h2, h3⟩
      injection h3 with h3; subst h3
      exact ⟨b, h2, h1⟩
    · cases x <;> try (rintro ⟨⟨⟩, _⟩; done)
      rintro ⟨b, h1, h2⟩
      exact ⟨b, h2, _, h1, rfl⟩
  · intro k t ih hv strict d hd p x
    have hseq := fun k p xs => posSeq_iff hd (ih hv.2 true d hd)
      (step := headStep t) (dynamic := t.dynamic) (fun h => by rw [headStep, if_pos h])
      (k := k) (p := p) (xs := xs)
    simp only [posDec, bind_eq_ok, pure_eq_ok, hseq]
    constructor
    · rintro ⟨xs, h1, h2⟩
      injection h2 with h2; subst h2
      exact h1
    · cases x <;> try (rintro ⟨⟨⟩, _⟩; done)
      intro h
      exact ⟨_, h, rfl⟩
  · intro t ih hv strict d hd p x
    have hseq := fun k p xs => posSeq_iff hd (ih hv true d hd)
      (step := headStep t) (dynamic := t.dynamic) (fun h => by rw [headStep, if_pos h])
      (k := k) (p := p) (xs := xs)
    simp only [posDec, bind_eq_ok, pure_eq_ok, wordAt_iff, hseq]
    constructor
    · rintro ⟨k, ⟨h0, h1⟩, xs, ⟨rfl, h2⟩, h3⟩
      injection h3 with h3; subst h3
      exact ⟨h0, h1, h2⟩
    · cases x <;> try (rintro ⟨⟨⟩, _⟩; done)
      rintro ⟨h0, h1, h2⟩
      exact ⟨_, ⟨h0, h1⟩, _, ⟨rfl, h2⟩, rfl⟩
  · intro ts ih hv strict d hd p x
    have key := fun xs => posAll_iff (ts := ts) (strict := true) hd
      (fun t ht => ih t ht (Spec.Ty.allValid_iff.1 hv.2 t ht) true d hd)
      (base := p) (lo := p + 32 * headWordsAll ts) (q := p) (xs := xs)
    simp only [posDec, bind_eq_ok, pure_eq_ok]
    constructor
    · rintro ⟨⟨⟩, h1, xs, h2, h3⟩
      injection h3 with h3; subst h3
      exact (key xs).1 ⟨h1, h2⟩
    · cases x <;> try (rintro ⟨⟨⟩, _⟩; done)
      intro h
      obtain ⟨h1, h2⟩ := (key _).2 h
      exact ⟨(), h1, _, h2, rfl⟩

theorem posTop_iff {ts : List Ty} (hv : ∀ t ∈ ts, t.Valid) (strict : Bool) {d : Bytes}
    (hd : d.length ≤ ssizeMax) {xs : List Val} :
    posTop strict ts d = .ok xs ↔ ReadsArgs codeHead strict ts d xs := by
  simp only [posTop, bind_eq_ok, ReadsArgs]
  rw [← posAll_iff hd (fun t ht => posDec_iff t (hv t ht) strict d hd)]
  exact ⟨fun ⟨_, h1, h2⟩ => ⟨h1, h2⟩, fun ⟨h1, h2⟩ => ⟨(), h1, h2⟩⟩

end EthAbi
