import Verif.Spec.Packed
import Verif.Lemmas.Packed
import Verif.Lemmas.ToPy
import Verif.Lemmas.SpecFacts
import Verif.Lemmas.LeafDec

/-! # Packed mode: comparison with Solidity, and injectivity -/
namespace EthAbi
open Spec

/-! ## Elementary values -/

theorem beN_inj {k m n : Nat} (hm : m < 256 ^ k) (hn : n < 256 ^ k) (h : beN k m = beN k n) : m = n := by
  have := congrArg bigEndianToInt h
  rwa [bigEndianToInt_beN, bigEndianToInt_beN, Nat.mod_eq_of_lt hm, Nat.mod_eq_of_lt hn] at this

theorem beBytes_mod {k : Nat} {i j : Int} (h : beBytes k i = beBytes k j) : i % 2 ^ (8 * k) = j % 2 ^ (8 * k) := by
  have hpos : (0 : Int) < 2 ^ (8 * k) := by positivity
  have key : ∀ i : Int, (i % 2 ^ (8 * k)).toNat < 256 ^ k := by
    intro i
    have h1 := Int.emod_lt_of_pos i hpos
    have h0 := Int.emod_nonneg i (by omega : (2 : Int) ^ (8 * k) ≠ 0)
    have : ((i % 2 ^ (8 * k)).toNat : Int) < ((256 ^ k : Nat) : Int) := by
      rw [pow_256_int, Int.toNat_of_nonneg h0]; exact h1
    exact_mod_cast this
  rw [beBytes_eq, beBytes_eq] at h
  have h' := beN_inj (key i) (key j) h
  have h0 := Int.emod_nonneg i (by omega : (2 : Int) ^ (8 * k) ≠ 0)
  have h1 := Int.emod_nonneg j (by omega : (2 : Int) ^ (8 * k) ≠ 0)
  omega

theorem beBytes_injU {n : Nat} (hn : validBits n) {i j : Int} (hi : fitsU n i) (hj : fitsU n j)
    (h : beBytes (n / 8) i = beBytes (n / 8) j) : i = j := by
  have he : 8 * (n / 8) = n := by simp only [validBits] at hn; omega
  have := beBytes_mod h
  rw [he] at this
  rwa [Int.emod_eq_of_lt hi.1 hi.2, Int.emod_eq_of_lt hj.1 hj.2] at this

theorem beBytes_injS {n : Nat} (hn : validBits n) {i j : Int} (hi : fitsS n i) (hj : fitsS n j)
    (h : beBytes (n / 8) i = beBytes (n / 8) j) : i = j := by
  have he : 8 * (n / 8) = n := by simp only [validBits] at hn; omega
  have hm := beBytes_mod h
  rw [he] at hm
  have hp : (2 : Int) ^ n = 2 * 2 ^ (n - 1) := by
    rw [← pow_succ']; congr 1; simp only [validBits] at hn; omega
  obtain ⟨a1, a2⟩ := hi
  obtain ⟨b1, b2⟩ := hj
  rw [hp] at hm
  generalize (2 : Int) ^ (n - 1) = P at *
  have hd := (Int.emod_emod_of_dvd (n := i) (m := 2 * P) (Int.dvd_refl _)).symm
  have h2 : (2 * P) ∣ (i - j) := Int.dvd_of_emod_eq_zero (Int.emod_eq_emod_iff_emod_sub_eq_zero.1 hm)
  obtain ⟨q, hq⟩ := h2
  have hP : 0 < P := by omega
  have hq0 : q = 0 := by
    rcases Int.lt_trichotomy q 0 with hlt | h0 | hgt
    · nlinarith
    · exact h0
    · nlinarith
  subst hq0
  omega

theorem beBytes_zero (k : Nat) : beBytes k 0 = List.replicate k 0 := by
  rw [beBytes_eq, Int.zero_emod]
  exact beN_zero k

theorem textBytes_inj {s s' : PyStr} (h : (utf8Encode? s).isSome) (h' : (utf8Encode? s').isSome)
    (he : textBytes s = textBytes s') : s = s' := by
  obtain ⟨b, hb⟩ := Option.isSome_iff_exists.1 h
  obtain ⟨b', hb'⟩ := Option.isSome_iff_exists.1 h'
  simp only [textBytes, hb, hb', Option.getD_some] at he
  subst he
  have h1 := utf8Decode_encode hb
  rw [utf8Decode_encode hb'] at h1
  injection h1 with h1
  exact h1.symm

/-! ## Types of fixed length -/

theorem flatten_map_length {t : Ty} {w : Nat} {vs : List Val} (h : ∀ v ∈ vs, (encPacked t v).length = w) :
    ((vs.map (encPacked t)).flatten).length = vs.length * w := by
  induction vs with
  | nil => simp
  | cons v vs ih =>
    rw [List.map_cons, List.flatten_cons, List.length_append, h v (by simp), ih fun u hu => h u (by simp [hu]),
      List.length_cons, Nat.succ_mul, Nat.add_comm]

theorem flatten_map_inj {t : Ty} {w : Nat} (hw : ∀ v, Val.Of t v → (encPacked t v).length = w)
    (hi : ∀ v u, Val.Of t v → Val.Of t u → encPacked t v = encPacked t u → v = u) {vs us : List Val}
    (hl : vs.length = us.length) (hv : ∀ v ∈ vs, Val.Of t v) (hu : ∀ u ∈ us, Val.Of t u)
    (he : (vs.map (encPacked t)).flatten = (us.map (encPacked t)).flatten) : vs = us := by
  induction vs generalizing us with
  | nil => cases us with | nil => rfl | cons u us => cases hl
  | cons v vs ih =>
    cases us with
    | nil => cases hl
    | cons u us =>
      simp only [List.map_cons, List.flatten_cons] at he
      have h1 := hv v (by simp)
      have h2 := hu u (by simp)
      obtain ⟨e1, e2⟩ := List.append_inj he ((hw v h1).trans (hw u h2).symm)
      rw [hi v u h1 h2 e1, ih (by simpa using hl) (fun x hx => hv x (by simp [hx])) (fun x hx => hu x (by simp [hx])) e2]

/-- A type of fixed length: its width, and that its values differ in their packed form. -/
def FixedLength (t : Ty) : Prop :=
  ∃ w, 0 < w ∧ (∀ x, Val.Of t x → (encPacked t x).length = w) ∧
    ∀ x y, Val.Of t x → Val.Of t y → encPacked t x = encPacked t y → x = y

theorem static_all {ts : List Ty} (h : ∀ t ∈ ts, FixedLength t) :
    ∃ w, (ts ≠ [] → 0 < w) ∧ (∀ xs, Val.OfAll ts xs → (encPackedAll ts xs).length = w) ∧
      ∀ xs ys, Val.OfAll ts xs → Val.OfAll ts ys → encPackedAll ts xs = encPackedAll ts ys → xs = ys := by
  induction ts with
  | nil =>
    refine ⟨0, fun h => absurd rfl h, fun xs _ => rfl, fun xs ys hx hy _ => ?_⟩
    cases xs <;> cases ys <;> simp only [Val.OfAll] at hx hy
    rfl
  | cons t ts ih =>
    obtain ⟨w, _, hw, hi⟩ := ih fun t ht => h t (by simp [ht])
    obtain ⟨w', hw0, hw', hi'⟩ := h t (by simp)
    refine ⟨w' + w, fun _ => by omega, fun xs hx => ?_, fun xs ys hx hy he => ?_⟩
    · cases xs with
      | nil => simp only [Val.OfAll] at hx
      | cons x xs =>
        simp only [Val.OfAll] at hx
        rw [encPackedAll, List.length_append, hw' x hx.1, hw xs hx.2]
    · cases xs with
      | nil => simp only [Val.OfAll] at hx
      | cons x xs =>
        cases ys with
        | nil => simp only [Val.OfAll] at hy
        | cons y ys =>
          simp only [Val.OfAll] at hx hy
          simp only [encPackedAll] at he
          obtain ⟨e1, e2⟩ := List.append_inj he ((hw' x hx.1).trans (hw' y hy.1).symm)
          rw [hi' x y hx.1 hy.1 e1, hi xs ys hx.2 hy.2 e2]

theorem anyDynamic_false {ts : List Ty} : Ty.anyDynamic ts = false ↔ ∀ t ∈ ts, t.dynamic = false := by
  induction ts with
  | nil => simp [Ty.anyDynamic]
  | cons t ts ih => simp [Ty.anyDynamic, ih]

theorem allValid_forall {ts : List Ty} : Ty.AllValid ts ↔ ∀ t ∈ ts, t.Valid := by
  induction ts with
  | nil => simp [Ty.AllValid]
  | cons t ts ih => simp [Ty.AllValid, ih]

theorem fixedLength (t : Ty) : t.Valid → t.dynamic = false → FixedLength t := by
  refine Spec.Ty.ind (P := fun t => t.Valid → t.dynamic = false → FixedLength t)
    ?_ ?_ ?_ ?_ ?_ ?_ ?_ ?_ ?_ ?_ ?_ ?_ t
  · intro n hv _
    refine ⟨n / 8, by simp only [Ty.Valid, validBits] at hv; omega, ?_, ?_⟩
    · intro x hx; cases x <;> simp only [Val.Of] at hx; exact beBytes_length _ _
    · intro x y hx hy he
      cases x <;> cases y <;> simp only [Val.Of] at hx hy
      rw [beBytes_injU hv hx hy he]
  · intro n hv _
    refine ⟨n / 8, by simp only [Ty.Valid, validBits] at hv; omega, ?_, ?_⟩
    · intro x hx; cases x <;> simp only [Val.Of] at hx; exact beBytes_length _ _
    · intro x y hx hy he
      cases x <;> cases y <;> simp only [Val.Of] at hx hy
      rw [beBytes_injS hv hx hy he]
  · intro _ _
    refine ⟨20, by omega, ?_, ?_⟩
    · intro x hx; cases x <;> simp only [Val.Of] at hx; exact hx
    · intro x y hx hy he
      cases x <;> cases y <;> simp only [Val.Of] at hx hy
      exact congrArg Val.raw he
  · intro _ _
    refine ⟨1, by omega, ?_, ?_⟩
    · intro x hx; cases x <;> simp only [Val.Of] at hx; exact beBytes_length _ _
    · intro x y hx hy he
      cases x <;> cases y <;> simp only [Val.Of] at hx hy
      rw [beBytes_injU (n := 8) (by decide) (by rcases hx with rfl | rfl <;> decide)
        (by rcases hy with rfl | rfl <;> decide) he]
  · intro m n hv _
    simp only [Ty.Valid] at hv
    refine ⟨m / 8, by have := hv.1; simp only [validBits] at this; omega, ?_, ?_⟩
    · intro x hx; cases x <;> simp only [Val.Of] at hx; exact beBytes_length _ _
    · intro x y hx hy he
      cases x <;> cases y <;> simp only [Val.Of] at hx hy
      rw [beBytes_injU hv.1 hx hy he]
  · intro m n hv _
    simp only [Ty.Valid] at hv
    refine ⟨m / 8, by have := hv.1; simp only [validBits] at this; omega, ?_, ?_⟩
    · intro x hx; cases x <;> simp only [Val.Of] at hx; exact beBytes_length _ _
    · intro x y hx hy he
      cases x <;> cases y <;> simp only [Val.Of] at hx hy
      rw [beBytes_injS hv.1 hx hy he]
  · intro m hv _
    simp only [Ty.Valid] at hv
    refine ⟨m, hv.1, ?_, ?_⟩
    · intro x hx; cases x <;> simp only [Val.Of] at hx; exact hx
    · intro x y hx hy he
      cases x <;> cases y <;> simp only [Val.Of] at hx hy
      exact congrArg Val.raw he
  · intro _ h; cases h
  · intro _ h; cases h
  · intro k t ih hv hd
    simp only [Ty.Valid] at hv
    obtain ⟨w, h0, hw, hi⟩ := ih hv.2 hd
    refine ⟨k * w, Nat.mul_pos hv.1 h0, ?_, ?_⟩
    · intro x hx
      cases x <;> simp only [Val.Of] at hx
      rw [encPacked, flatten_map_length fun v h => hw v (hx.2 v h), hx.1]
    · intro x y hx hy he
      cases x <;> cases y <;> simp only [Val.Of] at hx hy
      rw [encPacked, encPacked] at he
      rw [flatten_map_inj hw hi (hx.1.trans hy.1.symm) hx.2 hy.2 he]
  · intro t _ _ h; cases h
  · intro ts ih hv hd
    simp only [Ty.Valid] at hv
    have hd' : Ty.anyDynamic ts = false := hd
    obtain ⟨w, h0, hw, hi⟩ := static_all (ts := ts) fun t ht =>
      ih t ht (allValid_forall.1 hv.2 t ht) (anyDynamic_false.1 hd' t ht)
    refine ⟨w, h0 hv.1, ?_, ?_⟩
    · intro x hx
      cases x <;> simp only [Val.Of] at hx
      rw [encPacked, hw _ hx]
    · intro x y hx hy he
      cases x <;> cases y <;> simp only [Val.Of] at hx hy
      rw [encPacked, encPacked] at he
      rw [hi _ _ hx hy he]

theorem fixedLengthAll {ts : List Ty} (hv : Ty.AllValid ts) (hd : Ty.anyDynamic ts = false) :
    ∃ w, (ts ≠ [] → 0 < w) ∧ (∀ xs, Val.OfAll ts xs → (encPackedAll ts xs).length = w) ∧
      ∀ xs ys, Val.OfAll ts xs → Val.OfAll ts ys → encPackedAll ts xs = encPackedAll ts ys → xs = ys :=
  static_all fun t ht => fixedLength t (allValid_forall.1 hv t ht) (anyDynamic_false.1 hd t ht)

/-! ## One part of variable length -/

theorem packedAll_inj {ts : List Ty} (h : OneVariableAll ts) : Ty.AllValid ts → ∀ xs ys, Val.OfAll ts xs →
    Val.OfAll ts ys → encPackedAll ts xs = encPackedAll ts ys → xs = ys := by
  refine OneVariableAll.rec
    (motive_1 := fun t _ => t.Valid → ∀ x y, Val.Of t x → Val.Of t y → encPacked t x = encPacked t y → x = y)
    (motive_2 := fun ts _ => Ty.AllValid ts → ∀ xs ys, Val.OfAll ts xs → Val.OfAll ts ys →
      encPackedAll ts xs = encPackedAll ts ys → xs = ys) ?_ ?_ ?_ ?_ ?_ ?_ ?_ ?_ ?_ h
  · intro t hd hv
    obtain ⟨_, _, _, hi⟩ := fixedLength t hv hd
    exact hi
  · intro _ x y hx hy he
    cases x <;> cases y <;> simp only [Val.Of] at hx hy
    exact congrArg Val.raw he
  · intro _ x y hx hy he
    cases x <;> cases y <;> simp only [Val.Of] at hx hy
    rw [textBytes_inj hx hy he]
  · intro t hd hv x y hx hy he
    obtain ⟨w, h0, hw, hi⟩ := fixedLength t hv hd
    cases x <;> cases y <;> simp only [Val.Of] at hx hy
    rename_i vs us
    rw [encPacked, encPacked] at he
    have hl := congrArg List.length he
    rw [flatten_map_length fun v h => hw v (hx v h), flatten_map_length fun v h => hw v (hy v h)] at hl
    rw [flatten_map_inj hw hi (Nat.eq_of_mul_eq_mul_right h0 hl) hx hy he]
  · intro t _ ih hv x y hx hy he
    cases x <;> cases y <;> simp only [Val.Of] at hx hy
    rename_i vs us
    obtain ⟨v, rfl⟩ := List.length_eq_one_iff.1 hx.1
    obtain ⟨u, rfl⟩ := List.length_eq_one_iff.1 hy.1
    simp only [encPacked, List.map_cons, List.map_nil, List.flatten_cons, List.flatten_nil, List.append_nil] at he
    rw [ih hv.2 v u (hx.2 v (by simp)) (hy.2 u (by simp)) he]
  · intro ts _ ih hv x y hx hy he
    cases x <;> cases y <;> simp only [Val.Of] at hx hy
    rw [encPacked, encPacked] at he
    rw [ih hv.2 _ _ hx hy he]
  · intro _ xs ys hx hy _
    cases xs <;> cases ys <;> simp only [Val.OfAll] at hx hy
    rfl
  · intro t ts hd _ ih hv xs ys hx hy he
    obtain ⟨w, h0, hw, hi⟩ := fixedLength t hv.1 hd
    cases xs with
    | nil => simp only [Val.OfAll] at hx
    | cons x xs =>
      cases ys with
      | nil => simp only [Val.OfAll] at hy
      | cons y ys =>
        simp only [Val.OfAll] at hx hy
        simp only [encPackedAll] at he
        obtain ⟨e1, e2⟩ := List.append_inj he ((hw x hx.1).trans (hw y hy.1).symm)
        rw [hi x y hx.1 hy.1 e1, ih hv.2 xs ys hx.2 hy.2 e2]
  · intro t ts _ hd ih hv xs ys hx hy he
    obtain ⟨w, h0, hw, hi⟩ := fixedLengthAll hv.2 hd
    cases xs with
    | nil => simp only [Val.OfAll] at hx
    | cons x xs =>
      cases ys with
      | nil => simp only [Val.OfAll] at hy
      | cons y ys =>
        simp only [Val.OfAll] at hx hy
        simp only [encPackedAll] at he
        obtain ⟨e1, e2⟩ := List.append_inj' he ((hw xs hx.2).trans (hw ys hy.2).symm)
        rw [ih hv.1 x y hx.1 hy.1 e1, hi xs ys hx.2 hy.2 e2]

/-! ## Two values with the same packed form -/

/-- The zero of a type. -/
def HasZero (t : Ty) : Prop := ∃ x c, Val.Of t x ∧ encPacked t x = List.replicate c 0 ∧ c ≤ packedSpan t

/-- Values whose packed forms are zero bytes, of lengths as far apart as one likes. -/
def HasZeros (t : Ty) : Prop :=
  ∃ c d, 0 < d ∧ c ≤ packedSpan t ∧ d ≤ packedSpan t ∧
    ∀ n, ∃ x, Val.Of t x ∧ encPacked t x = List.replicate (c + n * d) 0

theorem HasZeros.zero {t : Ty} (h : HasZeros t) : HasZero t := by
  obtain ⟨c, d, _, hc, _, h⟩ := h
  obtain ⟨x, h1, h2⟩ := h 0
  exact ⟨x, _, h1, h2, by omega⟩

theorem zero_copies {t : Ty} {x : Val} {c : Nat} (h : encPacked t x = List.replicate c 0) (k : Nat) :
    ((List.replicate k x).map (encPacked t)).flatten = List.replicate (k * c) 0 := by
  rw [List.map_replicate, h]
  simp

theorem zeroAll {ts : List Ty} (h : ∀ t ∈ ts, HasZero t) :
    ∃ xs c, Val.OfAll ts xs ∧ encPackedAll ts xs = List.replicate c 0 ∧ c ≤ packedSpans ts := by
  induction ts with
  | nil => exact ⟨[], 0, trivial, rfl, Nat.le_refl _⟩
  | cons t ts ih =>
    obtain ⟨xs, c, h1, h2, hc⟩ := ih fun t ht => h t (by simp [ht])
    obtain ⟨x, c', h3, h4, hc'⟩ := h t (by simp)
    exact ⟨x :: xs, c' + c, ⟨h3, h1⟩, by rw [encPackedAll, h2, h4, List.replicate_append_replicate],
      by rw [packedSpans]; omega⟩

theorem zerosAll {ts : List Ty} (h : ∀ t ∈ ts, HasZero t) (h' : ∃ t ∈ ts, HasZeros t) :
    ∃ c d, 0 < d ∧ c ≤ packedSpans ts ∧ d ≤ packedSpans ts ∧
      ∀ n, ∃ xs, Val.OfAll ts xs ∧ encPackedAll ts xs = List.replicate (c + n * d) 0 := by
  induction ts with
  | nil => obtain ⟨t, ht, _⟩ := h'; cases ht
  | cons t ts ih =>
    obtain ⟨u, hu, hz⟩ := h'
    rcases List.mem_cons.1 hu with rfl | hu
    · obtain ⟨xs, c, h1, h2, hc⟩ := zeroAll (ts := ts) fun t ht => h t (by simp [ht])
      obtain ⟨c', d, h0, hc', hd, h3⟩ := hz
      refine ⟨c' + c, d, h0, by rw [packedSpans]; omega, by rw [packedSpans]; omega, fun n => ?_⟩
      obtain ⟨x, h4, h5⟩ := h3 n
      refine ⟨x :: xs, ⟨h4, h1⟩, ?_⟩
      rw [encPackedAll, h5, h2, List.replicate_append_replicate]
      congr 1; omega
    · obtain ⟨c, d, h0, hc, hd, h3⟩ := ih (fun t ht => h t (by simp [ht])) ⟨u, hu, hz⟩
      obtain ⟨x, c', h4, h5, hc'⟩ := h t (by simp)
      refine ⟨c' + c, d, h0, by rw [packedSpans]; omega, by rw [packedSpans]; omega, fun n => ?_⟩
      obtain ⟨xs, h1, h2⟩ := h3 n
      refine ⟨x :: xs, ⟨h4, h1⟩, ?_⟩
      rw [encPackedAll, h5, h2, List.replicate_append_replicate]
      congr 1; omega

theorem anyDynamic_true {ts : List Ty} : Ty.anyDynamic ts = true ↔ ∃ t ∈ ts, t.dynamic = true := by
  induction ts with
  | nil => simp [Ty.anyDynamic]
  | cons t ts ih => simp [Ty.anyDynamic, ih]

theorem fitsU_zero (n : Nat) : fitsU n 0 := ⟨by omega, by positivity⟩

theorem fitsS_zero (n : Nat) : fitsS n 0 := by
  have : (0 : Int) < 2 ^ (n - 1) := by positivity
  exact ⟨by omega, this⟩

theorem zeros (t : Ty) : t.Valid → HasZero t ∧ (t.dynamic = true → HasZeros t) := by
  refine Spec.Ty.ind (P := fun t => t.Valid → HasZero t ∧ (t.dynamic = true → HasZeros t))
    ?_ ?_ ?_ ?_ ?_ ?_ ?_ ?_ ?_ ?_ ?_ ?_ t
  · exact fun n _ => ⟨⟨.num 0, n / 8, fitsU_zero n, beBytes_zero _, Nat.le_refl _⟩, fun h => (by cases h)⟩
  · exact fun n _ => ⟨⟨.num 0, n / 8, fitsS_zero n, beBytes_zero _, Nat.le_refl _⟩, fun h => (by cases h)⟩
  · exact fun _ => ⟨⟨.raw (List.replicate 20 0), 20, List.length_replicate, rfl, Nat.le_refl _⟩, fun h => (by cases h)⟩
  · exact fun _ => ⟨⟨.num 0, 1, .inl rfl, beBytes_zero _, Nat.le_refl _⟩, fun h => (by cases h)⟩
  · exact fun m n _ => ⟨⟨.num 0, m / 8, fitsU_zero m, beBytes_zero _, Nat.le_refl _⟩, fun h => (by cases h)⟩
  · exact fun m n _ => ⟨⟨.num 0, m / 8, fitsS_zero m, beBytes_zero _, Nat.le_refl _⟩, fun h => (by cases h)⟩
  · exact fun m _ => ⟨⟨.raw (List.replicate m 0), m, List.length_replicate, rfl, Nat.le_refl _⟩, fun h => (by cases h)⟩
  · have : HasZeros .bytes := ⟨0, 1, by omega, Nat.zero_le _, Nat.le_refl _,
      fun n => ⟨.raw (List.replicate n 0), trivial, by simp [encPacked]⟩⟩
    exact fun _ => ⟨this.zero, fun _ => this⟩
  · have : HasZeros .string := by
      refine ⟨0, 1, by omega, Nat.zero_le _, Nat.le_refl _, fun n => ⟨.text (List.replicate n ⟨0, by decide⟩), ?_⟩⟩
      have hk : ∀ n, utf8Encode? (List.replicate n (⟨0, by decide⟩ : CodePoint)) = some (List.replicate n 0) := by
        intro n
        induction n with
        | zero => rfl
        | succ n ih =>
          rw [List.replicate_succ, utf8Encode?, ih]
          rfl
      refine ⟨?_, ?_⟩
      · show (utf8Encode? _).isSome = true
        rw [hk]; rfl
      · rw [encPacked, textBytes, hk, Option.getD_some, Nat.zero_add, Nat.mul_one]
    exact fun _ => ⟨this.zero, fun _ => this⟩
  · intro k t ih hv
    simp only [Ty.Valid] at hv
    obtain ⟨⟨x, c, h1, h2, hc⟩, hz⟩ := ih hv.2
    refine ⟨⟨.seq (List.replicate k x), k * c, ⟨List.length_replicate, fun v hv => ?_⟩, zero_copies h2 k,
      Nat.mul_le_mul_left k hc⟩, fun hd => ?_⟩
    · rw [List.eq_of_mem_replicate hv]; exact h1
    · obtain ⟨c', d, h0, hc', hd', h3⟩ := hz hd
      obtain ⟨k, rfl⟩ := Nat.exists_eq_add_of_le' hv.1
      have hkc := Nat.mul_le_mul_left k hc
      have hs : packedSpan (.sized (k + Nat.succ 0) t) = k * packedSpan t + packedSpan t := by
        rw [packedSpan, Nat.succ_mul]
      refine ⟨c' + k * c, d, h0, by omega, by omega, fun n => ?_⟩
      obtain ⟨y, h4, h5⟩ := h3 n
      refine ⟨.seq (y :: List.replicate k x), ⟨by simp, fun v hv => ?_⟩, ?_⟩
      · rcases List.mem_cons.1 hv with rfl | hv
        · exact h4
        · rw [List.eq_of_mem_replicate hv]; exact h1
      · rw [encPacked, List.map_cons, List.flatten_cons, h5, zero_copies h2 k, List.replicate_append_replicate]
        congr 1; omega
  · intro t ih hv
    have hz : HasZeros (.dyn t) := by
      cases hd : t.dynamic with
      | true =>
        obtain ⟨c, d, h0, hc, hd', h3⟩ := (ih hv).2 hd
        refine ⟨c, d, h0, hc, hd', fun n => ?_⟩
        obtain ⟨y, h4, h5⟩ := h3 n
        refine ⟨.seq [y], fun v hv => ?_, ?_⟩
        · rw [List.mem_singleton.1 hv]; exact h4
        · simp [encPacked, h5]
      | false =>
        obtain ⟨⟨x, c, h1, h2, hc'⟩, _⟩ := ih hv
        obtain ⟨w, h0, hw, _⟩ := fixedLength t hv hd
        have hc : c = w := by rw [← hw x h1, h2, List.length_replicate]
        refine ⟨0, c, by omega, Nat.zero_le _, hc', fun n => ⟨.seq (List.replicate n x), fun v hv => ?_, ?_⟩⟩
        · rw [List.eq_of_mem_replicate hv]; exact h1
        · rw [encPacked, zero_copies h2 n, Nat.zero_add]
    exact ⟨hz.zero, fun _ => hz⟩
  · intro ts ih hv
    simp only [Ty.Valid] at hv
    have h := fun t ht => ih t ht (allValid_forall.1 hv.2 t ht)
    obtain ⟨xs, c, h1, h2, hc⟩ := zeroAll (ts := ts) fun t ht => (h t ht).1
    refine ⟨⟨.seq xs, c, h1, h2, hc⟩, fun hd => ?_⟩
    obtain ⟨t, ht, htd⟩ := anyDynamic_true.1 (show Ty.anyDynamic ts = true from hd)
    obtain ⟨c, d, h0, hc, hd', h3⟩ := zerosAll (fun t ht => (h t ht).1) ⟨t, ht, (h t ht).2 htd⟩
    refine ⟨c, d, h0, hc, hd', fun n => ?_⟩
    obtain ⟨xs, h1, h2⟩ := h3 n
    exact ⟨.seq xs, h1, h2⟩

/-- Two values of the type with the same packed form, which is not long. -/
def Collide (t : Ty) : Prop := ∃ x y, Val.Of t x ∧ Val.Of t y ∧ x ≠ y ∧ encPacked t x = encPacked t y ∧
  (encPacked t x).length ≤ (packedSpan t + 2) ^ 2

/-- Two lists of values with the same packed form, which is not long. -/
def CollideAll (ts : List Ty) : Prop :=
  ∃ xs ys, Val.OfAll ts xs ∧ Val.OfAll ts ys ∧ xs ≠ ys ∧ encPackedAll ts xs = encPackedAll ts ys ∧
    (encPackedAll ts xs).length ≤ (packedSpans ts + 2) ^ 2

theorem square_add (a b : Nat) : a + (b + 2) ^ 2 ≤ (a + b + 2) ^ 2 := by
  have h : (a + b + 2) ^ 2 = (b + 2) ^ 2 + a * (a + 2 * b + 4) := by ring
  have : a ≤ a * (a + 2 * b + 4) := Nat.le_mul_of_pos_right a (by omega)
  omega

theorem collideAll {ts : List Ty} (ih : ∀ t ∈ ts, ¬ OneVariable t → Collide t) (hv : Ty.AllValid ts)
    (h : ¬ OneVariableAll ts) : CollideAll ts := by
  induction ts with
  | nil => exact absurd .nil h
  | cons t ts ih2 =>
    have hzs : ∀ t ∈ ts, HasZero t := fun t ht => (zeros t (allValid_forall.1 hv.2 t ht)).1
    cases hd : t.dynamic with
    | false =>
      obtain ⟨xs, ys, h1, h2, h3, h4, h7⟩ := ih2 (fun t ht => ih t (by simp [ht])) hv.2 fun h' => h (.static hd h')
      obtain ⟨x, c, h5, h6, hc⟩ := (zeros t hv.1).1
      refine ⟨x :: xs, x :: ys, ⟨h5, h1⟩, ⟨h5, h2⟩, fun he => h3 (List.cons.inj he).2, ?_, ?_⟩
      · rw [encPackedAll, encPackedAll, h4]
      · rw [encPackedAll, List.length_append, h6, List.length_replicate, packedSpans]
        exact Nat.le_trans (Nat.add_le_add hc h7) (square_add _ _)
    | true =>
      cases hd' : Ty.anyDynamic ts with
      | false =>
        obtain ⟨x, y, h1, h2, h3, h4, h7⟩ := ih t (by simp) fun h' => h (.one h' hd')
        obtain ⟨xs, c, h5, h6, hc⟩ := zeroAll hzs
        refine ⟨x :: xs, y :: xs, ⟨h1, h5⟩, ⟨h2, h5⟩, fun he => h3 (List.cons.inj he).1, ?_, ?_⟩
        · rw [encPackedAll, encPackedAll, h4]
        · rw [encPackedAll, List.length_append, h6, List.length_replicate, packedSpans, Nat.add_comm (encPacked t x).length,
            Nat.add_comm (packedSpan t)]
          exact Nat.le_trans (Nat.add_le_add hc h7) (square_add _ _)
      | true =>
        obtain ⟨c, d, h0, hc, hd, hz⟩ := (zeros t hv.1).2 hd
        obtain ⟨u, hu, hud⟩ := anyDynamic_true.1 hd'
        obtain ⟨c', d', h0', hc', hd', hz'⟩ := zerosAll hzs ⟨u, hu, (zeros u (allValid_forall.1 hv.2 u hu)).2 hud⟩
        obtain ⟨x, h1, h2⟩ := hz d'
        obtain ⟨y, h3, h4⟩ := hz 0
        obtain ⟨xs, h5, h6⟩ := hz' 0
        obtain ⟨ys, h7, h8⟩ := hz' d
        refine ⟨x :: xs, y :: ys, ⟨h1, h5⟩, ⟨h3, h7⟩, ?_, ?_, ?_⟩
        · intro he
          obtain ⟨rfl, _⟩ := List.cons.inj he
          rw [h2] at h4
          have := congrArg List.length h4
          simp only [List.length_replicate] at this
          have := Nat.mul_pos h0' h0
          omega
        · rw [encPackedAll, encPackedAll, h2, h4, h6, h8, List.replicate_append_replicate,
            List.replicate_append_replicate, Nat.mul_comm d d']
          congr 1
          omega
        · rw [encPackedAll, List.length_append, h2, h6, List.length_replicate, List.length_replicate, packedSpans]
          have := Nat.mul_le_mul hd' hd
          nlinarith

theorem collide_swap {t : Ty} (h : HasZeros t) : ∃ x y, Val.Of t x ∧ Val.Of t y ∧ x ≠ y ∧
    encPacked t x ++ encPacked t y = encPacked t y ++ encPacked t x ∧ (encPacked t x).length ≤ packedSpan t ∧
    (encPacked t y).length ≤ 2 * packedSpan t := by
  obtain ⟨c, d, h0, hc, hd, h⟩ := h
  obtain ⟨x, h1, h2⟩ := h 0
  obtain ⟨y, h3, h4⟩ := h 1
  refine ⟨x, y, h1, h3, ?_, ?_, ?_, ?_⟩
  · rintro rfl
    rw [h2] at h4
    have := congrArg List.length h4
    simp only [List.length_replicate] at this
    omega
  · rw [h2, h4, List.replicate_append_replicate, List.replicate_append_replicate, Nat.add_comm]
  · rw [h2, List.length_replicate]; omega
  · rw [h4, List.length_replicate]; omega

theorem collide (t : Ty) : t.Valid → ¬ OneVariable t → Collide t := by
  have hleaf : ∀ {t : Ty}, t.dynamic = false → t.Valid → ¬ OneVariable t → Collide t :=
    fun hd _ h => absurd (.static hd) h
  refine Spec.Ty.ind (P := fun t => t.Valid → ¬ OneVariable t → Collide t)
    (fun _ => hleaf rfl) (fun _ => hleaf rfl) (hleaf rfl) (hleaf rfl) (fun _ _ => hleaf rfl) (fun _ _ => hleaf rfl)
    (fun _ => hleaf rfl) (fun _ h => absurd .bytes h) (fun _ h => absurd .string h) ?_ ?_ ?_ t
  · intro k t ih hv h
    simp only [Ty.Valid] at hv
    cases hd : t.dynamic with
    | false => exact absurd (.static (t := .sized k t) hd) h
    | true =>
      obtain ⟨k, rfl⟩ := Nat.exists_eq_add_of_le' hv.1
      cases k with
      | zero =>
        obtain ⟨x, y, h1, h2, h3, h4, h5⟩ := ih hv.2 fun h' => h (.single h')
        refine ⟨.seq [x], .seq [y], ⟨rfl, fun v hv => ?_⟩, ⟨rfl, fun v hv => ?_⟩, fun he => ?_, ?_, ?_⟩
        · rw [List.mem_singleton.1 hv]; exact h1
        · rw [List.mem_singleton.1 hv]; exact h2
        · injection he with he
          exact h3 (List.cons.inj he).1
        · simp [encPacked, h4]
        · simpa [encPacked, packedSpan] using h5
      | succ k =>
        obtain ⟨x, y, h1, h2, h3, h4, h5, h6⟩ := collide_swap ((zeros t hv.2).2 hd)
        refine ⟨.seq (x :: y :: List.replicate k x), .seq (y :: x :: List.replicate k x),
          ⟨by simp, fun v hv => ?_⟩, ⟨by simp, fun v hv => ?_⟩, fun he => ?_, ?_, ?_⟩
        · rcases List.mem_cons.1 hv with rfl | hv
          · exact h1
          · rcases List.mem_cons.1 hv with rfl | hv
            · exact h2
            · rw [List.eq_of_mem_replicate hv]; exact h1
        · rcases List.mem_cons.1 hv with rfl | hv
          · exact h2
          · rcases List.mem_cons.1 hv with rfl | hv
            · exact h1
            · rw [List.eq_of_mem_replicate hv]; exact h1
        · injection he with he
          exact h3 (List.cons.inj he).1
        · simp only [encPacked, List.map_cons, List.flatten_cons]
          rw [← List.append_assoc, h4, List.append_assoc]
        · have hl : ((List.replicate k x).map (encPacked t)).flatten.length = k * (encPacked t x).length := by
            have := flatten_map_length (t := t) (w := (encPacked t x).length) (vs := List.replicate k x)
              fun v hv => by rw [List.eq_of_mem_replicate hv]
            rwa [List.length_replicate] at this
          rw [encPacked, List.map_cons, List.flatten_cons, List.map_cons, List.flatten_cons, List.length_append,
            List.length_append, hl, packedSpan]
          have := Nat.mul_le_mul_left k h5
          have e : (k + 1 + 1) * packedSpan t = k * packedSpan t + 2 * packedSpan t := by ring
          nlinarith
  · intro t _ hv h
    cases hd : t.dynamic with
    | false => exact absurd (.dyn hd) h
    | true =>
      obtain ⟨x, y, h1, h2, h3, h4, h5, h6⟩ := collide_swap ((zeros t hv).2 hd)
      have hm : ∀ {a b : Val}, Val.Of t a → Val.Of t b → Val.Of (.dyn t) (.seq [a, b]) := by
        intro a b ha hb v hv
        rcases List.mem_cons.1 hv with rfl | hv
        · exact ha
        · rw [List.mem_singleton.1 hv]; exact hb
      refine ⟨.seq [x, y], .seq [y, x], hm h1 h2, hm h2 h1, fun he => ?_, ?_, ?_⟩
      · injection he with he
        exact h3 (List.cons.inj he).1
      · simpa [encPacked] using h4
      · simp only [encPacked, List.map_cons, List.map_nil, List.flatten_cons, List.flatten_nil, List.append_nil,
          List.length_append, packedSpan]
        nlinarith
  · intro ts ih hv h
    simp only [Ty.Valid] at hv
    obtain ⟨xs, ys, h1, h2, h3, h4, h5⟩ := collideAll (fun t ht => ih t ht (allValid_forall.1 hv.2 t ht)) hv.2
      fun h' => h (.tuple h')
    exact ⟨.seq xs, .seq ys, h1, h2, fun he => h3 (by injection he), h4, h5⟩

/-! ## Comparison with Solidity -/

theorem value_enc {t : Ty} {w : Nat} (hw : valueWidth t = some w) (hv : t.Valid) {x : Val} (hx : Val.Of t x) :
    (encPacked t x).length = w ∧ w ≤ 32 ∧ (enc t x).length = 32 ∧ (w = 32 → enc t x = encPacked t x) := by
  have key : ∀ (i : Int) (n : Nat), validBits n → (beBytes (n / 8) i).length = n / 8 ∧ n / 8 ≤ 32 ∧
      (wordOf i).length = 32 ∧ (n / 8 = 32 → wordOf i = beBytes (n / 8) i) := by
    intro i n hn
    refine ⟨beBytes_length _ _, by simp only [validBits] at hn; omega, by rw [wordOf_eq, beBytes_length], fun h => ?_⟩
    rw [h, wordOf_eq]
  cases t <;> simp only [valueWidth, Option.some.injEq, reduceCtorEq] at hw <;> subst hw <;>
    cases x <;> simp only [Val.Of] at hx
  · exact key _ _ hv
  · exact key _ _ hv
  · exact ⟨hx, by omega, by simp [enc, hx], fun h => absurd h (by omega)⟩
  · exact key _ 8 (by decide)
  · exact key _ _ hv.1
  · exact key _ _ hv.1
  · rename_i m b
    simp only [Ty.Valid] at hv
    have := padRight32_len b
    refine ⟨hx, hv.2, by simp only [enc]; omega, fun h => ?_⟩
    simp [enc, encPacked, padRight32, hx, h]

theorem sol_elements {t : Ty} {w : Nat} (hw : valueWidth t = some w) (hv : t.Valid) {vs : List Val}
    (hx : ∀ v ∈ vs, Val.Of t v) :
    ((vs.map (encPacked t)).flatten).length ≤ ((vs.map (enc t)).flatten).length ∧
    (w = 32 ∨ vs = [] → (vs.map (encPacked t)).flatten = (vs.map (enc t)).flatten) ∧
    (((vs.map (encPacked t)).flatten).length = ((vs.map (enc t)).flatten).length → w < 32 → vs = []) := by
  have h1 : ((vs.map (encPacked t)).flatten).length = vs.length * w :=
    flatten_map_length fun v h => (value_enc hw hv (hx v h)).1
  have h2 : ((vs.map (enc t)).flatten).length = vs.length * 32 := by
    clear h1
    induction vs with
    | nil => simp
    | cons v vs ih =>
      rw [List.map_cons, List.flatten_cons, List.length_append, (value_enc hw hv (hx v (by simp))).2.2.1,
        ih fun u hu => hx u (by simp [hu]), List.length_cons, Nat.succ_mul, Nat.add_comm]
  rw [h1, h2]
  refine ⟨?_, ?_, ?_⟩
  · cases vs with
    | nil => simp
    | cons v vs => exact Nat.mul_le_mul_left _ (value_enc hw hv (hx v (by simp))).2.1
  · rintro (rfl | rfl)
    · congr 1
      exact List.map_congr_left fun v h => ((value_enc hw hv (hx v h)).2.2.2 rfl).symm
    · rfl
  · intro he hlt
    cases vs with
    | nil => rfl
    | cons v vs =>
      rw [List.length_cons] at he
      have := Nat.eq_of_mul_eq_mul_left (Nat.succ_pos _) he
      omega

theorem solPacked_value {t : Ty} {w : Nat} (hw : valueWidth t = some w) (x : Val) : solPacked t x = encPacked t x := by
  cases t <;> simp only [valueWidth, reduceCtorEq] at hw <;> rfl

theorem sol_one {t : Ty} (ht : InPackedMode t) (hv : t.Valid) {x : Val} (hx : Val.Of t x) :
    (encPacked t x).length ≤ (solPacked t x).length ∧
    ((NarrowArray t → x = .seq []) → encPacked t x = solPacked t x) ∧
    ((encPacked t x).length = (solPacked t x).length → NarrowArray t → x = .seq []) := by
  have hplain : solPacked t x = encPacked t x → ¬ NarrowArray t →
      (encPacked t x).length ≤ (solPacked t x).length ∧
      ((NarrowArray t → x = .seq []) → encPacked t x = solPacked t x) ∧
      ((encPacked t x).length = (solPacked t x).length → NarrowArray t → x = .seq []) :=
    fun h hn => ⟨by rw [h], fun _ => h.symm, fun _ h' => absurd h' hn⟩
  cases ht with
  | value hw =>
    refine hplain (solPacked_value hw x) ?_
    rintro (⟨_, _⟩ | ⟨_, _⟩) <;> cases hw
  | bytes => exact hplain rfl (fun h => (by cases h))
  | string => exact hplain rfl (fun h => (by cases h))
  | @sized t w k hw =>
    cases x <;> simp only [Val.Of] at hx
    rename_i vs
    obtain ⟨h1, h2, h3⟩ := sol_elements hw hv.2 hx.2
    refine ⟨h1, fun h => h2 ?_, fun he hn => ?_⟩
    · by_cases hlt : w < 32
      · have := h (.sized hw hlt)
        injection this with this
        exact .inr this
      · cases vs with
        | nil => exact .inr rfl
        | cons v vs => exact .inl (by have := (value_enc hw hv.2 (hx.2 v (by simp))).2.1; omega)
    · cases hn with
      | sized hw' hlt =>
        rw [hw] at hw'
        cases hw'
        rw [h3 he hlt]
  | @dyn t w hw =>
    cases x <;> simp only [Val.Of] at hx
    rename_i vs
    obtain ⟨h1, h2, h3⟩ := sol_elements hw hv hx
    refine ⟨h1, fun h => h2 ?_, fun he hn => ?_⟩
    · by_cases hlt : w < 32
      · have := h (.dyn hw hlt)
        injection this with this
        exact .inr this
      · cases vs with
        | nil => exact .inr rfl
        | cons v vs => exact .inl (by have := (value_enc hw hv (hx v (by simp))).2.1; omega)
    · cases hn with
      | dyn hw' hlt =>
        rw [hw] at hw'
        cases hw'
        rw [h3 he hlt]

theorem sol_all {ts : List Ty} (ht : ∀ t ∈ ts, InPackedMode t) (hv : Ty.AllValid ts) {xs : List Val}
    (hx : Val.OfAll ts xs) :
    (encPackedAll ts xs).length ≤ (solPackedAll ts xs).length ∧
    ((∀ p ∈ ts.zip xs, NarrowArray p.1 → p.2 = .seq []) → encPackedAll ts xs = solPackedAll ts xs) ∧
    ((encPackedAll ts xs).length = (solPackedAll ts xs).length →
      ∀ p ∈ ts.zip xs, NarrowArray p.1 → p.2 = .seq []) := by
  induction ts generalizing xs with
  | nil => exact ⟨Nat.le_refl _, fun _ => rfl, fun _ p hp => (by simp at hp)⟩
  | cons t ts ih =>
    cases xs with
    | nil => simp only [Val.OfAll] at hx
    | cons x xs =>
      simp only [Val.OfAll] at hx
      obtain ⟨h1, h2, h3⟩ := ih (fun t h => ht t (by simp [h])) hv.2 hx.2
      obtain ⟨h4, h5, h6⟩ := sol_one (ht t (by simp)) hv.1 hx.1
      simp only [encPackedAll, solPackedAll, List.length_append, List.zip_cons_cons, List.forall_mem_cons]
      refine ⟨by omega, fun ⟨a, b⟩ => by rw [h5 a, h2 b], fun he => ⟨h6 (by omega), h3 (by omega)⟩⟩

end EthAbi
