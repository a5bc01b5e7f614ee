import Verif.Lemmas.Decimal
import Verif.Lemmas.Printable

/-! # Decimal arithmetic depends on the values only -/
namespace EthAbi
open Spec

theorem ndigits_unique {n d : Nat} (hd : 1 ≤ d) (h1 : 10 ^ (d - 1) ≤ n) (h2 : n < 10 ^ d) : ndigits n = d := by
  have h3 := ndigits_le hd h2
  have hn : n ≠ 0 := by
    intro h0; subst h0
    have : 0 < 10 ^ (d - 1) := by positivity
    omega
  by_contra hne
  have h4 : ndigits n ≤ d - 1 := by omega
  have h5 := ndigits_lt n
  have h6 : 10 ^ ndigits n ≤ 10 ^ (d - 1) := Nat.pow_le_pow_right (by norm_num) h4
  omega

theorem ndigits_mul {n : Nat} (hn : n ≠ 0) (j : Nat) : ndigits (n * 10 ^ j) = ndigits n + j := by
  have h0 := ndigits_pos n
  have hj : 0 < 10 ^ j := by positivity
  refine ndigits_unique (by omega) ?_ ?_
  · have := ndigits_le' hn
    rw [show ndigits n + j - 1 = (ndigits n - 1) + j by omega, pow_add]
    exact Nat.mul_le_mul_right _ this
  · rw [pow_add]
    exact Nat.mul_lt_mul_of_pos_right (ndigits_lt n) hj

/-- Two results are the same exception, or decimals of the same value. -/
inductive SameDec : PyM Dec10 → PyM Dec10 → Prop where
  | ok {a b : Dec10} : a.V = b.V → SameDec (.ok a) (.ok b)
  | error (e : Exc) : SameDec (.error e) (.error e)

theorem SameDec.symm {x y : PyM Dec10} (h : SameDec x y) : SameDec y x := by
  cases h with
  | ok h => exact .ok h.symm
  | error e => exact .error e

theorem V_eq_shift {x y : Dec10} (h : x.V = y.V) (he : x.2 ≤ y.2) : x.1 = y.1 * 10 ^ (y.2 - x.2).toNat := by
  obtain ⟨m, e⟩ := x
  obtain ⟨m', e'⟩ := y
  rw [V_shift m' e' e he, Dec10.V, mul_left_inj' (ten_zpow_pos _).ne'] at h
  exact_mod_cast h

theorem natAbs_mul_pow (m : Int) (j : Nat) : (m * 10 ^ j).natAbs = m.natAbs * 10 ^ j := by
  rw [Int.natAbs_mul, Int.natAbs_pow]
  rfl

/-- The place of the first digit depends on the value only. -/
theorem adjusted_eq {x y : Dec10} (h : x.V = y.V) (hx : x.1 ≠ 0) :
    x.2 + (ndigits x.1.natAbs : Int) = y.2 + (ndigits y.1.natAbs : Int) := by
  have key : ∀ {x y : Dec10}, x.V = y.V → x.2 ≤ y.2 → x.1 ≠ 0 →
      x.2 + (ndigits x.1.natAbs : Int) = y.2 + (ndigits y.1.natAbs : Int) := by
    intro x y h he hx
    have h1 := V_eq_shift h he
    have hy : y.1 ≠ 0 := by rintro h0; rw [h0, zero_mul] at h1; exact hx h1
    rw [h1, natAbs_mul_pow, ndigits_mul (by simpa using hy)]
    push_cast
    rw [Int.toNat_of_nonneg (by omega)]
    ring
  have hy : y.1 ≠ 0 := by
    intro h0
    have : y.V = 0 := by simp [Dec10.V, h0]
    rw [this, Dec10.V, mul_eq_zero] at h
    rcases h with h | h
    · exact hx (by exact_mod_cast h)
    · exact (ten_zpow_pos _).ne' h
  rcases le_total x.2 y.2 with h2 | h2
  · exact key h h2 hx
  · exact (key h.symm h2 hy).symm

theorem roundHalfEven_shift (m : Int) (k j : Nat) : roundHalfEven (m * 10 ^ j) (k + j) = roundHalfEven m k := by
  have hj : 0 < 10 ^ j := by positivity
  have hq : m.natAbs * 10 ^ j / 10 ^ (k + j) = m.natAbs / 10 ^ k := by
    rw [pow_add, Nat.mul_div_mul_right _ _ hj]
  have hr : m.natAbs * 10 ^ j % 10 ^ (k + j) = m.natAbs % 10 ^ k * 10 ^ j := by
    rw [pow_add, Nat.mul_mod_mul_right]
  have hneg : m * 10 ^ j < 0 ↔ m < 0 := by
    have : (0 : Int) < 10 ^ j := by positivity
    constructor
    · intro h
      by_contra hm
      have : 0 ≤ m * 10 ^ j := Int.mul_nonneg (by omega) this.le
      omega
    · intro h
      exact Int.mul_neg_of_neg_of_pos h this
  unfold roundHalfEven
  simp only [natAbs_mul_pow, hq, hr, hneg]
  have h1 : 10 ^ (k + j) < 2 * (m.natAbs % 10 ^ k * 10 ^ j) ↔ 10 ^ k < 2 * (m.natAbs % 10 ^ k) := by
    rw [pow_add, ← mul_assoc]
    exact Nat.mul_lt_mul_right hj
  have h2 : 2 * (m.natAbs % 10 ^ k * 10 ^ j) = 10 ^ (k + j) ↔ 2 * (m.natAbs % 10 ^ k) = 10 ^ k := by
    rw [pow_add, ← mul_assoc]
    exact Nat.mul_left_inj hj.ne'
  simp only [h1, h2]

theorem roundHalfEven_exact (m : Int) {k j : Nat} (h : k ≤ j) :
    roundHalfEven (m * 10 ^ j) k = m * 10 ^ (j - k) := by
  have := roundHalfEven_shift (m * 10 ^ (j - k)) 0 k
  rw [mul_assoc, ← pow_add, Nat.sub_add_cancel h, Nat.zero_add] at this
  rw [this]
  generalize m * 10 ^ (j - k) = z
  unfold roundHalfEven
  simp only [pow_zero, Nat.div_one, Nat.mod_one]
  have : ¬ (1 < 2 * 0 ∨ 2 * 0 = 1 ∧ z.natAbs % 2 = 1) := by simp
  rw [if_neg this]
  split
  · next h => rw [Int.natCast_natAbs, abs_of_neg h, neg_neg]
  · next h => rw [Int.natCast_natAbs, abs_of_nonneg (by omega)]

/-- The result before the test for overflow. -/
def ctxRound (m e : Int) : Dec10 :=
  let e' := max (max e (e + ((ndigits m.natAbs : Int) - abiDecimalPrec))) decEtiny
  let k := (e' - e).toNat
  if k = 0 then (m, e)
  else
    let m' := roundHalfEven m k
    if m'.natAbs = 10 ^ abiDecimalPrec then (m' / 10, e' + 1) else (m', e')

theorem ctxFinal_def {m e : Int} (hm : m ≠ 0) : ctxFinal (m, e) =
    if decEmax < (ctxRound m e).2 + (ndigits (ctxRound m e).1.natAbs : Int) - 1 then .error .decimalOverflow
    else .ok (ctxRound m e) := by
  rw [ctxFinal, if_neg hm]
  rfl

/-- The value of the last step of `ctxRound`. -/
theorem carry_V (m' e' : Int) :
    Dec10.V (if m'.natAbs = 10 ^ abiDecimalPrec then (m' / 10, e' + 1) else (m', e')) = Dec10.V (m', e') := by
  split
  · next h =>
    have h10 : m' = 10 * (m' / 10) := by
      have hd : (10 : Int) ∣ m' := by
        rw [← Int.dvd_natAbs, h]
        exact ⟨((10 ^ 998 : Nat) : Int), by rw [show abiDecimalPrec = 998 + 1 from rfl, pow_succ]; push_cast; ring⟩
      omega
    simp only [Dec10.V]
    conv_rhs => rw [h10]
    rw [zpow_add₀ (by norm_num)]
    push_cast
    ring
  · rfl

theorem ctxFinal_shift (m e : Int) (j : Nat) :
    SameDec (ctxFinal (m, e)) (ctxFinal (m * 10 ^ j, e - j)) := by
  by_cases hm : m = 0
  · subst hm
    have e1 : ctxFinal (0, e) = .ok (0, max e decEtiny) := by rw [ctxFinal, if_pos rfl]
    have e2 : ctxFinal (0 * 10 ^ j, e - j) = .ok (0, max (e - j) decEtiny) := by
      rw [zero_mul, ctxFinal, if_pos rfl]
    rw [e1, e2]
    exact .ok (by rw [V_zero, V_zero])
  have hm' : m * 10 ^ j ≠ 0 := mul_ne_zero hm (by positivity)
  have hnd : (ndigits (m * 10 ^ j).natAbs : Int) = ndigits m.natAbs + j := by
    rw [natAbs_mul_pow, ndigits_mul (by simpa using hm)]
    push_cast; rfl
  obtain ⟨A, hA⟩ : ∃ A, A = max (e + ((ndigits m.natAbs : Int) - abiDecimalPrec)) decEtiny := ⟨_, rfl⟩
  have hP : abiDecimalPrec = 999 := rfl
  have d1 : ctxRound m e =
      if (max e A - e).toNat = 0 then (m, e)
      else if (roundHalfEven m (max e A - e).toNat).natAbs = 10 ^ abiDecimalPrec then
        (roundHalfEven m (max e A - e).toNat / 10, max e A + 1)
      else (roundHalfEven m (max e A - e).toNat, max e A) := by
    rw [ctxRound, max_assoc, ← hA]
  have d2 : ctxRound (m * 10 ^ j) (e - j) =
      if (max (e - j) A - (e - j)).toNat = 0 then (m * 10 ^ j, e - j)
      else if (roundHalfEven (m * 10 ^ j) (max (e - j) A - (e - j)).toNat).natAbs = 10 ^ abiDecimalPrec then
        (roundHalfEven (m * 10 ^ j) (max (e - j) A - (e - j)).toNat / 10, max (e - j) A + 1)
      else (roundHalfEven (m * 10 ^ j) (max (e - j) A - (e - j)).toNat, max (e - j) A) := by
    have hA2 : max (e - j + ((ndigits (m * 10 ^ j).natAbs : Int) - abiDecimalPrec)) decEtiny = A := by
      rw [hnd, hA]; congr 1; ring
    rw [ctxRound, max_assoc, hA2]
  have hVm : Dec10.V (m * 10 ^ j, e - j) = Dec10.V (m, e) := by
    rw [V_shift m e (e - j) (by omega)]
    simp only [Dec10.V]
    rw [show (e - (e - (j : Int))).toNat = j by omega]
  rw [ctxFinal_def hm, ctxFinal_def hm']
  rcases le_or_gt A e with hc | hc
  · -- nothing is rounded
    have e1 : ctxRound m e = (m, e) := by
      rw [d1, if_pos (by omega)]
    have hV : (ctxRound (m * 10 ^ j) (e - j)).V = Dec10.V (m, e) := by
      rw [d2]
      split
      · exact hVm
      · next hk =>
        rw [carry_V]
        have hle : (max (e - j) A - (e - j)).toNat ≤ j := by omega
        rw [roundHalfEven_exact m hle]
        have := V_shift m e (max (e - j) A) (by omega)
        rw [this]
        simp only [Dec10.V]
        rw [show j - (max (e - j) A - (e - j)).toNat = (e - max (e - j) A).toNat by omega]
    rw [e1]
    have := adjusted_eq (x := (m, e)) hV.symm hm
    simp only at this
    rw [this]
    split
    · exact .error _
    · exact .ok hV.symm
  · have h1 : max e A = A := max_eq_right hc.le
    have h2 : max (e - j) A = A := max_eq_right (by omega)
    have h3 : (A - (e - j)).toNat = (A - e).toNat + j := by omega
    have e2 : ctxRound (m * 10 ^ j) (e - j) = ctxRound m e := by
      rw [d1, d2, h1, h2, h3, roundHalfEven_shift,
        if_neg (show ¬ (A - e).toNat + j = 0 by omega), if_neg (show ¬ (A - e).toNat = 0 by omega)]
    rw [e2]
    split
    · exact .error _
    · exact .ok rfl

theorem ctxFinal_same {x y : Dec10} (h : x.V = y.V) : SameDec (ctxFinal x) (ctxFinal y) := by
  have key : ∀ {x y : Dec10}, x.V = y.V → x.2 ≤ y.2 → SameDec (ctxFinal y) (ctxFinal x) := by
    intro x y h he
    have h1 := V_eq_shift h he
    have := ctxFinal_shift y.1 y.2 (y.2 - x.2).toNat
    rw [← h1, Int.toNat_of_nonneg (by omega), show y.2 - (y.2 - x.2) = x.2 by omega] at this
    exact this
  rcases le_total x.2 y.2 with h2 | h2
  · exact (key h h2).symm
  · exact key h.symm h2

theorem V_mul (a b : Dec10) : Dec10.V (a.1 * b.1, a.2 + b.2) = a.V * b.V := by
  simp only [Dec10.V]
  rw [zpow_add₀ (by norm_num)]
  push_cast
  ring

theorem decMul_same {a a' : Dec10} (h : a.V = a'.V) (b : Dec10) : SameDec (decMul a b) (decMul a' b) :=
  ctxFinal_same (by rw [V_mul, V_mul, h])

theorem decMul_same_right {b b' : Dec10} (h : b.V = b'.V) (a : Dec10) : SameDec (decMul a b) (decMul a b') :=
  ctxFinal_same (by rw [V_mul, V_mul, h])

/-- A number of up to 999 digits that is neither too large nor too small is not rounded. -/
theorem ctxFinal_fits {m e : Int} (hm : m.natAbs < 10 ^ 999) (h1 : decEtiny ≤ e) (h2 : e ≤ 999001) :
    ctxFinal (m, e) = .ok (m, e) := by
  unfold ctxFinal
  simp only
  split
  · next h => subst h; rw [max_eq_left h1]
  · next h =>
    have hd := ndigits_le (d := 999) (by norm_num) hm
    have hd' : (ndigits m.natAbs : Int) - abiDecimalPrec ≤ 0 := by
      simp only [abiDecimalPrec]; omega
    have he : max (max e (e + ((ndigits m.natAbs : Int) - abiDecimalPrec))) decEtiny = e := by
      rw [max_eq_left (by omega : e + ((ndigits m.natAbs : Int) - abiDecimalPrec) ≤ e), max_eq_left h1]
    simp only [he, sub_self, Int.toNat_zero, if_true]
    rw [if_neg]
    simp only [decEmax]; omega

/-- A power of ten, computed, is as the power written with an exponent. -/
theorem tenPowInt_same (p : Int) : SameDec (tenPowInt p) (ctxFinal (1, p)) := by
  rw [tenPowInt]
  refine ctxFinal_same ?_
  split
  · next h =>
    simp only [Dec10.V]
    push_cast
    rw [mul_one, one_mul, ← zpow_natCast, Int.toNat_of_nonneg h]
  · rfl

/-- Rounding a power of ten. -/
theorem ctxFinal_one {p : Int} (h1 : decEtiny ≤ p) :
    ctxFinal (1, p) = if 999999 < p then .error .decimalOverflow else .ok (1, p) := by
  unfold ctxFinal
  simp only
  rw [if_neg (by decide)]
  have hd : ndigits (Int.natAbs 1) = 1 := by decide
  have he : max (max p (p + ((ndigits (Int.natAbs 1) : Int) - abiDecimalPrec))) decEtiny = p := by
    rw [hd, max_eq_left (show p + (((1 : Nat) : Int) - abiDecimalPrec) ≤ p by simp only [abiDecimalPrec]; omega),
      max_eq_left h1]
  simp only [he, sub_self, Int.toNat_zero, if_true]
  rw [hd]
  exact if_congr (by simp only [decEmax]; omega) rfl rfl

/-- Powers of ten. -/
theorem tenPowInt_value {p : Int} (h1 : decEtiny ≤ p) (h2 : p ≤ 999999) : ∃ y, tenPowInt p = .ok y ∧ y.V = 10 ^ p := by
  have := tenPowInt_same p
  rw [ctxFinal_one h1, if_neg (by omega)] at this
  generalize tenPowInt p = r at this
  cases this with
  | ok h => exact ⟨_, rfl, by rw [h]; simp [Dec10.V]⟩

/-- Powers of ten that are too large. -/
theorem tenPowInt_overflow {p : Int} (h : 999999 < p) : tenPowInt p = .error .decimalOverflow := by
  have := tenPowInt_same p
  rw [ctxFinal_one (by simp only [decEtiny]; omega), if_pos h] at this
  generalize tenPowInt p = r at this
  cases this with
  | error => rfl

/-- Scaling is exact. -/
theorem scalePlaces_value {places m e : Int} (hm : m.natAbs < 10 ^ 999) (h1 : decEtiny ≤ e - places)
    (h2 : e - places ≤ 999001) (h3 : -999999 ≤ places) (h4 : places ≤ -decEtiny) :
    ∃ y, scalePlaces places (m, e) = .ok y ∧ y.V = m * 10 ^ (e - places) := by
  obtain ⟨f, hf, hv⟩ := tenPowInt_value (p := -places) (by omega) (by omega)
  rw [scalePlaces, hf, ok_bind]
  have := decMul_same_right (b := f) (b' := (1, -places)) (by rw [hv]; simp [Dec10.V]) (m, e)
  rw [show decMul (m, e) (1, -places) = .ok (m, e - places) by
    rw [decMul, mul_one, ← sub_eq_add_neg]; exact ctxFinal_fits hm h1 h2] at this
  generalize decMul (m, e) f = r at this
  cases this with
  | ok h => exact ⟨_, rfl, by rw [h]; rfl⟩

theorem decLt_same_left {a a' : Dec10} (h : a.V = a'.V) (b : Dec10) : decLt a b = decLt a' b := by
  rw [Bool.eq_iff_iff, decLt_iff, decLt_iff, h]

theorem decLt_same_right {a a' : Dec10} (h : a.V = a'.V) (b : Dec10) : decLt b a = decLt b a' := by
  rw [Bool.eq_iff_iff, decLt_iff, decLt_iff, h]

theorem decToInt_same {a b : Dec10} (h : a.V = b.V) : decToInt a = decToInt b := by
  rcases le_total 0 a.V with h0 | h0
  · obtain ⟨_, p, q⟩ := decToInt_nonneg h0
    obtain ⟨_, p', q'⟩ := decToInt_nonneg (x := b) (h ▸ h0)
    rw [h] at p q
    have h1 : (decToInt a : ℚ) < decToInt b + 1 := lt_of_le_of_lt p q'
    have h2 : (decToInt b : ℚ) < decToInt a + 1 := lt_of_le_of_lt p' q
    have h1 : decToInt a < decToInt b + 1 := by exact_mod_cast h1
    have h2 : decToInt b < decToInt a + 1 := by exact_mod_cast h2
    omega
  · obtain ⟨_, p, q⟩ := decToInt_nonpos h0
    obtain ⟨_, p', q'⟩ := decToInt_nonpos (x := b) (h ▸ h0)
    rw [h] at p q
    have h1 : (decToInt a : ℚ) - 1 < decToInt b := lt_of_lt_of_le q p'
    have h2 : (decToInt b : ℚ) - 1 < decToInt a := lt_of_lt_of_le q' p
    have h1 : decToInt a - 1 < decToInt b := by exact_mod_cast h1
    have h2 : decToInt b - 1 < decToInt a := by exact_mod_cast h2
    omega

theorem tmod_mul_right {c : Int} (hc : 0 < c) (a b : Int) : (a * c).tmod (b * c) = a.tmod b * c := by
  have h1 := Int.mul_tdiv_add_tmod a b
  have h2 := Int.mul_tdiv_add_tmod (a * c) (b * c)
  rw [Int.mul_tdiv_mul_of_pos_left _ _ hc] at h2
  nlinarith [h1, h2, congrArg (· * c) h1]

theorem decRem_same {a a' : Dec10} (h : a.V = a'.V) (b : Dec10) : SameDec (decRem a b) (decRem a' b) := by
  have key : ∀ {a a' : Dec10}, a.V = a'.V → a'.2 ≤ a.2 → SameDec (decRem a b) (decRem a' b) := by
    intro a a' h he
    obtain ⟨m, e⟩ := a
    obtain ⟨m', e'⟩ := a'
    obtain ⟨n, f⟩ := b
    have h1 : m' = m * 10 ^ (e - e').toNat := V_eq_shift h.symm he
    have he : e' ≤ e := he
    obtain ⟨g, hg⟩ : ∃ g, g = min e f := ⟨_, rfl⟩
    obtain ⟨g', hg'⟩ : ∃ g', g' = min e' f := ⟨_, rfl⟩
    have d1 : decRem (m, e) (n, f) =
        if 10 ^ abiDecimalPrec ≤ ((m * 10 ^ (e - g).toNat).tdiv (n * 10 ^ (f - g).toNat)).natAbs then
          .error .decimalInvalidOperation
        else ctxFinal ((m * 10 ^ (e - g).toNat).tmod (n * 10 ^ (f - g).toNat), g) := by
      subst hg; rfl
    have d2 : decRem (m', e') (n, f) =
        if 10 ^ abiDecimalPrec ≤ ((m' * 10 ^ (e' - g').toNat).tdiv (n * 10 ^ (f - g').toNat)).natAbs then
          .error .decimalInvalidOperation
        else ctxFinal ((m' * 10 ^ (e' - g').toNat).tmod (n * 10 ^ (f - g').toNat), g') := by
      subst hg'; rfl
    obtain ⟨j, hj⟩ : ∃ j : Nat, j = (g - g').toNat := ⟨_, rfl⟩
    have x1 : m' * 10 ^ (e' - g').toNat = m * 10 ^ (e - g).toNat * 10 ^ j := by
      rw [h1, mul_assoc, ← pow_add, mul_assoc, ← pow_add,
        show (e - e').toNat + (e' - g').toNat = (e - g).toNat + j by omega]
    have x2 : n * 10 ^ (f - g').toNat = n * 10 ^ (f - g).toNat * 10 ^ j := by
      rw [mul_assoc, ← pow_add, show (f - g').toNat = (f - g).toNat + j by omega]
    have hjp : (0 : Int) < 10 ^ j := by positivity
    rw [d1, d2, x1, x2, Int.mul_tdiv_mul_of_pos_left _ _ hjp, tmod_mul_right hjp]
    split
    · exact .error _
    · apply ctxFinal_same
      generalize (m * 10 ^ (e - g).toNat).tmod (n * 10 ^ (f - g).toNat) = z
      rw [V_shift z g g' (by omega)]
      simp only [Dec10.V]
      rw [hj]
  rcases le_total a'.2 a.2 with h2 | h2
  · exact key h h2
  · exact (key h.symm h2).symm

/-! ## The fixed-point encoders -/

theorem isNumber_of {v : PyVal} {x : Dec10} (h : number? v = some x) :
    (isNumber v && v != .float) = true := by
  cases v with
  | int i => rfl
  | bool b => rfl
  | dec d => rfl
  | _ => cases h

theorem sign_same {x y : Dec10} (h : x.V = y.V) : (0 ≤ x.1 ↔ 0 ≤ y.1) ∧ (0 < x.1 ↔ 0 < y.1) := by
  rw [← V_nonneg_iff, ← V_nonneg_iff, ← V_pos_iff, ← V_pos_iff, h]
  exact ⟨Iff.rfl, Iff.rfl⟩

/-- `fixedValidate` of a number. -/
theorem fixedValidate_number [Ext] (bounds : PyM (Dec10 × Dec10)) (n : Nat) {v : PyVal} {x : Dec10}
    (hv : number? v = some x) : fixedValidate bounds n v =
      (bounds >>= fun b => if decLt x b.1 || decLt b.2 x then .error (shown v .valueOutOfBounds) else
        decRem x (tenPowNeg n) >>= fun r => if 0 < r.1 then .error (shown v .illegalValue) else .ok ()) := by
  unfold fixedValidate
  rw [isNumber_of hv, asDec10_eq, hv]
  simp only [invalidate_eq]
  generalize decRem x (tenPowNeg n) = r
  cases bounds with
  | error e => rfl
  | ok b =>
    simp only [ok_bind, Bool.not_true, Bool.false_eq_true, if_false, pure_eq_ok]
    split
    · rfl
    · cases r <;> rfl

/-- The outcomes for two values: the same, or two exceptions, one of which cannot quote its value. -/
def SameResult [Ext] {α : Type} (v v' : PyVal) (r r' : PyM α) : Prop :=
  r = r' ∨ ((∃ e, r = .error e) ∧ (∃ e, r' = .error e) ∧ ¬ (Printable v ∧ Printable v'))

theorem SameResult.rfl' [Ext] {α : Type} {v v' : PyVal} {r : PyM α} : SameResult v v' r r := .inl rfl

theorem SameResult.shown [Ext] {α : Type} {v v' : PyVal} (exc : Exc) :
    SameResult v v' (.error (shown v exc) : PyM α) (.error (EthAbi.shown v' exc)) := by
  by_cases h : Printable v ∧ Printable v'
  · left; rw [shown_of h.1, shown_of h.2]
  · exact .inr ⟨⟨_, rfl⟩, ⟨_, rfl⟩, h⟩

theorem SameResult.bind [Ext] {α β : Type} {v v' : PyVal} {r r' : PyM α} {f f' : α → PyM β} (h : SameResult v v' r r')
    (hf : ∀ a, r = .ok a → SameResult v v' (f a) (f' a)) : SameResult v v' (r >>= f) (r' >>= f') := by
  rcases h with rfl | ⟨⟨e, rfl⟩, ⟨e', rfl⟩, h⟩
  · cases r with
    | error e => exact .inl rfl
    | ok a => exact hf a rfl
  · exact .inr ⟨⟨e, rfl⟩, ⟨e', rfl⟩, h⟩

theorem SameResult.symm [Ext] {α : Type} {v v' : PyVal} {r r' : PyM α} (h : SameResult v v' r r') : SameResult v' v r' r := by
  rcases h with h | ⟨h1, h2, h3⟩
  · exact .inl h.symm
  · exact .inr ⟨h2, h1, fun h => h3 h.symm⟩

theorem fixedValidate_same [Ext] (bounds : PyM (Dec10 × Dec10)) (n : Nat) {v v' : PyVal} {x y : Dec10}
    (hv : number? v = some x) (hv' : number? v' = some y) (h : x.V = y.V) :
    SameResult v v' (fixedValidate bounds n v) (fixedValidate bounds n v') := by
  rw [fixedValidate_number bounds n hv, fixedValidate_number bounds n hv']
  refine SameResult.bind .rfl' fun b _ => ?_
  rw [decLt_same_left h, decLt_same_right h]
  split
  · exact .shown _
  · have := decRem_same h (tenPowNeg n)
    generalize decRem x (tenPowNeg n) = r at *
    generalize decRem y (tenPowNeg n) = r' at *
    cases this with
    | error e => exact .rfl'
    | ok h =>
      simp only [ok_bind, (sign_same h).2]
      split
      · exact .shown _
      · exact .rfl'

theorem fixedScaled_same (n : Nat) {v v' : PyVal} {x y : Dec10}
    (hv : number? v = some x) (hv' : number? v' = some y) (h : x.V = y.V) :
    fixedScaled n v = fixedScaled n v' := by
  unfold fixedScaled
  rw [asDec10_eq, asDec10_eq, hv, hv']
  have := decMul_same h (tenPow n)
  simp only
  generalize decMul x (tenPow n) = r at *
  generalize decMul y (tenPow n) = r' at *
  cases this with
  | error e => rfl
  | ok h => simp only [ok_bind, decToInt_same h]

theorem sfixedEncode_same [Ext] (bounds : PyM (Dec10 × Dec10)) (m n d : Nat) {v v' : PyVal} {x y : Dec10}
    (hv : number? v = some x) (hv' : number? v' = some y) (h : x.V = y.V) :
    SameResult v v' (sfixedEncode (fixedValidate bounds n) m n d v)
      (sfixedEncode (fixedValidate bounds n) m n d v') := by
  unfold sfixedEncode
  refine SameResult.bind (fixedValidate_same bounds n hv hv' h) fun _ _ => .inl ?_
  rw [fixedScaled_same n hv hv' h, asDec10_eq, asDec10_eq, hv, hv']
  simp only [(sign_same h).1]

theorem ufixedEncode_same [Ext] (bounds : PyM (Dec10 × Dec10)) (n d : Nat) {v v' : PyVal} {x y : Dec10}
    (hv : number? v = some x) (hv' : number? v' = some y) (h : x.V = y.V) :
    SameResult v v' (fixedSizeEncode (fixedValidate bounds n) (ufixedEncodeFn n) true d v)
      (fixedSizeEncode (fixedValidate bounds n) (ufixedEncodeFn n) true d v') := by
  unfold fixedSizeEncode ufixedEncodeFn
  refine SameResult.bind (fixedValidate_same bounds n hv hv' h) fun _ _ => .inl ?_
  rw [fixedScaled_same n hv hv' h]

end EthAbi
