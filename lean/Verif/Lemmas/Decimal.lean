import Verif.Lemmas.PyM
import Verif.Model.Encoding
import Verif.Spec.Abi
import Mathlib.Algebra.Order.Field.Power
import Mathlib.Data.Rat.Cast.Order
import Mathlib.Tactic.Linarith
import Mathlib.Tactic.Ring
import Mathlib.Tactic.Positivity
import Mathlib.Tactic.FieldSimp
import Mathlib.Tactic.NormNum

/-! # Decimal arithmetic, by its value in the rationals -/
namespace EthAbi
open Spec

/-- The rational number a finite decimal stands for. -/
def Dec10.V (x : Dec10) : ℚ := x.1 * (10 : ℚ) ^ x.2

theorem ten_zpow_pos (e : Int) : (0 : ℚ) < 10 ^ e := zpow_pos (by norm_num) e

theorem V_shift (m e : Int) (f : Int) (h : f ≤ e) :
    Dec10.V (m, e) = ((m * 10 ^ (e - f).toNat : Int) : ℚ) * 10 ^ f := by
  have : (e - f).toNat = e - f := Int.toNat_of_nonneg (by omega)
  simp only [Dec10.V]
  push_cast
  rw [mul_assoc, ← zpow_natCast, this, ← zpow_add₀ (by norm_num)]
  congr 2; omega

theorem decLt_iff (a b : Dec10) : decLt a b = true ↔ a.V < b.V := by
  obtain ⟨a1, a2⟩ := a
  obtain ⟨b1, b2⟩ := b
  refine decide_eq_true_iff.trans ?_
  simp only
  rw [V_shift a1 a2 (min a2 b2) (by omega), V_shift b1 b2 (min a2 b2) (by omega),
    mul_lt_mul_iff_left₀ (ten_zpow_pos _), Int.cast_lt]

theorem decLt_eq_false_iff (a b : Dec10) : decLt a b = false ↔ b.V ≤ a.V := by
  rw [← not_lt, ← decLt_iff]; simp

theorem V_nonneg_iff (x : Dec10) : 0 ≤ x.V ↔ 0 ≤ x.1 := by
  rw [Dec10.V, mul_nonneg_iff_of_pos_right (ten_zpow_pos _), Int.cast_nonneg_iff]

theorem V_pos_iff (x : Dec10) : 0 < x.V ↔ 0 < x.1 := by
  rw [Dec10.V, mul_pos_iff_of_pos_right (ten_zpow_pos _), Int.cast_pos]

theorem V_zero (e : Int) : Dec10.V (0, e) = 0 := by simp [Dec10.V]

/-- `onGrid?` finds the `k` with `x = k · 10^-n`. -/
theorem onGrid_some_iff {n : Nat} {x : Dec10} {k : Int} :
    onGrid? n x = some k ↔ x.V = k * (10 : ℚ) ^ (-(n : Int)) := by
  obtain ⟨m, e⟩ := x
  simp only [onGrid?]
  split
  · next h =>
    rw [V_shift m e (-n) (by omega), Option.some.injEq,
      mul_left_inj' (ten_zpow_pos _).ne', Int.cast_inj, show e - -(n : Int) = e + n by omega]
  · next h =>
    have hp : (0 : Int) < 10 ^ (-(e + n)).toNat := by positivity
    have e1 : ∀ k : Int, Dec10.V (k, -n) = ((k * 10 ^ (-(e + n)).toNat : Int) : ℚ) * 10 ^ e := by
      intro k
      rw [V_shift k (-n) e (by omega), show -(n : Int) - e = -(e + n) by omega]
    have e2 : (k : ℚ) * (10 : ℚ) ^ (-(n : Int)) = Dec10.V (k, -n) := rfl
    rw [e2, e1]
    simp only [Dec10.V]
    rw [mul_left_inj' (ten_zpow_pos _).ne', Int.cast_inj]
    split
    · next h2 =>
      rw [Option.some.injEq]
      constructor
      · rintro rfl; exact (Int.ediv_mul_cancel (Int.dvd_of_emod_eq_zero h2)).symm
      · rintro rfl; exact Int.mul_ediv_cancel _ hp.ne'
    · next h2 =>
      constructor
      · intro h; simp at h
      · rintro rfl; simp at h2

/-! ## Digits and rounding -/

theorem ndigitsAux_spec (fuel n : Nat) (h : n ≤ fuel) :
    n < 10 ^ ndigitsAux fuel n ∧ 1 ≤ ndigitsAux fuel n ∧
      (n ≠ 0 → 10 ^ (ndigitsAux fuel n - 1) ≤ n) := by
  induction fuel generalizing n with
  | zero =>
    have : n = 0 := by omega
    subst this; simp [ndigitsAux]
  | succ fuel ih =>
    rw [ndigitsAux]
    split
    · next h1 => simp; omega
    · next h1 =>
      obtain ⟨i1, i2, i3⟩ := ih (n / 10) (by omega)
      refine ⟨?_, by omega, fun _ => ?_⟩
      · rw [pow_succ]; omega
      · have := i3 (by omega)
        rw [Nat.add_sub_cancel]
        obtain ⟨d, hd⟩ : ∃ d, ndigitsAux fuel (n / 10) = d + 1 := ⟨_, (Nat.sub_add_cancel i2).symm⟩
        rw [hd] at this ⊢
        rw [Nat.add_sub_cancel] at this
        rw [pow_succ]; omega

theorem ndigits_lt (n : Nat) : n < 10 ^ ndigits n := (ndigitsAux_spec n n le_rfl).1
theorem ndigits_pos (n : Nat) : 1 ≤ ndigits n := (ndigitsAux_spec n n le_rfl).2.1
theorem ndigits_le' {n : Nat} (h : n ≠ 0) : 10 ^ (ndigits n - 1) ≤ n :=
  (ndigitsAux_spec n n le_rfl).2.2 h

theorem ndigits_le {n d : Nat} (hd : 1 ≤ d) (h : n < 10 ^ d) : ndigits n ≤ d := by
  rcases Nat.eq_zero_or_pos n with rfl | hn
  · exact hd
  · have h1 := ndigits_le' (n := n) (by omega)
    have h2 : 10 ^ (ndigits n - 1) < 10 ^ d := lt_of_le_of_lt h1 h
    have := (Nat.pow_lt_pow_iff_right (show 1 < 10 by norm_num)).1 h2
    omega

/-- Rounding of the magnitude. -/
theorem roundHalfEven_mag (m : Int) (k : Nat) : ∃ Q : Nat,
    roundHalfEven m k = (if m < 0 then -(Q : Int) else (Q : Int)) ∧
      (∀ N : Nat, m.natAbs ≤ N * 10 ^ k → Q ≤ N) ∧ (∀ N : Nat, N * 10 ^ k ≤ m.natAbs → N ≤ Q) := by
  have hp : (0 : Nat) < 10 ^ k := by positivity
  refine ⟨_, rfl, ?_, ?_⟩
  · intro N hN
    have hd := Nat.div_add_mod m.natAbs (10 ^ k)
    generalize m.natAbs / 10 ^ k = q at *
    generalize m.natAbs % 10 ^ k = r at *
    generalize 10 ^ k = P at *
    have hNP : P * q + r ≤ P * N := by rw [hd, Nat.mul_comm]; exact hN
    split
    · next hc =>
      have hr : 0 < r := by omega
      have : P * q < P * N := by omega
      exact Nat.lt_of_mul_lt_mul_left this
    · exact Nat.le_of_mul_le_mul_left (by omega : P * q ≤ P * N) hp
  · intro N hN
    have : N ≤ m.natAbs / 10 ^ k := (Nat.le_div_iff_mul_le hp).2 hN
    split <;> omega

theorem roundHalfEven_le {m N : Int} {k : Nat} (h : m ≤ N * 10 ^ k) : roundHalfEven m k ≤ N := by
  obtain ⟨Q, h1, h2, h3⟩ := roundHalfEven_mag m k
  have hP : ((10 ^ k : Nat) : Int) = 10 ^ k := by push_cast; rfl
  have hp : (0 : Nat) < 10 ^ k := by positivity
  rw [← hP] at h
  generalize 10 ^ k = P at *
  rw [h1]
  split
  · next hm =>
    rcases le_or_gt 0 N with hN | hN
    · omega
    · have := h3 N.natAbs (by
        zify
        rw [abs_of_neg hm, abs_of_neg hN]; linarith)
      omega
  · next hm =>
    have hN : 0 ≤ N := by
      by_contra hc
      have : N * (P : Int) < 0 := mul_neg_of_neg_of_pos (by omega) (by exact_mod_cast hp)
      omega
    have := h2 N.natAbs (by
        zify
        rw [abs_of_nonneg (by omega : 0 ≤ m), abs_of_nonneg hN]; linarith)
    omega

theorem le_roundHalfEven {m N : Int} {k : Nat} (h : N * 10 ^ k ≤ m) : N ≤ roundHalfEven m k := by
  obtain ⟨Q, h1, h2, h3⟩ := roundHalfEven_mag m k
  have hP : ((10 ^ k : Nat) : Int) = 10 ^ k := by push_cast; rfl
  have hp : (0 : Nat) < 10 ^ k := by positivity
  rw [← hP] at h
  generalize 10 ^ k = P at *
  rw [h1]
  split
  · next hm =>
    have hN : N < 0 := by
      by_contra hc
      have : 0 ≤ N * (P : Int) := mul_nonneg (by omega) (by omega)
      omega
    have := h2 N.natAbs (by
        zify
        rw [abs_of_neg hm, abs_of_neg hN]; linarith)
    omega
  · next hm =>
    rcases le_or_gt 0 N with hN | hN
    · have := h3 N.natAbs (by
        zify
        rw [abs_of_nonneg (by omega : 0 ≤ m), abs_of_nonneg hN]; linarith)
      omega
    · omega

theorem ctxFinal_id {m e : Int} (hm : m.natAbs < 10 ^ 999) (h1 : decEtiny ≤ e)
    (h2 : e ≤ 0) : ctxFinal (m, e) = .ok (m, e) := by
  unfold ctxFinal
  simp only
  split
  · next h => subst h; rw [max_eq_left h1]
  · next h =>
    have hd := ndigits_le (d := 999) (by norm_num) hm
    have hd' : (ndigits m.natAbs : Int) - abiDecimalPrec ≤ 0 := by
      simp only [abiDecimalPrec]; omega
    have he : max (max e (e + ((ndigits m.natAbs : Int) - abiDecimalPrec))) decEtiny = e := by
      rw [max_eq_left (by omega : e + ((ndigits m.natAbs : Int) - abiDecimalPrec) ≤ e),
        max_eq_left h1]
    simp only [he, sub_self, Int.toNat_zero, if_true]
    rw [if_neg]
    simp only [decEmax]; omega

theorem tenPowInt_neg {n : Nat} (h : (n : Int) ≤ 1000997) : tenPowInt (-(n : Int)) = .ok (tenPowNeg n) := by
  rw [tenPowInt]
  split
  · obtain rfl : n = 0 := by omega
    exact ctxFinal_id (by norm_num) (by simp [decEtiny]) (by simp)
  · exact ctxFinal_id (lt_of_lt_of_le (b := 10 ^ 1) (by decide) (Nat.pow_le_pow_right (by decide) (by decide)))
      (by simp only [decEtiny]; omega) (by omega)

/-- Rounding in the decimal context, for a result of moderate size: it succeeds, and does not cross
any integer of at most 999 digits. -/
theorem ctxFinal_spec {x : Dec10} (hx : |x.V| < (10 : ℚ) ^ (999 : Int)) :
    ∃ y, ctxFinal x = .ok y ∧ (∀ K : Int, x.V ≤ K → y.V ≤ K) ∧ (∀ K : Int, K ≤ x.V → K ≤ y.V) ∧
      (0 < x.1 → decEtiny ≤ x.2 → 0 < y.1) := by
  obtain ⟨m, e⟩ := x
  unfold ctxFinal
  simp only
  split
  · next h =>
    subst h
    exact ⟨_, rfl, by simp [V_zero], by simp [V_zero], by simp⟩
  · next h =>
    have hA : m.natAbs ≠ 0 := by omega
    have hlo := ndigits_le' hA
    have hhi := ndigits_lt m.natAbs
    have hpos := ndigits_pos m.natAbs
    have habs : |Dec10.V (m, e)| = (m.natAbs : ℚ) * 10 ^ e := by
      rw [Dec10.V, abs_mul, abs_of_pos (ten_zpow_pos _), Nat.cast_natAbs, Int.cast_abs]
    -- size of the exponent
    have hsz : e + (ndigits m.natAbs : Int) - 1 < 999 := by
      have h1 : (10 : ℚ) ^ (e + (ndigits m.natAbs : Int) - 1) ≤ |Dec10.V (m, e)| := by
        rw [habs, show e + (ndigits m.natAbs : Int) - 1 = ((ndigits m.natAbs - 1 : Nat) : Int) + e by
          omega, zpow_add₀ (by norm_num), zpow_natCast]
        apply mul_le_mul_of_nonneg_right _ (ten_zpow_pos _).le
        exact_mod_cast hlo
      have h2 := lt_of_le_of_lt h1 hx
      exact (zpow_lt_zpow_iff_right₀ (by norm_num)).1 h2
    generalize hd : ndigits m.natAbs = d at *
    set e' := max (max e (e + ((d : Int) - abiDecimalPrec))) decEtiny with he'
    have hp : abiDecimalPrec = 999 := rfl
    have hEt : decEtiny = -1000997 := rfl
    have hEm : decEmax = 999999 := rfl
    by_cases hk : (e' - e).toNat = 0
    · have hle : e' ≤ e := by omega
      have hd999 : (d : Int) ≤ 999 := by omega
      simp only [hk, if_true]
      rw [if_neg (by rw [hd]; omega)]
      exact ⟨_, rfl, fun _ h => h, fun _ h => h, fun h _ => h⟩
    · simp only [hk, if_false]
      have hle0 : e' ≤ 0 := by omega
      set k := (e' - e).toNat with hkdef
      have hke : (k : Int) = e' - e := Int.toNat_of_nonneg (by omega)
      have hVx : Dec10.V (m, e) = (m : ℚ) / 10 ^ k * 10 ^ e' := by
        have : (10 : ℚ) ^ e' = 10 ^ (k : Nat) * 10 ^ e := by
          rw [← zpow_natCast, hke, ← zpow_add₀ (by norm_num)]; congr 1; omega
        rw [this, Dec10.V]
        field_simp
      -- the magnitude of the rounded coefficient
      have hAk : m.natAbs < 10 ^ 999 * 10 ^ k := by
        rw [← pow_add]
        refine lt_of_lt_of_le hhi (Nat.pow_le_pow_right (by norm_num) ?_)
        omega
      have hmle : m ≤ 10 ^ 999 * 10 ^ k := by
        have h1 : (m.natAbs : Int) < 10 ^ 999 * 10 ^ k := by exact_mod_cast hAk
        generalize (10 ^ 999 * 10 ^ k : Int) = Q at *
        omega
      have hmge : -10 ^ 999 * 10 ^ k ≤ m := by
        have h1 : (m.natAbs : Int) < 10 ^ 999 * 10 ^ k := by exact_mod_cast hAk
        rw [neg_mul]
        generalize (10 ^ 999 * 10 ^ k : Int) = Q at *
        omega
      have r1 := roundHalfEven_le hmle
      have r2 := le_roundHalfEven hmge
      set m' := roundHalfEven m k with hm'
      have key1 : ∀ K : Int, Dec10.V (m, e) ≤ K → Dec10.V (m', e') ≤ K := by
        intro K hK
        have hKe : (K : ℚ) = ((K * 10 ^ (-e').toNat : Int) : ℚ) * 10 ^ e' := by
          have := V_shift K 0 e' hle0
          rw [Dec10.V] at this
          simpa using this
        rw [hKe, hVx] at hK
        have hK1 := (mul_le_mul_iff_left₀ (ten_zpow_pos _)).1 hK
        rw [div_le_iff₀ (by positivity)] at hK1
        have hK2 : m ≤ (K * 10 ^ (-e').toNat) * 10 ^ k := by exact_mod_cast hK1
        have := roundHalfEven_le hK2
        rw [hKe, Dec10.V]
        apply mul_le_mul_of_nonneg_right _ (ten_zpow_pos _).le
        exact_mod_cast this
      have key2 : ∀ K : Int, K ≤ Dec10.V (m, e) → K ≤ Dec10.V (m', e') := by
        intro K hK
        have hKe : (K : ℚ) = ((K * 10 ^ (-e').toNat : Int) : ℚ) * 10 ^ e' := by
          have := V_shift K 0 e' hle0
          rw [Dec10.V] at this
          simpa using this
        rw [hKe, hVx] at hK
        have hK1 := (mul_le_mul_iff_left₀ (ten_zpow_pos _)).1 hK
        rw [le_div_iff₀ (by positivity)] at hK1
        have hK2 : (K * 10 ^ (-e').toNat) * 10 ^ k ≤ m := by exact_mod_cast hK1
        have := le_roundHalfEven hK2
        rw [hKe, Dec10.V]
        apply mul_le_mul_of_nonneg_right _ (ten_zpow_pos _).le
        exact_mod_cast this
      have key3 : 0 < m → decEtiny ≤ e → 0 < m' := by
        intro h0 h1
        have hk2 : k + 1 ≤ d := by omega
        have : (1 : Int) * 10 ^ k ≤ m := by
          have h3 : 10 ^ k ≤ m.natAbs :=
            le_trans (Nat.pow_le_pow_right (by norm_num) (by omega)) hlo
          have h4 : ((10 ^ k : Nat) : Int) ≤ m.natAbs := by exact_mod_cast h3
          rw [one_mul]
          push_cast at h4
          rw [abs_of_pos h0] at h4
          exact h4
        have := le_roundHalfEven this
        omega
      by_cases hE : m'.natAbs = 10 ^ abiDecimalPrec
      · simp only [hE, if_true]
        have hdiv : (10 : Int) ∣ m' := by
          rw [← Int.natAbs_dvd_natAbs, hE, hp]
          exact dvd_pow_self 10 (by norm_num)
        obtain ⟨c, hc⟩ := hdiv
        have hc2 : m' / 10 = c := by rw [hc]; exact Int.mul_ediv_cancel_left _ (by norm_num)
        have hVV : Dec10.V (m' / 10, e' + 1) = Dec10.V (m', e') := by
          rw [hc2, hc, Dec10.V, Dec10.V, zpow_add₀ (by norm_num)]
          push_cast; ring
        have hnd : ndigits (m' / 10).natAbs ≤ 999 := by
          apply ndigits_le (by norm_num)
          rw [hc2]
          have : (10 * c).natAbs = 10 ^ 999 := by rw [← hc, hE, hp]
          rw [Int.natAbs_mul] at this
          have h0 : (0 : Nat) < 10 ^ 999 := by positivity
          have h10 : (10 : Int).natAbs = 10 := rfl
          rw [h10] at this
          generalize 10 ^ 999 = Q at *
          omega
        rw [if_neg (by omega)]
        refine ⟨_, rfl, ?_, ?_, ?_⟩
        · rw [hVV]; exact key1
        · rw [hVV]; exact key2
        · intro a b
          have := key3 a b
          simp only
          omega
      · simp only [hE, if_false]
        have hnd : ndigits m'.natAbs ≤ 999 := by
          apply ndigits_le (by norm_num)
          rw [hp] at hE
          have h1 : ((10 ^ 999 : Nat) : Int) = 10 ^ 999 := Nat.cast_pow 10 999
          rw [← h1] at r1 r2
          generalize 10 ^ 999 = Q at *
          omega
        rw [if_neg (by omega)]
        exact ⟨_, rfl, key1, key2, key3⟩

theorem decToInt_nonneg {x : Dec10} (h : 0 ≤ x.V) :
    0 ≤ decToInt x ∧ (decToInt x : ℚ) ≤ x.V ∧ x.V < decToInt x + 1 := by
  obtain ⟨m, e⟩ := x
  have hm : 0 ≤ m := (V_nonneg_iff (m, e)).1 h
  unfold decToInt
  simp only
  split
  · next he =>
    have := V_shift m e 0 he
    rw [zpow_zero, mul_one, sub_zero] at this
    rw [this]
    refine ⟨by positivity, le_rfl, by simp⟩
  · next he =>
    have hP : (0 : Int) < 10 ^ (-e).toNat := by positivity
    have hV : Dec10.V (m, e) = (m : ℚ) / ((10 ^ (-e).toNat : Int) : ℚ) := by
      have : (10 : ℚ) ^ e = ((10 : ℚ) ^ (-e).toNat)⁻¹ := by
        rw [← zpow_natCast, ← zpow_neg, Int.toNat_of_nonneg (by omega), neg_neg]
      rw [Dec10.V, this, div_eq_mul_inv]; push_cast; rfl
    rw [hV]
    generalize (10 ^ (-e).toNat : Int) = P at *
    have hPq : (0 : ℚ) < P := by exact_mod_cast hP
    rw [Int.tdiv_eq_ediv_of_nonneg hm, le_div_iff₀ hPq, div_lt_iff₀ hPq]
    refine ⟨Int.ediv_nonneg hm hP.le, ?_, ?_⟩
    · exact_mod_cast Int.ediv_mul_le m hP.ne'
    · have : m < (m / P + 1) * P := Int.lt_ediv_add_one_mul_self m hP
      exact_mod_cast this

theorem decToInt_neg (x : Dec10) : decToInt (-x.1, x.2) = -decToInt x := by
  unfold decToInt
  simp only
  split
  · ring
  · rw [Int.neg_tdiv]

theorem V_neg (x : Dec10) : Dec10.V (-x.1, x.2) = -x.V := by simp [Dec10.V]

theorem decToInt_nonpos {x : Dec10} (h : x.V ≤ 0) :
    decToInt x ≤ 0 ∧ x.V ≤ (decToInt x : ℚ) ∧ (decToInt x : ℚ) - 1 < x.V := by
  have h1 := decToInt_nonneg (x := (-x.1, x.2)) (by rw [V_neg]; linarith)
  rw [decToInt_neg, V_neg] at h1
  obtain ⟨a, b, c⟩ := h1
  push_cast at b c
  exact ⟨by omega, by linarith, by linarith⟩

theorem decToInt_exact {x : Dec10} {K : Int} (h : x.V = K) : decToInt x = K := by
  rcases le_total 0 x.V with h0 | h0
  · obtain ⟨a, b, c⟩ := decToInt_nonneg h0
    rw [h] at b c
    have b' : decToInt x ≤ K := by exact_mod_cast b
    have c' : K < decToInt x + 1 := by exact_mod_cast c
    omega
  · obtain ⟨a, b, c⟩ := decToInt_nonpos h0
    rw [h] at b c
    have b' : K ≤ decToInt x := by exact_mod_cast b
    have c' : decToInt x - 1 < K := by exact_mod_cast c
    omega

theorem decToInt_between {x : Dec10} {a b : Int} (ha : a ≤ 0) (hb : 0 ≤ b) (h1 : a ≤ x.V)
    (h2 : x.V ≤ b) : a ≤ decToInt x ∧ decToInt x ≤ b := by
  rcases le_total 0 x.V with h0 | h0
  · obtain ⟨p, q, _⟩ := decToInt_nonneg h0
    have : (decToInt x : ℚ) ≤ b := le_trans q h2
    have : decToInt x ≤ b := by exact_mod_cast this
    omega
  · obtain ⟨p, q, _⟩ := decToInt_nonpos h0
    have : (a : ℚ) ≤ decToInt x := le_trans h1 q
    have : a ≤ decToInt x := by exact_mod_cast this
    omega

/-! ## The fixed-point encoders -/

theorem asDec10_eq (v : PyVal) : asDec10? v = number? v := by
  cases v with
  | dec d => cases d <;> rfl
  | _ => rfl

theorem pow256_lt : (2 : Int) ^ 256 < 10 ^ 78 := by norm_num

theorem natAbs_lt_of_bits {m : Nat} (hm : m ≤ 256) {i : Int} (h1 : -2 ^ m ≤ i) (h2 : i ≤ 2 ^ m) :
    i.natAbs < 10 ^ 999 := by
  have a : (2 : Int) ^ m ≤ 2 ^ 256 := pow_le_pow_right₀ (by norm_num) hm
  have b : (i.natAbs : Int) < ((10 ^ 78 : Nat) : Int) := by
    have := pow256_lt
    push_cast
    rw [abs_lt]
    constructor <;> linarith
  exact lt_of_lt_of_le (Int.ofNat_lt.1 b) (Nat.pow_le_pow_right (by norm_num) (by norm_num))

theorem mul_tenPowNeg {m n : Nat} (hm : m ≤ 256) (hn : n ≤ 80) {i : Int} (h1 : -2 ^ m ≤ i)
    (h2 : i ≤ 2 ^ m) : decMul (i, 0) (tenPowNeg n) = .ok (i, -(n : Int)) := by
  rw [decMul, tenPowNeg]
  simp only [mul_one, zero_add]
  exact ctxFinal_id (natAbs_lt_of_bits hm h1 h2) (by simp only [decEtiny]; omega) (by omega)

theorem unsignedFixedBounds_eq {m n : Nat} (hm : m ≤ 256) (hn : n ≤ 80) :
    computeUnsignedFixedBounds m n = .ok ((0, 0), (2 ^ m - 1, -(n : Int))) := by
  have hp : (0 : Int) < 2 ^ m := by positivity
  simp only [computeUnsignedFixedBounds, computeUnsignedIntegerBounds]
  rw [mul_tenPowNeg hm hn (by linarith) (by linarith)]
  rfl

theorem signedFixedBounds_eq {m n : Nat} (hm : m ≤ 256) (hn : n ≤ 80) :
    computeSignedFixedBounds m n =
      .ok ((-2 ^ (m - 1), -(n : Int)), (2 ^ (m - 1) - 1, -(n : Int))) := by
  have hp : (0 : Int) < 2 ^ (m - 1) := by positivity
  simp only [computeSignedFixedBounds, computeSignedIntegerBounds]
  rw [mul_tenPowNeg (m := m - 1) (by omega) hn (by linarith) (by linarith),
    mul_tenPowNeg (m := m - 1) (by omega) hn (by linarith) (by linarith)]
  simp

/-- The remainder on the grid of `10^-n`, for an argument of moderate size. -/
theorem decRem_spec {n : Nat} (hn : n ≤ 80) {x : Dec10}
    (hx : |x.V| < (10 : ℚ) ^ (999 : Int) * 10 ^ (-(n : Int))) :
    ∃ r, decRem x (tenPowNeg n) = .ok r ∧ (x.V ≤ 0 → r.1 ≤ 0) ∧
      ((onGrid? n x).isSome → r.1 = 0) ∧
      (onGrid? n x = none → 0 < x.V → decEtiny ≤ x.2 → 0 < r.1) := by
  obtain ⟨m, e⟩ := x
  obtain ⟨f, hf⟩ : ∃ f, f = min e (-(n : Int)) := ⟨_, rfl⟩
  have hdef : decRem (m, e) (tenPowNeg n) =
      if 10 ^ abiDecimalPrec ≤
          ((m * 10 ^ (e - f).toNat).tdiv (1 * 10 ^ (-(n : Int) - f).toNat)).natAbs then
        .error .decimalInvalidOperation
      else ctxFinal ((m * 10 ^ (e - f).toNat).tmod (1 * 10 ^ (-(n : Int) - f).toNat), f) := by
    subst hf; rfl
  rw [hdef]
  have hXV : Dec10.V (m, e) = ((m * 10 ^ (e - f).toNat : Int) : ℚ) * 10 ^ f :=
    V_shift m e f (by omega)
  have hYV : (10 : ℚ) ^ (-(n : Int)) = ((1 * 10 ^ (-(n : Int) - f).toNat : Int) : ℚ) * 10 ^ f := by
    have := V_shift 1 (-(n : Int)) f (by omega)
    rw [Dec10.V] at this
    simpa using this
  have hYpos : (0 : Int) < 1 * 10 ^ (-(n : Int) - f).toNat := by positivity
  have hgrid : ∀ k : Int, onGrid? n (m, e) = some k ↔
      m * 10 ^ (e - f).toNat = k * (1 * 10 ^ (-(n : Int) - f).toNat) := by
    intro k
    rw [onGrid_some_iff, hXV, hYV, ← mul_assoc, mul_left_inj' (ten_zpow_pos _).ne']
    exact_mod_cast Iff.rfl
  have hf2 : f ≤ e := by omega
  have hf3 : f = e ∨ f = -(n : Int) := by omega
  generalize hX : m * 10 ^ (e - f).toNat = X at *
  generalize hY : (1 * 10 ^ (-(n : Int) - f).toNat : Int) = Y at *
  have hYq : (0 : ℚ) < Y := by exact_mod_cast hYpos
  -- the quotient is small
  have hq : (X.tdiv Y).natAbs < 10 ^ 999 := by
    have h1 : |(X : ℚ)| < (10 : ℚ) ^ 999 * Y := by
      rw [hXV, hYV, abs_mul, abs_of_pos (ten_zpow_pos f), ← mul_assoc] at hx
      have := lt_of_mul_lt_mul_right hx (ten_zpow_pos f).le
      rw [← zpow_natCast]
      exact_mod_cast this
    have h2 : X.natAbs < 10 ^ 999 * Y.natAbs := by
      have h3 : ((X.natAbs : Int) : ℚ) < ((10 ^ 999 * Y.natAbs : Int) : ℚ) := by
        rw [Int.cast_mul, Int.cast_pow, Int.natCast_natAbs, Int.natCast_natAbs, Int.cast_abs,
          Int.cast_abs, abs_of_pos hYq]
        exact_mod_cast h1
      exact_mod_cast h3
    rw [Int.natAbs_tdiv]
    exact Nat.div_lt_of_lt_mul (by rw [Nat.mul_comm]; exact h2)
  rw [show abiDecimalPrec = 999 from rfl, if_neg (not_le.2 hq)]
  clear hq
  have hr1 : |((X.tmod Y : Int) : ℚ)| < Y := by
    have := Int.natAbs_tmod X Y
    have h2 : (X.tmod Y).natAbs < Y.natAbs := by rw [this]; exact Nat.mod_lt _ (by omega)
    have h3 : |X.tmod Y| < Y := by
      rw [Int.abs_eq_natAbs]; omega
    exact_mod_cast h3
  obtain ⟨r, h1, h2, h3, h4⟩ := ctxFinal_spec (x := (X.tmod Y, f)) (by
    rw [Dec10.V, abs_mul, abs_of_pos (ten_zpow_pos _)]
    calc |((X.tmod Y : Int) : ℚ)| * 10 ^ f < Y * 10 ^ f :=
          mul_lt_mul_of_pos_right hr1 (ten_zpow_pos f)
      _ = 10 ^ (-(n : Int)) := hYV.symm
      _ ≤ 10 ^ (0 : Int) := zpow_le_zpow_right₀ (by norm_num) (by omega)
      _ < 10 ^ (999 : Int) := zpow_lt_zpow_right₀ (by norm_num) (by norm_num))
  have sgn : ∀ {z : Dec10}, z.V ≤ 0 ↔ z.1 ≤ 0 := by
    intro z; rw [← not_lt, ← not_lt, V_pos_iff]
  refine ⟨r, h1, ?_, ?_, ?_⟩
  · intro hle
    rw [sgn] at hle
    have hX0 : X ≤ 0 := by
      rw [← hX]; exact mul_nonpos_of_nonpos_of_nonneg hle (by positivity)
    have : Int.tmod X Y ≤ 0 := by
      have := Int.tmod_nonneg (a := -X) Y (by omega)
      rw [Int.neg_tmod] at this; omega
    rw [← sgn]
    have := h2 0 (by rw [Int.cast_zero, sgn]; exact this)
    simpa using this
  · intro hs
    obtain ⟨k, hk⟩ := Option.isSome_iff_exists.1 hs
    rw [hgrid] at hk
    have h0 : X.tmod Y = 0 := by rw [hk]; exact Int.mul_tmod_left k Y
    rw [h0] at h2 h3
    have a := h2 0 (by simp [V_zero])
    have b := h3 0 (by simp [V_zero])
    rw [Int.cast_zero] at a b
    rw [sgn] at a
    rw [V_nonneg_iff] at b
    omega
  · intro hnone hpos hE
    rw [V_pos_iff] at hpos
    have hX0 : 0 < X := by
      rw [← hX]; exact mul_pos hpos (by positivity)
    have hne : X.tmod Y ≠ 0 := by
      intro h0
      have := (hgrid (X.tdiv Y)).2 (by
        have := Int.tmod_add_mul_tdiv X Y
        rw [h0] at this; linarith)
      rw [hnone] at this; simp at this
    have hnn := Int.tmod_nonneg (a := X) Y hX0.le
    refine h4 (by simp only; omega) ?_
    simp only [decEtiny] at hE ⊢
    omega

end EthAbi
