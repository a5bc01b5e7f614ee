import Verif.Lemmas.DecimalValue
import Mathlib.Data.Rat.Floor

/-! # When the remainder of a fixed-point number survives rounding -/
namespace EthAbi
open Spec

theorem roundHalfEven_pos {m : Int} (hm : 0 < m) (k : Nat) : 0 < roundHalfEven m k ↔ 10 ^ k < 2 * m := by
  have hP : 0 < 10 ^ k := Nat.pow_pos (by decide)
  have hc : ((10 ^ k : Nat) : Int) = 10 ^ k := by push_cast; rfl
  rw [← hc]
  unfold roundHalfEven
  simp only
  rw [if_neg (by omega)]
  generalize 10 ^ k = P at *
  obtain ⟨a, rfl⟩ : ∃ a : Nat, m = a := ⟨m.toNat, by omega⟩
  rw [Int.natAbs_natCast]
  have h1 := Nat.div_add_mod a P
  have h2 := Nat.mod_lt a hP
  rcases Nat.lt_or_ge a P with h | h
  · rw [Nat.div_eq_of_lt h, Nat.mod_eq_of_lt h]
    split <;> omega
  · have h3 : 1 ≤ a / P := (Nat.one_le_div_iff hP).2 h
    split <;> omega

theorem two_pow_lt {m : Int} {e f : Int} (h : e ≤ f) :
    (10 : ℚ) ^ f / 2 < Dec10.V (m, e) ↔ 10 ^ (f - e).toNat < 2 * m := by
  have h10 := ten_zpow_pos e
  have h1 : (10 : ℚ) ^ f = ((10 ^ (f - e).toNat : Int) : ℚ) * 10 ^ e := by
    have := V_shift 1 f e h
    rw [Dec10.V] at this
    simpa using this
  rw [h1, Dec10.V]
  generalize (10 ^ (f - e).toNat : Int) = P
  constructor
  · intro h
    have : (P : ℚ) < 2 * m := by
      by_contra hc
      have := mul_le_mul_of_nonneg_right (not_lt.1 hc) h10.le
      simp only at h
      linarith
    exact_mod_cast this
  · intro h
    have : (P : ℚ) < 2 * m := by exact_mod_cast h
    have := mul_lt_mul_of_pos_right this h10
    simp only
    linarith

/-- A positive number rounds to a positive one if and only if it is above half of the smallest number there is. -/
theorem ctxFinal_pos {m e : Int} (hm : 0 < m) {r : Dec10} (hr : ctxFinal (m, e) = .ok r) :
    0 < r.1 ↔ (10 : ℚ) ^ decEtiny / 2 < Dec10.V (m, e) := by
  rw [ctxFinal_def (by omega)] at hr
  split at hr
  · cases hr
  · cases hr
    have hbig : ∀ f : Int, f ≤ e → (10 : ℚ) ^ f / 2 < Dec10.V (m, e) := by
      intro f hf
      have h1 : (10 : ℚ) ^ f ≤ 10 ^ e := zpow_le_zpow_right₀ (by norm_num) hf
      have h2 : (1 : ℚ) ≤ m := by exact_mod_cast hm
      have h3 := ten_zpow_pos e
      have h4 := mul_le_mul_of_nonneg_right h2 h3.le
      have h5 := ten_zpow_pos f
      simp only [Dec10.V]
      linarith
    obtain ⟨e', he'⟩ : ∃ e', e' = max (max e (e + ((ndigits m.natAbs : Int) - abiDecimalPrec))) decEtiny := ⟨_, rfl⟩
    have hdef : ctxRound m e = if (e' - e).toNat = 0 then (m, e) else
        if (roundHalfEven m (e' - e).toNat).natAbs = 10 ^ abiDecimalPrec then
          (roundHalfEven m (e' - e).toNat / 10, e' + 1) else (roundHalfEven m (e' - e).toNat, e') := by
      rw [he']; rfl
    rw [hdef]
    by_cases hk : (e' - e).toNat = 0
    · rw [if_pos hk]
      exact ⟨fun _ => hbig _ (by omega), fun _ => hm⟩
    · rw [if_neg hk]
      have hpos : 0 < (if (roundHalfEven m (e' - e).toNat).natAbs = 10 ^ abiDecimalPrec then
          ((roundHalfEven m (e' - e).toNat / 10, e' + 1) : Dec10) else (roundHalfEven m (e' - e).toNat, e')).1 ↔
          0 < roundHalfEven m (e' - e).toNat := by
        rw [← V_pos_iff, carry_V, V_pos_iff]
      rw [hpos, roundHalfEven_pos hm]
      clear hpos hdef
      by_cases hE : e' = decEtiny
      · rw [hE] at hk ⊢
        rw [two_pow_lt (by omega)]
      · have hnd : ((e' - e).toNat : Int) = ndigits m.natAbs - 999 := by
          have : (abiDecimalPrec : Int) = 999 := rfl
          omega
        have h1 : 10 ^ (ndigits m.natAbs - 1) ≤ m.natAbs := ndigits_le' (by omega)
        have h2 : 10 ^ (e' - e).toNat ≤ 10 ^ (ndigits m.natAbs - 1) := Nat.pow_le_pow_right (by decide) (by omega)
        have h3 : ((10 ^ (e' - e).toNat : Nat) : Int) ≤ m := by omega
        push_cast at h3
        refine ⟨fun _ => ?_, fun _ => by omega⟩
        by_cases h4 : e ≤ decEtiny
        · rw [two_pow_lt h4]
          have h5 : (10 : Int) ^ (decEtiny - e).toNat ≤ 10 ^ (e' - e).toNat :=
            pow_le_pow_right₀ (by norm_num) (by omega)
          omega
        · exact hbig _ (by omega)

/-- What is left of `x` after taking away the greatest multiple of `10^-n` not above it. -/
theorem decRem_pos {n : Nat} (hn : n ≤ 80) {x : Dec10} (h0 : 0 ≤ x.V) {r : Dec10} (hr : decRem x (tenPowNeg n) = .ok r) :
    0 < r.1 ↔ (10 : ℚ) ^ decEtiny / 2 < x.V - (⌊x.V * 10 ^ n⌋ : ℚ) * 10 ^ (-(n : Int)) := by
  obtain ⟨m, e⟩ := x
  obtain ⟨f, hf⟩ : ∃ f, f = min e (-(n : Int)) := ⟨_, rfl⟩
  have hdef : decRem (m, e) (tenPowNeg n) =
      if 10 ^ abiDecimalPrec ≤
          ((m * 10 ^ (e - f).toNat).tdiv (1 * 10 ^ (-(n : Int) - f).toNat)).natAbs then
        .error .decimalInvalidOperation
      else ctxFinal ((m * 10 ^ (e - f).toNat).tmod (1 * 10 ^ (-(n : Int) - f).toNat), f) := by
    subst hf; rfl
  rw [hdef] at hr
  clear hdef
  have hXV : Dec10.V (m, e) = ((m * 10 ^ (e - f).toNat : Int) : ℚ) * 10 ^ f :=
    V_shift m e f (by omega)
  have hYV : (10 : ℚ) ^ (-(n : Int)) = ((1 * 10 ^ (-(n : Int) - f).toNat : Int) : ℚ) * 10 ^ f := by
    have := V_shift 1 (-(n : Int)) f (by omega)
    rw [Dec10.V] at this
    simpa using this
  have hYpos : (0 : Int) < 1 * 10 ^ (-(n : Int) - f).toNat := by positivity
  have hm : 0 ≤ m := (V_nonneg_iff (m, e)).1 h0
  have hX0 : 0 ≤ m * 10 ^ (e - f).toNat := mul_nonneg hm (by positivity)
  generalize m * 10 ^ (e - f).toNat = X at *
  generalize (1 * 10 ^ (-(n : Int) - f).toNat : Int) = Y at *
  have hYq : (0 : ℚ) < Y := by exact_mod_cast hYpos
  have h10 := ten_zpow_pos f
  have hdiv : Dec10.V (m, e) * 10 ^ n = (X : ℚ) / Y := by
    rw [eq_div_iff hYq.ne', hXV]
    have h1 : (10 : ℚ) ^ n * 10 ^ (-(n : Int)) = 1 := by
      rw [← zpow_natCast, ← zpow_add₀ (by norm_num)]; simp
    rw [hYV] at h1
    rw [show (X : ℚ) * 10 ^ f * 10 ^ n * Y = X * (10 ^ n * (Y * 10 ^ f)) by ring, h1, mul_one]
  have hfl : ⌊Dec10.V (m, e) * 10 ^ n⌋ = X / Y := by
    rw [hdiv]
    obtain ⟨y, rfl⟩ : ∃ y : Nat, Y = y := ⟨Y.toNat, by omega⟩
    rw [Int.cast_natCast]
    exact Rat.floor_intCast_div_natCast X y
  split at hr
  · cases hr
  · have hmod : X.tmod Y = X % Y := Int.tmod_eq_emod_of_nonneg hX0
    rw [hmod] at hr
    have hres : Dec10.V (m, e) - (⌊Dec10.V (m, e) * 10 ^ n⌋ : ℚ) * 10 ^ (-(n : Int)) = Dec10.V (X % Y, f) := by
      rw [hfl, hXV, hYV, Dec10.V]
      have := Int.emod_add_mul_ediv X Y
      have hq : ((X % Y : Int) : ℚ) + Y * ((X / Y : Int) : ℚ) = X := by exact_mod_cast this
      simp only
      rw [← hq]
      ring
    rw [hres]
    rcases (Int.emod_nonneg X hYpos.ne').lt_or_eq with h | h
    · exact ctxFinal_pos h hr
    · rw [← h] at hr ⊢
      rw [ctxFinal, if_pos rfl] at hr
      cases hr
      rw [V_zero]
      have := ten_zpow_pos decEtiny
      constructor
      · intro h; exact absurd h (lt_irrefl _)
      · intro h; linarith

end EthAbi
