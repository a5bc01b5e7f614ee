import Verif.Model.Encoding
import Verif.Model.Decoding
import Verif.Spec.Abi
import Verif.Lemmas.Printable
import Mathlib.Data.List.Induction
import Mathlib.Tactic.Ring
import Mathlib.Tactic.Linarith

/-! # Big-endian numbers and padding -/
namespace EthAbi
open Spec

/-- The `k`-byte big-endian form of `n` modulo `256^k`. -/
def beN : Nat → Nat → Bytes
  | 0, _ => []
  | k + 1, n => beN k (n / 256) ++ [UInt8.ofNat n]

@[simp] theorem beN_length (k n : Nat) : (beN k n).length = k := by
  induction k generalizing n with
  | zero => rfl
  | succ k ih => simp [beN, ih]

theorem beN_eq_map (k n : Nat) :
    beN k n = (List.range k).map fun i => UInt8.ofNat (n / 256 ^ (k - 1 - i)) := by
  induction k generalizing n with
  | zero => rfl
  | succ k ih =>
    rw [beN, ih, List.range_succ, List.map_append]
    congr 1
    · apply List.map_congr_left
      intro i hi
      have hi : i < k := List.mem_range.mp hi
      rw [Nat.div_div_eq_div_mul, ← Nat.pow_succ']
      congr 3
      omega
    · simp

theorem be32_eq (n : Nat) : be32 n = beN 32 n := by rw [beN_eq_map]; rfl

@[simp] theorem be32_length (n : Nat) : (be32 n).length = 32 := by rw [be32_eq, beN_length]

@[simp] theorem wordOf_length (i : Int) : (wordOf i).length = 32 := by simp [wordOf]

theorem bigEndianToInt_append_singleton (b : Bytes) (x : UInt8) :
    bigEndianToInt (b ++ [x]) = bigEndianToInt b * 256 + x.toNat := by
  simp [bigEndianToInt, List.foldl_append]

theorem foldl_be (b : Bytes) (a : Nat) :
    b.foldl (fun acc x => acc * 256 + x.toNat) a = a * 256 ^ b.length + bigEndianToInt b := by
  induction b generalizing a with
  | nil => simp [bigEndianToInt]
  | cons x b ih =>
    simp only [bigEndianToInt, List.foldl_cons, List.length_cons]
    rw [ih, ih (0 * 256 + x.toNat)]
    ring

theorem bigEndianToInt_append (a b : Bytes) :
    bigEndianToInt (a ++ b) = bigEndianToInt a * 256 ^ b.length + bigEndianToInt b := by
  rw [bigEndianToInt, List.foldl_append, foldl_be]; rfl

theorem bigEndianToInt_lt (b : Bytes) : bigEndianToInt b < 256 ^ b.length := by
  induction b using List.reverseRecOn with
  | nil => simp [bigEndianToInt]
  | append_singleton b x ih =>
    rw [bigEndianToInt_append_singleton]
    have := x.toNat_lt
    simp only [List.length_append, List.length_cons, List.length_nil, Nat.zero_add, pow_succ]
    omega

theorem bigEndianToInt_beN (k n : Nat) : bigEndianToInt (beN k n) = n % 256 ^ k := by
  induction k generalizing n with
  | zero => simp [beN, bigEndianToInt, Nat.mod_one]
  | succ k ih =>
    rw [beN, bigEndianToInt_append_singleton, ih, pow_succ', Nat.mod_mul]
    simp
    omega

theorem beN_bigEndianToInt (b : Bytes) : beN b.length (bigEndianToInt b) = b := by
  induction b using List.reverseRecOn with
  | nil => rfl
  | append_singleton b x ih =>
    rw [List.length_append, List.length_singleton, beN, bigEndianToInt_append_singleton]
    have := x.toNat_lt
    have h1 : (bigEndianToInt b * 256 + x.toNat) / 256 = bigEndianToInt b := by omega
    rw [h1, ih]
    congr 2
    apply UInt8.toNat_inj.mp
    simp

theorem beN_bigEndianToInt' {k : Nat} (b : Bytes) (h : b.length = k) :
    beN k (bigEndianToInt b) = b := by subst h; exact beN_bigEndianToInt b

theorem beN_zero (k : Nat) : beN k 0 = List.replicate k 0 := by
  induction k with
  | zero => rfl
  | succ k ih => rw [beN, Nat.zero_div, ih, List.replicate_succ']; rfl

/-- Splitting off the high bytes. -/
theorem beN_add (a b n : Nat) : beN (a + b) n = beN a (n / 256 ^ b) ++ beN b n := by
  induction b generalizing n with
  | zero => simp [beN]
  | succ b ih =>
    rw [← Nat.add_assoc, beN, ih, beN, List.append_assoc, Nat.div_div_eq_div_mul, pow_succ']

theorem beN_mod (k n : Nat) : beN k (n % 256 ^ k) = beN k n := by
  have h := beN_bigEndianToInt (beN k n)
  rwa [beN_length, bigEndianToInt_beN] at h

theorem beN_small {a b n : Nat} (h : n < 256 ^ b) :
    beN (a + b) n = List.replicate a 0 ++ beN b n := by
  rw [beN_add, Nat.div_eq_of_lt h, beN_zero]

theorem beN_ff (a b n : Nat) (h : n < 256 ^ b) :
    beN (a + b) (n + (256 ^ a - 1) * 256 ^ b) = List.replicate a 0xff ++ beN b n := by
  have hb : 0 < 256 ^ b := Nat.pow_pos (by omega)
  rw [beN_add]
  congr 1
  · rw [Nat.add_mul_div_right _ _ hb, Nat.div_eq_of_lt h, Nat.zero_add]
    clear h
    induction a with
    | zero => rfl
    | succ a ih =>
      have ha : 0 < 256 ^ a := Nat.pow_pos (by omega)
      have e : 256 ^ (a + 1) - 1 = (256 ^ a - 1) * 256 + 255 := by rw [pow_succ]; omega
      rw [beN, List.replicate_succ', e]
      have e2 : ((256 ^ a - 1) * 256 + 255) / 256 = 256 ^ a - 1 := by omega
      rw [e2, ih]
      congr 2
      apply UInt8.toNat_inj.mp
      simp
  · rw [← beN_mod, Nat.add_mul_mod_self_right, beN_mod]

theorem natToBEAux_spec (fuel n : Nat) (acc : Bytes) (hf : n ≤ fuel) :
    ∃ j, natToBEAux fuel n acc = beN j n ++ acc ∧ n < 256 ^ j ∧ (j = 0 ∨ 256 ^ (j - 1) ≤ n) := by
  induction fuel generalizing n acc with
  | zero =>
    have : n = 0 := by omega
    subst this
    exact ⟨0, by simp [natToBEAux, beN], by simp, Or.inl rfl⟩
  | succ fuel ih =>
    rw [natToBEAux]
    split
    · next h => subst h; exact ⟨0, by simp [beN], by simp, Or.inl rfl⟩
    · next h =>
      obtain ⟨j, h1, h2, h3⟩ := ih (n / 256) (UInt8.ofNat n :: acc) (by omega)
      refine ⟨j + 1, ?_, ?_, Or.inr ?_⟩
      · rw [h1, beN]; simp
      · rw [pow_succ]; omega
      · simp only [Nat.add_sub_cancel]
        rcases h3 with rfl | h3
        · simp; omega
        · have : 256 ^ j = 256 ^ (j - 1) * 256 := by
            rcases Nat.eq_zero_or_pos j with rfl | hj
            · simp at h2; simp at h3; omega
            · rw [← pow_succ]; congr 1; omega
          omega

theorem intToBigEndian_spec (n : Nat) :
    ∃ j, intToBigEndian n = beN j n ∧ n < 256 ^ j ∧ 0 < j ∧ (j = 1 ∨ 256 ^ (j - 1) ≤ n) := by
  rw [intToBigEndian]
  split
  · next h => subst h; exact ⟨1, rfl, by simp, by omega, Or.inl rfl⟩
  · next h =>
    obtain ⟨j, h1, h2, h3⟩ := natToBEAux_spec n n [] le_rfl
    refine ⟨j, by simpa using h1, h2, ?_, ?_⟩
    · rcases Nat.eq_zero_or_pos j with rfl | hj
      · simp at h2; omega
      · exact hj
    · rcases h3 with rfl | h3
      · simp at h2; omega
      · exact Or.inr h3

theorem j_le {j k n : Nat} (hk : 0 < k) (hn : n < 256 ^ k) (h : j = 1 ∨ 256 ^ (j - 1) ≤ n) :
    j ≤ k := by
  rcases h with rfl | h
  · omega
  · by_contra hc
    have : 256 ^ k ≤ 256 ^ (j - 1) := Nat.pow_le_pow_right (by omega) (by omega)
    omega

/-- Left-padding the minimal form gives the `k`-byte form. -/
theorem zpad_intToBigEndian {k n : Nat} (hk : 0 < k) (hn : n < 256 ^ k) :
    zpad (intToBigEndian n) k = beN k n := by
  obtain ⟨j, h1, h2, _, h4⟩ := intToBigEndian_spec n
  have hj := j_le hk hn h4
  rw [zpad, h1, beN_length, ← beN_small h2]
  congr 1; omega

/-- A number with the top byte in use has a minimal form of exactly that length. -/
theorem fpad_intToBigEndian {k a n : Nat} (hk : 0 < k) (hn : n < 256 ^ k)
    (hl : 256 ^ (k - 1) ≤ n) :
    fpad (intToBigEndian n) (a + k) = List.replicate a 0xff ++ beN k n := by
  obtain ⟨j, h1, h2, h3, h4⟩ := intToBigEndian_spec n
  have hj := j_le hk hn h4
  have hj' : k ≤ j := by
    by_contra hc
    have : 256 ^ j ≤ 256 ^ (k - 1) := Nat.pow_le_pow_right (by omega) (by omega)
    omega
  have : j = k := by omega
  subst this
  rw [fpad, h1, beN_length]
  congr 2; omega

theorem pow_256 (k : Nat) : 256 ^ k = 2 ^ (8 * k) := by
  rw [show (256 : Nat) = 2 ^ 8 from rfl, ← pow_mul]

theorem bigEndianToInt_be32 {n : Nat} (h : n < 2 ^ 256) : bigEndianToInt (be32 n) = n := by
  rw [be32_eq, bigEndianToInt_beN, pow_256]
  exact Nat.mod_eq_of_lt h

theorem be32_bigEndianToInt {b : Bytes} (h : b.length = 32) : be32 (bigEndianToInt b) = b := by
  rw [be32_eq]; exact beN_bigEndianToInt' b h

theorem wordOf_nat {n : Nat} (h : n < 2 ^ 256) : wordOf n = be32 n := by
  rw [wordOf]
  congr 1
  have : ((n : Int) % 2 ^ 256) = n := Int.emod_eq_of_lt (by omega) (by exact_mod_cast h)
  rw [this]; rfl

theorem intValidate_ok [Ext] {lo hi i : Int} (h1 : lo ≤ i) (h2 : i ≤ hi) :
    intValidate (lo, hi) (.int i) = .ok () := by
  rw [intValidate, if_neg]; simp only; omega

theorem intValidate_out [Ext] {lo hi i : Int} (h : i < lo ∨ hi < i) (h1 : PrintableInt lo)
    (h2 : PrintableInt hi) :
    intValidate (lo, hi) (.int i) = .error (shown (.int i) .valueOutOfBounds) := by
  rw [intValidate, if_pos h, if_pos (by simp only [strOk_iff, Bool.and_eq_true]; exact ⟨h1, h2⟩), invalidate_eq]

theorem printable_zero [Ext] : PrintableInt 0 := printableInt_of_lt (Nat.pow_pos (by decide))

/-- The bounds of up to 256 bits. -/
theorem printable_bound [Ext] {i : Int} (h1 : -(2 ^ 256) ≤ i) (h2 : i ≤ 2 ^ 256) : PrintableInt i := by
  apply printableInt_of_lt
  have h3 : i.natAbs ≤ 2 ^ 256 := by
    have : ((2 ^ 256 : Nat) : Int) = 2 ^ 256 := by norm_num
    omega
  exact lt_of_le_of_lt h3 (lt_of_le_of_lt (Nat.pow_le_pow_left (by norm_num) 256)
    (Nat.pow_lt_pow_right (by norm_num) (by norm_num)))

/-- `encode_uint_256`. -/
theorem encodeUint256_eq [Ext] (n : Nat) :
    encodeUint256 n = if n < 2 ^ 256 then .ok (be32 n) else .error (shown (.int n) .valueOutOfBounds) := by
  simp only [encodeUint256, fixedSizeEncode, computeUnsignedIntegerBounds]
  by_cases h : n < 2 ^ 256
  · have h' : (n : Int) < 2 ^ 256 := by exact_mod_cast h
    rw [if_pos h, intValidate_ok (by omega) (by omega)]
    have h2 : ¬ (n : Int) < 0 := by omega
    simp only [uintEncodeFn, intToBigEndian?, h2, if_false, ok_bind, Int.toNat_natCast, if_true,
      pure_eq_ok]
    rw [zpad_intToBigEndian (by omega) (by rw [pow_256]; exact h), be32_eq]
  · have h' : (2 : Int) ^ 256 ≤ n := by exact_mod_cast Nat.le_of_not_lt h
    rw [if_neg h, intValidate_out (by omega) printable_zero (printable_bound (by norm_num) (by norm_num))]; rfl

theorem ceil32_eq (n : Nat) : ceil32 n = n + (32 - n % 32) % 32 := by
  unfold ceil32; split <;> omega

theorem zpadRight_ceil32 (b : Bytes) : zpadRight b (ceil32 b.length) = padRight32 b := by
  rw [zpadRight, padRight32, ceil32_eq]; congr 2; omega

theorem padRight32_length (b : Bytes) : (padRight32 b).length = ceil32 b.length := by
  rw [padRight32, ceil32_eq]; simp

end EthAbi
