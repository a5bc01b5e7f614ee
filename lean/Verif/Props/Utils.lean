import Verif.Props.Examples
import Verif.Lemmas.LeafSpec
import Verif.Lemmas.DecimalValue
import Verif.Spec.Leaves
import Mathlib.Order.Bounds.Basic

/-!
# C37: the padding helpers, for every integer and every byte string

`beValue` (Verif/Spec/Leaves.lean) is the number that a byte string spells in big-endian.
-/
namespace EthAbi
open Spec

/-- **C37.**  `ceil32(x)` is the least multiple of 32 that is at least `x`. -/
theorem C37_ceil32 (x : Int) : IsLeast {m : Int | 32 ∣ m ∧ x ≤ m} (ceil32Int x) := by
  have hdef : ceil32Int x = if x % 32 = 0 then x else x + 32 - (x % 32) := rfl
  constructor
  · constructor
    · rw [hdef]; split <;> omega
    · rw [hdef]; split <;> omega
  · rintro m ⟨h1, h2⟩
    rw [hdef]; split <;> omega

/-- **C37.**  `zpad(value, length)` ends in `value`, has nothing but zeros in front of it, and has the
greater of the two lengths. -/
theorem C37_zpad (value : Bytes) (length : Int) :
    ∃ k, zpadInt value length = List.replicate k 0 ++ value ∧
      ((zpadInt value length).length : Int) = max (value.length : Int) length := by
  refine ⟨_, rfl, ?_⟩
  simp only [zpadInt, rjust, List.length_append, List.length_replicate]
  omega

/-- **C37.**  `zpad_right(value, length)` begins with `value`, has nothing but zeros after it, and has
the greater of the two lengths. -/
theorem C37_zpad_right (value : Bytes) (length : Int) :
    ∃ k, zpadRightInt value length = value ++ List.replicate k 0 ∧
      ((zpadRightInt value length).length : Int) = max (value.length : Int) length := by
  refine ⟨_, rfl, ?_⟩
  simp only [zpadRightInt, ljust, List.length_append, List.length_replicate]
  omega

/-- **C37.**  `fpad(value, length)` ends in `value`, has nothing but `0xff` in front of it, and has the
greater of the two lengths. -/
theorem C37_fpad (value : Bytes) (length : Int) :
    ∃ k, fpadInt value length = List.replicate k 0xff ++ value ∧
      ((fpadInt value length).length : Int) = max (value.length : Int) length := by
  refine ⟨_, rfl, ?_⟩
  simp only [fpadInt, rjust, List.length_append, List.length_replicate]
  omega

/-- **C37.**  `zpad32`, `zpad32_right` and `fpad32` pad to 32 bytes, and padding twice is the same as
padding once. -/
theorem C37_pad32 (value : Bytes) :
    (zpad32 value).length = max value.length 32 ∧ (zpad32Right value).length = max value.length 32 ∧
    (fpad32 value).length = max value.length 32 ∧ zpad32 (zpad32 value) = zpad32 value ∧
    zpad32Right (zpad32Right value) = zpad32Right value ∧ fpad32 (fpad32 value) = fpad32 value := by
  have h : ∀ (f : UInt8), (rjust value 32 f).length = max value.length 32 ∧
      rjust (rjust value 32 f) 32 f = rjust value 32 f := by
    intro f
    have h1 : (rjust value 32 f).length = max value.length 32 := by
      simp only [rjust, List.length_append, List.length_replicate]; omega
    refine ⟨h1, ?_⟩
    rw [rjust, h1, show ((32 : Int) - (max value.length 32 : Nat)).toNat = 0 by omega]
    rfl
  have h2 : (ljust value 32 0).length = max value.length 32 := by
    simp only [ljust, List.length_append, List.length_replicate]; omega
  refine ⟨(h 0).1, h2, (h 0xff).1, (h 0).2, ?_, (h 0xff).2⟩
  show ljust (ljust value 32 0) 32 0 = ljust value 32 0
  rw [ljust, h2, show ((32 : Int) - (max value.length 32 : Nat)).toNat = 0 by omega]
  exact List.append_nil _

theorem bigEndianToInt_zeros (k : Nat) : bigEndianToInt (List.replicate k 0) = 0 := by
  induction k with
  | zero => rfl
  | succ k ih =>
    rw [List.replicate_succ', bigEndianToInt_append_singleton, ih]; rfl

theorem bigEndianToInt_ones (k : Nat) : bigEndianToInt (List.replicate k 0xff) + 1 = 256 ^ k := by
  induction k with
  | zero => rfl
  | succ k ih =>
    rw [List.replicate_succ', bigEndianToInt_append_singleton, pow_succ]
    have : (0xff : UInt8).toNat = 255 := rfl
    omega

/-- **C37.**  `zpad` does not change the number that the bytes spell. -/
theorem C37_zpad_value (value : Bytes) (length : Int) :
    beValue (zpadInt value length) = beValue value := by
  rw [beValue_eq, beValue_eq, zpadInt, rjust, bigEndianToInt_append, bigEndianToInt_zeros]
  omega

/-- **C37.**  `fpad` does not change the negative number that the bytes spell in two's complement. -/
theorem C37_fpad_value (value : Bytes) (length : Int) :
    (beValue (fpadInt value length) : Int) - 256 ^ (fpadInt value length).length =
      (beValue value : Int) - 256 ^ value.length := by
  rw [beValue_eq, beValue_eq, fpadInt, rjust, bigEndianToInt_append, List.length_append, pow_add]
  have := bigEndianToInt_ones (length - value.length).toNat
  rw [List.length_replicate]
  generalize bigEndianToInt (List.replicate (length - value.length).toNat 0xff) = a at *
  have h2 : ((256 : Int) ^ (length - ↑value.length).toNat) = a + 1 := by exact_mod_cast this.symm
  rw [h2]
  push_cast
  ring

/-- **C37.**  The encoders use the helpers with lengths that are not negative. -/
theorem C37_lengths (value : Bytes) (n : Nat) :
    zpadInt value n = zpad value n ∧ zpadRightInt value n = zpadRight value n ∧
      fpadInt value n = fpad value n ∧ ceil32Int n = ceil32 n := by
  have h : ((n : Int) - value.length).toNat = n - value.length := by omega
  refine ⟨by rw [zpadInt, rjust, h, zpad], by rw [zpadRightInt, ljust, h, zpadRight],
    by rw [fpadInt, rjust, h, fpad], ?_⟩
  have h1 : ceil32Int n = if (n : Int) % 32 = 0 then (n : Int) else n + 32 - (n % 32) := rfl
  have h2 : ceil32 n = if n % 32 = 0 then n else n + 32 - (n % 32) := rfl
  rw [h1, h2]
  split <;> split <;> omega

/-- **C37.**  What `abbr` returns is never longer than `limit`. -/
theorem C37_abbr (rep r : List Char) (limit : Int) (h : abbr rep limit = .ok r) :
    (r.length : Int) ≤ limit := by
  unfold abbr at h
  split at h
  · split at h
    · cases h
    · cases h
      simp only [List.length_append, List.length_take, List.length_cons, List.length_nil]
      omega
  · cases h
    omega

/-- **C37.**  `abbr` returns a representation that is short enough unchanged; it shortens any other to
exactly `limit` characters, a prefix of it and three dots, and raises `ValueError` if there is no
room for the dots. -/
theorem C37_abbr_cases (rep : List Char) (limit : Int) :
    ((rep.length : Int) ≤ limit → abbr rep limit = .ok rep) ∧
    (limit < rep.length → limit < 3 → abbr rep limit = .error .valueError) ∧
    (limit < rep.length → 3 ≤ limit → ∃ p, p <+: rep ∧ (p.length : Int) = limit - 3 ∧
      abbr rep limit = .ok (p ++ ['.', '.', '.'])) := by
  refine ⟨fun h => ?_, fun h h3 => ?_, fun h h3 => ?_⟩
  · rw [abbr, if_neg (by omega)]
  · rw [abbr, if_pos h, if_pos h3]
  · refine ⟨rep.take (limit - 3).toNat, List.take_prefix _ _, ?_, ?_⟩
    · rw [List.length_take]; omega
    · rw [abbr, if_pos h, if_neg (by omega)]

/-- **C37.**  `scale_places(places)`, for a positive or negative number of places, divides by ten to that
power exactly, for every number of up to 999 digits as long as neither the power nor the result leaves the range of
exponents. -/
theorem C37_scale_places (places m e : Int) (hm : m.natAbs < 10 ^ 999) (hlow : -1000997 ≤ e - places)
    (hhigh : e - places ≤ 999001) (h1 : -999999 ≤ places) (h2 : places ≤ 1000997) :
    ∃ y, scalePlaces places (m, e) = .ok y ∧ decValue y = decValue (m, e) / 10 ^ places := by
  obtain ⟨y, hy, hv⟩ := scalePlaces_value (places := places) (m := m) (e := e) hm (by simp only [decEtiny]; omega)
    hhigh h1 (by simp only [decEtiny]; omega)
  refine ⟨y, hy, ?_⟩
  have : decValue y = y.V := rfl
  rw [this, hv, zpow_sub₀ (by norm_num)]
  simp only [decValue]
  ring

/-- **C37.**  Beyond the range of exponents, `scale_places` raises `decimal.Overflow`. -/
theorem C37_scale_places_overflow (places : Int) (h : places < -999999) (x : Dec10) :
    scalePlaces places x = .error .decimalOverflow := by
  rw [scalePlaces, tenPowInt_overflow (by omega), error_bind]

/-- **C37.**  Scaling back gives the same number, as long as no exponent leaves the range. -/
theorem C37_scale_back (places m e : Int) (hm : m.natAbs < 10 ^ 999) (hp : |places| ≤ 999999)
    (hlow : -1000997 ≤ e - places) (hhigh : e - places ≤ 999001)
    (y : Dec10) (h : scalePlaces places (m, e) = .ok y) (hy : y.1.natAbs < 10 ^ 999)
    (hylow : -1000997 ≤ y.2 + places) (hyhigh : y.2 + places ≤ 999001) :
    ∃ z, scalePlaces (-places) y = .ok z ∧ decValue z = decValue (m, e) := by
  rw [abs_le] at hp
  obtain ⟨y', h', hv⟩ := C37_scale_places places m e hm hlow hhigh (by omega) (by omega)
  obtain rfl : y = y' := by rw [h] at h'; exact Except.ok.inj h'
  obtain ⟨z, hz, hw⟩ := C37_scale_places (-places) y.1 y.2 hy (by omega) (by omega) (by omega) (by omega)
  refine ⟨z, hz, ?_⟩
  rw [hw, show (y.1, y.2) = y from rfl, hv, zpow_neg, div_inv_eq_mul, div_mul_cancel₀]
  exact zpow_ne_zero _ (by norm_num)

/-! Concrete cases. -/

example : IsLeast {m : Int | 32 ∣ m ∧ (-33) ≤ m} (-32) := C37_ceil32 (-33)
example : ceil32Int 33 = 64 ∧ zpadInt [1, 2] 4 = [0, 0, 1, 2] ∧ zpadRightInt [1, 2] (-1) = [1, 2] ∧
    fpadInt [0x80] 2 = [0xff, 0x80] := by decide
example : (beValue [0xff, 0x80] : Int) - 256 ^ 2 = -128 := C37_fpad_value [0x80] 2
example : abbr t!"b'abcdef'" 6 = .ok t!"b'a..." ∧ abbr t!"123" 2 = .error .valueError ∧
    abbr t!"12" 2 = .ok t!"12" := by decide
example : ((t!"b'a...").length : Int) ≤ 6 := C37_abbr t!"b'abcdef'" _ 6 (by decide)
example : scalePlaces 18 (-12345, 0) = .ok (-12345, -18) ∧ scalePlaces (-3) (-12345, -2) = .ok (-12345000, -2) := by
  decide +kernel
example : ∃ y, scalePlaces 18 (-12345, 0) = .ok y ∧ decValue y = decValue (-12345, 0) / 10 ^ (18 : Int) :=
  C37_scale_places 18 (-12345) 0 (lt_of_lt_of_le (b := 10 ^ 5) (by decide)
    (Nat.pow_le_pow_right (by decide) (by decide))) (by decide) (by decide) (by decide) (by decide)
example : ∃ z, scalePlaces (-18) (-12345, -18) = .ok z ∧ decValue z = decValue (-12345, 0) :=
  have h : (-12345 : Int).natAbs < 10 ^ 999 := lt_of_lt_of_le (b := 10 ^ 5) (by decide)
    (Nat.pow_le_pow_right (by decide) (by decide))
  C37_scale_back 18 (-12345) 0 h (by decide) (by decide) (by decide) (-12345, -18) (by decide +kernel) h (by decide)
    (by decide)
/-- A power that is out of range. -/
example : scalePlaces (-1000000) (1, -5) = .error .decimalOverflow := C37_scale_places_overflow _ (by decide) _

end EthAbi
