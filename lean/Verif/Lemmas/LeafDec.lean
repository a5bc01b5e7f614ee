import Verif.Lemmas.DecOf

/-! # Decoding a word of an elementary type inverts its encoding, and accepts nothing else -/
namespace EthAbi
open Spec

theorem wordOf_unsigned {k : Nat} (hk : k ≤ 32) {i : Int} (h : fitsU (8 * k) i) :
    wordOf i = List.replicate (32 - k) 0 ++ beN k i.toNat := by
  obtain ⟨h0, h1⟩ := h
  have h2 : i.toNat < 256 ^ k := by
    have : (i.toNat : Int) < ((256 ^ k : Nat) : Int) := by
      rw [pow_256_int, Int.toNat_of_nonneg h0]; exact h1
    exact_mod_cast this
  have h3 : i < 2 ^ 256 := lt_of_lt_of_le h1 (by
    have : (2 : Int) ^ (8 * k) ≤ 2 ^ (8 * 32) := pow_le_pow_right₀ (by norm_num) (by omega)
    simpa using this)
  rw [wordOf, Int.emod_eq_of_lt h0 h3, be32_eq, ← beN_small h2]
  congr 1; omega

theorem wordOf_negative {k : Nat} (hk : k ≤ 32) (hk0 : 0 < k) {i : Int} (h0 : -2 ^ (8 * k - 1) ≤ i)
    (h1 : i < 0) :
    wordOf i = List.replicate (32 - k) 0xff ++ beN k (i + 2 ^ (8 * k)).toNat := by
  have hpow : (2 : Int) ^ (8 * k) = 2 * 2 ^ (8 * k - 1) := by
    rw [← pow_succ']; congr 1; omega
  have hpos : (0 : Int) < 2 ^ (8 * k - 1) := by positivity
  have hmod : i % 2 ^ (8 * k) = i + 2 ^ (8 * k) := by
    rw [← Int.add_emod_right]
    exact Int.emod_eq_of_lt (by linarith) (by linarith)
  have hfp := fpad_beBytes hk0 hk h0 h1
  rw [hmod] at hfp
  obtain ⟨n, hn⟩ := Int.eq_ofNat_of_zero_le (show 0 ≤ i + 2 ^ (8 * k) by linarith)
  rw [hn, Int.toNat_natCast] at hfp
  rw [hn, Int.toNat_natCast]
  have hn1 : n < 256 ^ k := by
    have : (n : Int) < ((256 ^ k : Nat) : Int) := by rw [pow_256_int, ← hn]; linarith
    exact_mod_cast this
  have hn2 : 256 ^ (k - 1) ≤ n := by
    have e : (2 : Int) ^ (8 * k - 1) = 128 * 2 ^ (8 * (k - 1)) := by
      rw [show (128 : Int) = 2 ^ 7 by norm_num, ← pow_add]; congr 1; omega
    have hp : (0 : Int) < 2 ^ (8 * (k - 1)) := by positivity
    have : ((256 ^ (k - 1) : Nat) : Int) ≤ n := by rw [pow_256_int, ← hn]; linarith
    exact_mod_cast this
  have := fpad_intToBigEndian (a := 32 - k) hk0 hn1 hn2
  rw [show 32 - k + k = 32 by omega] at this
  rw [wordOf_eq, ← hfp, this]

theorem leafU_iff {n k : Nat} (hn : n = 8 * k) (hk : k ≤ 32) {raw : Bytes} (hr : raw.length = 32)
    {x : Val} : leafU n raw = .ok x ↔ ∃ i, x = .num i ∧ fitsU n i ∧ wordOf i = raw := by
  subst hn
  have hdiv : 8 * k / 8 = k := by omega
  simp only [leafU, hdiv]
  have hb : (raw.drop (32 - k)).length = k := by simp [hr]; omega
  constructor
  · intro h
    split at h
    · next ha =>
      injection h with h
      subst h
      have hf : fitsU (8 * k) (bigEndianToInt (raw.drop (32 - k))) := by
        refine ⟨by omega, ?_⟩
        have := bigEndianToInt_lt (raw.drop (32 - k))
        rw [hb] at this
        rw [← pow_256_int]
        exact_mod_cast this
      refine ⟨_, rfl, hf, ?_⟩
      rw [wordOf_unsigned hk hf, Int.toNat_natCast, beN_bigEndianToInt' _ hb, ← ha,
        List.take_append_drop]
    · cases h
  · rintro ⟨i, rfl, hf, rfl⟩
    rw [wordOf_unsigned hk hf]
    have ha : (List.replicate (32 - k) (0 : UInt8)).length = 32 - k := by simp
    rw [List.take_left' ha, if_pos rfl, List.drop_left' ha, bigEndianToInt_beN, Nat.mod_eq_of_lt,
      Int.toNat_of_nonneg hf.1]
    have : (i.toNat : Int) < ((256 ^ k : Nat) : Int) := by
      rw [pow_256_int, Int.toNat_of_nonneg hf.1]; exact hf.2
    exact_mod_cast this

theorem toSigned_spec {k : Nat} (hk0 : 0 < k) {b : Bytes} (hb : b.length = k) :
    fitsS (8 * k) (toSigned (8 * k) b) ∧
      (toSigned (8 * k) b < 0 → (toSigned (8 * k) b + 2 ^ (8 * k)).toNat = bigEndianToInt b) ∧
      (0 ≤ toSigned (8 * k) b → (toSigned (8 * k) b).toNat = bigEndianToInt b) := by
  have hlt := bigEndianToInt_lt b
  rw [hb] at hlt
  have hlt' : (bigEndianToInt b : Int) < 2 ^ (8 * k) := by
    rw [← pow_256_int]; exact_mod_cast hlt
  have hpow : (2 : Int) ^ (8 * k) = 2 * 2 ^ (8 * k - 1) := by
    rw [← pow_succ']; congr 1; omega
  have hpos : (0 : Int) < 2 ^ (8 * k - 1) := by positivity
  simp only [toSigned, fitsS]
  generalize hN : bigEndianToInt b = N at *
  split
  · next h =>
    have h' : (2 : Int) ^ (8 * k - 1) ≤ N := by exact_mod_cast h
    generalize (2 : Int) ^ (8 * k - 1) = P at *
    rw [hpow] at hlt' ⊢
    omega
  · next h =>
    have h' : (N : Int) < 2 ^ (8 * k - 1) := by exact_mod_cast Nat.lt_of_not_le h
    generalize (2 : Int) ^ (8 * k - 1) = P at *
    omega

theorem toSigned_beN {k : Nat} (hk0 : 0 < k) {i : Int} (hf : fitsS (8 * k) i) :
    toSigned (8 * k) (beN k (if i < 0 then i + 2 ^ (8 * k) else i).toNat) = i := by
  have hpow : (2 : Int) ^ (8 * k) = 2 * 2 ^ (8 * k - 1) := by
    rw [← pow_succ']; congr 1; omega
  have hpos : (0 : Int) < 2 ^ (8 * k - 1) := by positivity
  obtain ⟨h1, h2⟩ := hf
  obtain ⟨N, hN⟩ : ∃ N : Nat, (if i < 0 then i + 2 ^ (8 * k) else i) = N := by
    apply Int.eq_ofNat_of_zero_le
    split <;> linarith
  rw [hN, Int.toNat_natCast]
  have hNlt : N < 256 ^ k := by
    have : (N : Int) < ((256 ^ k : Nat) : Int) := by
      rw [pow_256_int, ← hN]
      split <;> linarith
    exact_mod_cast this
  simp only [toSigned, bigEndianToInt_beN, Nat.mod_eq_of_lt hNlt]
  split
  · next h =>
    have h' : (2 : Int) ^ (8 * k - 1) ≤ N := by exact_mod_cast h
    split at hN
    · linarith
    · linarith
  · next h =>
    have h' : (N : Int) < 2 ^ (8 * k - 1) := by exact_mod_cast Nat.lt_of_not_le h
    split at hN
    · linarith
    · linarith

theorem leafS_iff {n k : Nat} (hn : n = 8 * k) (hk : k ≤ 32) (hk0 : 0 < k) {raw : Bytes}
    (hr : raw.length = 32) {x : Val} :
    leafS n raw = .ok x ↔ ∃ i, x = .num i ∧ fitsS n i ∧ wordOf i = raw := by
  subst hn
  have hdiv : 8 * k / 8 = k := by omega
  have hdef : leafS (8 * k) raw =
      if raw.take (32 - k) = List.replicate (32 - k)
        (if toSigned (8 * k) (raw.drop (32 - k)) < 0 then 0xff else 0) then
        .ok (.num (toSigned (8 * k) (raw.drop (32 - k)))) else .error .nonEmptyPaddingBytes := by
    simp only [leafS, hdiv]
  rw [hdef]
  have hb : (raw.drop (32 - k)).length = k := by simp [hr]; omega
  have hword : ∀ i, fitsS (8 * k) i →
      wordOf i = List.replicate (32 - k) (if i < 0 then 0xff else 0) ++
        beN k (if i < 0 then i + 2 ^ (8 * k) else i).toNat := by
    intro i hf
    by_cases hi : i < 0
    · rw [if_pos hi, if_pos hi]
      exact wordOf_negative hk hk0 hf.1 hi
    · rw [if_neg hi, if_neg hi]
      refine wordOf_unsigned hk ⟨by omega, lt_of_lt_of_le hf.2 ?_⟩
      exact pow_le_pow_right₀ (by norm_num) (by omega)
  constructor
  · intro h
    obtain ⟨h1, h2, h3⟩ := toSigned_spec hk0 hb
    by_cases ha : raw.take (32 - k) = List.replicate (32 - k)
        (if toSigned (8 * k) (raw.drop (32 - k)) < 0 then 0xff else 0)
    · rw [if_pos ha] at h
      injection h with h
      subst h
      refine ⟨_, rfl, h1, ?_⟩
      rw [hword _ h1, ← ha]
      conv_rhs => rw [← List.take_append_drop (32 - k) raw]
      congr 1
      by_cases hi : toSigned (8 * k) (raw.drop (32 - k)) < 0
      · rw [if_pos hi, h2 hi, beN_bigEndianToInt' _ hb]
      · rw [if_neg hi, h3 (by omega), beN_bigEndianToInt' _ hb]
    · rw [if_neg ha] at h; cases h
  · rintro ⟨i, rfl, hf, rfl⟩
    rw [hword i hf]
    have ha : (List.replicate (32 - k) (if i < 0 then (0xff : UInt8) else 0)).length = 32 - k := by simp
    rw [List.take_left' ha, List.drop_left' ha, toSigned_beN hk0 hf, if_pos rfl]

theorem validBits_k {n : Nat} (h : validBits n) : ∃ k, n = 8 * k ∧ 0 < k ∧ k ≤ 32 := by
  obtain ⟨h1, h2, h3⟩ := h
  exact ⟨n / 8, by omega, by omega, by omega⟩

/-- The elementary static types. -/
def Spec.Ty.isLeaf : Ty → Bool
  | .uint _ | .int _ | .address | .bool | .ufixed _ _ | .fixed _ _ | .bytesM _ => true
  | _ => false

theorem leafDec_iff {t : Ty} (hl : t.isLeaf = true) (hv : t.Valid) {raw : Bytes}
    (hr : raw.length = 32) {x : Val} : leafDec t raw = .ok x ↔ Val.Of t x ∧ enc t x = raw := by
  cases t <;> simp only [Ty.isLeaf] at hl <;> try cases hl
  all_goals simp only [Ty.Valid] at hv
  · -- uint
    obtain ⟨k, hk, hk0, hk32⟩ := validBits_k hv
    simp only [leafDec, leafU_iff hk hk32 hr]
    constructor
    · rintro ⟨i, rfl, h1, h2⟩; exact ⟨h1, h2⟩
    · cases x <;> simp only [Val.Of] <;> try (rintro ⟨⟨⟩, _⟩; done)
      rintro ⟨h1, h2⟩; exact ⟨_, rfl, h1, h2⟩
  · -- int
    obtain ⟨k, hk, hk0, hk32⟩ := validBits_k hv
    simp only [leafDec, leafS_iff hk hk32 hk0 hr]
    constructor
    · rintro ⟨i, rfl, h1, h2⟩; exact ⟨h1, h2⟩
    · cases x <;> simp only [Val.Of] <;> try (rintro ⟨⟨⟩, _⟩; done)
      rintro ⟨h1, h2⟩; exact ⟨_, rfl, h1, h2⟩
  · -- address
    simp only [leafDec]
    constructor
    · intro h
      split at h
      · next ha =>
        injection h with h; subst h
        refine ⟨by simp [Val.Of, hr], ?_⟩
        rw [enc, ← ha, List.take_append_drop]
      · cases h
    · cases x <;> simp only [Val.Of] <;> try (rintro ⟨⟨⟩, _⟩; done)
      rintro ⟨h1, rfl⟩
      rw [enc, List.take_left' (by simp), if_pos rfl, List.drop_left' (by simp)]
  · -- bool
    simp only [leafDec]
    have hU := @leafU_iff 8 1 rfl (by omega) raw hr x
    constructor
    · intro h
      split at h
      · next h0 =>
        obtain ⟨i, rfl, h1, h2⟩ := hU.1 h
        refine ⟨?_, h2⟩
        have h3 := wordOf_unsigned (k := 1) (by omega) h1
        rw [h2] at h3
        rw [h3, List.drop_left' (by simp)] at h0
        simp only [beN, List.nil_append, List.cons.injEq, and_true] at h0
        simp only [fitsU] at h1
        have e : (i.toNat : Int) = i := Int.toNat_of_nonneg h1.1
        have hn : i.toNat < 256 := by omega
        rcases h0 with h0 | h0 <;> have h0 := congrArg UInt8.toNat h0 <;>
          rw [toNat_ofNat_lt hn] at h0 <;> simp only [Val.Of] <;> simp at h0 <;> omega
      · cases h
    · cases x <;> simp only [Val.Of] <;> try (rintro ⟨⟨⟩, _⟩; done)
      rename_i i
      rintro ⟨h1, h2⟩
      have hf : fitsU 8 i := by rcases h1 with rfl | rfl <;> simp [fitsU]
      rw [if_pos, hU.2 ⟨i, rfl, hf, h2⟩]
      have h3 := wordOf_unsigned (k := 1) (by omega) hf
      rw [show wordOf i = raw from h2] at h3
      rw [h3, List.drop_left' (by simp)]
      rcases h1 with rfl | rfl <;> simp [beN]
  · -- ufixed
    obtain ⟨k, hk, hk0, hk32⟩ := validBits_k hv.1
    simp only [leafDec, leafU_iff hk hk32 hr]
    constructor
    · rintro ⟨i, rfl, h1, h2⟩; exact ⟨h1, h2⟩
    · cases x <;> simp only [Val.Of] <;> try (rintro ⟨⟨⟩, _⟩; done)
      rintro ⟨h1, h2⟩; exact ⟨_, rfl, h1, h2⟩
  · -- fixed
    obtain ⟨k, hk, hk0, hk32⟩ := validBits_k hv.1
    simp only [leafDec, leafS_iff hk hk32 hk0 hr]
    constructor
    · rintro ⟨i, rfl, h1, h2⟩; exact ⟨h1, h2⟩
    · cases x <;> simp only [Val.Of] <;> try (rintro ⟨⟨⟩, _⟩; done)
      rintro ⟨h1, h2⟩; exact ⟨_, rfl, h1, h2⟩
  · -- bytesM
    rename_i m
    simp only [leafDec]
    constructor
    · intro h
      split at h
      · next ha =>
        injection h with h; subst h
        have hlen : (raw.take m).length = m := by simp [hr]; omega
        refine ⟨hlen, ?_⟩
        rw [enc, padRight32_short hlen hv.1 hv.2, ← ha, List.take_append_drop]
      · cases h
    · cases x <;> simp only [Val.Of] <;> try (rintro ⟨⟨⟩, _⟩; done)
      rintro ⟨h1, rfl⟩
      rw [enc, padRight32_short h1 hv.1 hv.2, List.take_left' h1, List.drop_left' h1, if_pos rfl]

theorem leafDec_error {t : Ty} (hl : t.isLeaf = true) {raw : Bytes} {e : Exc}
    (h : leafDec t raw = .error e) : e = .nonEmptyPaddingBytes := by
  cases t <;> simp only [Ty.isLeaf] at hl <;> try cases hl
  all_goals simp only [leafDec, leafU, leafS] at h
  all_goals (repeat' split at h) <;> cases h <;> rfl

theorem posDec_leaf {t : Ty} (hl : t.isLeaf = true) (strict : Bool) (d : Bytes) (p : Nat) :
    posDec strict t d p = (bytesAt d p 32 >>= leafDec t) := by
  cases t <;> simp only [Ty.isLeaf] at hl <;> first | cases hl; done | rfl

end EthAbi
