import Verif.Lemmas.EncOf

/-! # The elementary encoders -/
namespace EthAbi
open Spec

theorem beBytes_eq (k : Nat) (i : Int) : beBytes k i = beN k (i % 2 ^ (8 * k)).toNat := by
  rw [beN_eq_map]; rfl

theorem beBytes_length (k : Nat) (i : Int) : (beBytes k i).length = k := by
  rw [beBytes_eq, beN_length]

theorem wordOf_eq (i : Int) : wordOf i = beBytes 32 i := by
  rw [beBytes_eq, wordOf, be32_eq]

theorem zpad_length (b : Bytes) (k : Nat) : (zpad b k).length = max k b.length := by
  simp [zpad]; omega

theorem fpad_length (b : Bytes) (k : Nat) : (fpad b k).length = max k b.length := by
  simp [fpad]; omega

theorem zpadRight_length (b : Bytes) (k : Nat) : (zpadRight b k).length = max k b.length := by
  simp [zpadRight]; omega

theorem intToBigEndian_length_le {k n : Nat} (hk : 0 < k) (hn : n < 256 ^ k) :
    (intToBigEndian n).length ≤ k := by
  obtain ⟨j, h1, h2, _, h4⟩ := intToBigEndian_spec n
  rw [h1, beN_length]; exact j_le hk hn h4

theorem pow_256_int (k : Nat) : ((256 ^ k : Nat) : Int) = 2 ^ (8 * k) := by
  rw [pow_256]; push_cast; rfl

/-- The non-negative case of every numeric encoder. -/
theorem zpad_beBytes {d : Nat} {i : Int} (hd : 0 < d) (h0 : 0 ≤ i) (h1 : i < 2 ^ (8 * d)) :
    zpad (intToBigEndian i.toNat) d = beBytes d i := by
  have h2 : i.toNat < 256 ^ d := by
    have : (i.toNat : Int) < ((256 ^ d : Nat) : Int) := by
      rw [pow_256_int, Int.toNat_of_nonneg h0]; exact h1
    exact_mod_cast this
  rw [zpad_intToBigEndian hd h2, beBytes_eq, Int.emod_eq_of_lt h0 h1]

/-- The negative case of the signed encoders. -/
theorem fpad_beBytes {k d : Nat} {i : Int} (hk : 0 < k) (hd : k ≤ d)
    (h0 : -2 ^ (8 * k - 1) ≤ i) (h1 : i < 0) :
    fpad (intToBigEndian (i % 2 ^ (8 * k)).toNat) d = beBytes d i := by
  have hpow : (2 : Int) ^ (8 * k) = 2 * 2 ^ (8 * k - 1) := by
    rw [← pow_succ']; congr 1; omega
  have hpos : (0 : Int) < 2 ^ (8 * k - 1) := by positivity
  have hmod : i % 2 ^ (8 * k) = i + 2 ^ (8 * k) := by
    rw [← Int.add_emod_right]
    exact Int.emod_eq_of_lt (by linarith) (by linarith)
  have hdd : (2 : Int) ^ (8 * k) ≤ 2 ^ (8 * d) := pow_le_pow_right₀ (by norm_num) (by omega)
  have hmod' : i % 2 ^ (8 * d) = i + 2 ^ (8 * d) := by
    rw [← Int.add_emod_right]
    exact Int.emod_eq_of_lt (by linarith) (by linarith)
  obtain ⟨n, hn⟩ := Int.eq_ofNat_of_zero_le (show 0 ≤ i + 2 ^ (8 * k) by linarith)
  have hn1 : n < 256 ^ k := by
    have : (n : Int) < ((256 ^ k : Nat) : Int) := by rw [pow_256_int, ← hn]; linarith
    exact_mod_cast this
  have hn2 : 256 ^ (k - 1) ≤ n := by
    have : ((256 ^ (k - 1) : Nat) : Int) ≤ n := by
      rw [pow_256_int, ← hn]
      have : (2 : Int) ^ (8 * (k - 1)) ≤ 2 ^ (8 * k - 1) :=
        pow_le_pow_right₀ (by norm_num) (by omega)
      linarith
    exact_mod_cast this
  obtain ⟨a, rfl⟩ := Nat.exists_eq_add_of_le' hd
  rw [hmod, hn, Int.toNat_natCast, fpad_intToBigEndian hk hn1 hn2, ← beN_ff a k n hn1, beBytes_eq,
    hmod']
  congr 1
  have hA : 1 ≤ 256 ^ a := Nat.one_le_pow _ _ (by norm_num)
  have e : i + 2 ^ (8 * (a + k)) = ((n + (256 ^ a - 1) * 256 ^ k : Nat) : Int) := by
    push_cast [Nat.cast_sub hA]
    have e1 : (2 : Int) ^ (8 * (a + k)) = 256 ^ a * 256 ^ k := by
      rw [← pow_add]
      have := pow_256_int (a + k)
      push_cast at this
      exact this.symm
    have e2 : (2 : Int) ^ (8 * k) = 256 ^ k := by
      have := pow_256_int k
      push_cast at this
      exact this.symm
    rw [← hn, e1, e2]; ring
  rw [e, Int.toNat_natCast]

/-- What is proved of every fixed-size encoder `e` of type `t` with `d` bytes. -/
structure LeafGood [Ext] (t : Ty) (e : Encoder) (d : Nat) (encf : Val → Bytes) : Prop where
  isDyn : e.isDynamic = some false
  valOk : ∀ v x, denote t v = some x → e.validateValue v = .ok ()
  valErr : ∀ v er, e.validateValue v = .error er → Refused t v er
  enc : ∀ v x, denote t v = some x → e.call v = .ok (encf x)
  complete : ∀ v, e.validateValue v = .ok () → OnGrid t v → ∃ x, denote t v = some x
  total : ∀ v, e.validateValue v = .ok () → ∃ b, e.call v = .ok b ∧ b.length = d
  callVal : ∀ v b, e.call v = .ok b → e.validateValue v = .ok ()

theorem intValidate_iff [Ext] (lo hi : Int) (v : PyVal) :
    intValidate (lo, hi) v = .ok () ↔ ∃ i, v = .int i ∧ lo ≤ i ∧ i ≤ hi := by
  cases v with
  | int i =>
    by_cases h : lo ≤ i ∧ i ≤ hi
    · rw [intValidate_ok h.1 h.2]; simp [h]
    · simp only [intValidate]
      rw [if_pos (by omega)]
      constructor
      · intro h'
        split at h'
        · rw [invalidate_eq] at h'; cases h'
        · cases h'
      · rintro ⟨j, hj, h1, h2⟩
        cases hj; exact absurd ⟨h1, h2⟩ h
  | _ => simp [intValidate, invalidate_eq]

theorem intValidate_err [Ext] {t : Ty} {lo hi : Int} {v : PyVal} {er : Exc}
    (hb : BoundsPrintable t → PrintableInt lo ∧ PrintableInt hi) (h : intValidate (lo, hi) v = .error er) :
    Refused t v er := by
  cases v with
  | int i =>
    by_cases hi' : lo ≤ i ∧ i ≤ hi
    · rw [intValidate_ok hi'.1 hi'.2] at h; cases h
    · by_cases hp : BoundsPrintable t
      · rw [intValidate_out (by omega) (hb hp).1 (hb hp).2] at h
        cases h; exact (shown_refusal _ rfl).of t
      · simp only [intValidate] at h
        rw [if_pos (by omega)] at h
        split at h
        · rw [invalidate_eq] at h; cases h; exact (shown_refusal _ rfl).of t
        · cases h; exact .inr (.inl ⟨rfl, fun h => hp h.2⟩)
  | _ =>
    simp only [intValidate, invalidate_eq] at h
    cases h; exact (shown_refusal _ rfl).of t

theorem uint_good [Ext] {n d : Nat} (hd : 0 < d) (hnd : n ≤ 8 * d) :
    LeafGood (.uint n) (uintEnc n d) d fun x => match x with
      | .num i => beBytes d i
      | _ => [] := by
  have hpow : (2 : Int) ^ n ≤ 2 ^ (8 * d) := pow_le_pow_right₀ (by norm_num) hnd
  have hcall : ∀ i : Int, 0 ≤ i → i < 2 ^ n → (uintEnc n d).call (.int i) = .ok (beBytes d i) := by
    intro i h0 h1
    simp only [uintEnc, fixedSizeEncode, computeUnsignedIntegerBounds]
    rw [intValidate_ok h0 (by omega)]
    simp only [ok_bind, uintEncodeFn, intToBigEndian?, if_neg (not_lt.2 h0), if_true, pure_eq_ok]
    rw [zpad_beBytes hd h0 (by omega)]
  have hval : ∀ v, (uintEnc n d).validateValue v = .ok () ↔ ∃ i, v = .int i ∧ 0 ≤ i ∧ i < 2 ^ n := by
    intro v
    rw [show (uintEnc n d).validateValue v = intValidate (0, 2 ^ n - 1) v from rfl, intValidate_iff]
    constructor <;> rintro ⟨i, h, h1, h2⟩ <;> exact ⟨i, h, h1, by omega⟩
  have hden : ∀ v x, denote (.uint n) v = some x → ∃ i, v = .int i ∧ 0 ≤ i ∧ i < 2 ^ n ∧ x = .num i := by
    intro v x h
    cases v <;> simp only [denote, reduceCtorEq] at h
    next i =>
      split at h
      · next hf => injection h with h; exact ⟨i, rfl, hf.1, hf.2, h.symm⟩
      · cases h
  refine ⟨rfl, ?_, ?_, ?_, ?_, ?_, ?_⟩
  · intro v x h
    obtain ⟨i, rfl, h0, h1, rfl⟩ := hden v x h
    exact (hval _).2 ⟨i, rfl, h0, h1⟩
  · intro v er h
    exact intValidate_err (t := .uint n) (fun hb => ⟨printable_zero, hb⟩) h
  · intro v x h
    obtain ⟨i, rfl, h0, h1, rfl⟩ := hden v x h
    exact hcall i h0 h1
  · intro v h _
    obtain ⟨i, rfl, h0, h1⟩ := (hval v).1 h
    exact ⟨.num i, by simp only [denote]; rw [if_pos ⟨h0, h1⟩]⟩
  · intro v h
    obtain ⟨i, rfl, h0, h1⟩ := (hval v).1 h
    exact ⟨_, hcall i h0 h1, beBytes_length _ _⟩
  · intro v b h
    simp only [uintEnc, fixedSizeEncode, bind_eq_ok] at h
    obtain ⟨⟨⟩, h, _⟩ := h
    exact h

theorem sint_good [Ext] {n d : Nat} (hn8 : 8 ≤ n) (hnm : n % 8 = 0) (hnd : n ≤ 8 * d) :
    LeafGood (.int n) (sintEnc n d) d fun x => match x with
      | .num i => beBytes d i
      | _ => [] := by
  obtain ⟨k, rfl⟩ : ∃ k, n = 8 * k := ⟨n / 8, by omega⟩
  have hk : 0 < k := by omega
  have hkd : k ≤ d := by omega
  have hlt : (2 : Int) ^ (8 * k - 1) ≤ 2 ^ (8 * d) := pow_le_pow_right₀ (by norm_num) (by omega)
  have hlt2 : (2 : Int) ^ (8 * k - 1) ≤ 2 ^ (8 * k) := pow_le_pow_right₀ (by norm_num) (by omega)
  have hcall : ∀ i : Int, -2 ^ (8 * k - 1) ≤ i → i < 2 ^ (8 * k - 1) →
      (sintEnc (8 * k) d).call (.int i) = .ok (beBytes d i) := by
    intro i h0 h1
    simp only [sintEnc, sintEncode, computeSignedIntegerBounds]
    rw [intValidate_ok (by omega) (by omega)]
    have hnn : 0 ≤ i % 2 ^ (8 * k) := Int.emod_nonneg _ (by positivity)
    simp only [ok_bind, intToBigEndian?, if_neg (not_lt.2 hnn), pure_eq_ok]
    by_cases hi : 0 ≤ i
    · rw [if_pos hi, Int.emod_eq_of_lt hi (by omega), zpad_beBytes (by omega) hi (by omega)]
    · rw [if_neg hi, fpad_beBytes hk hkd h0 (by omega)]
  have hval : ∀ v, (sintEnc (8 * k) d).validateValue v = .ok () ↔
      ∃ i, v = .int i ∧ -2 ^ (8 * k - 1) ≤ i ∧ i < 2 ^ (8 * k - 1) := by
    intro v
    rw [show (sintEnc (8 * k) d).validateValue v =
      intValidate (-1 * 2 ^ (8 * k - 1), 2 ^ (8 * k - 1) - 1) v from rfl, intValidate_iff]
    constructor <;> rintro ⟨i, h, h1, h2⟩ <;> exact ⟨i, h, by omega, by omega⟩
  have hden : ∀ v x, denote (.int (8 * k)) v = some x →
      ∃ i, v = .int i ∧ -2 ^ (8 * k - 1) ≤ i ∧ i < 2 ^ (8 * k - 1) ∧ x = .num i := by
    intro v x h
    cases v <;> simp only [denote, reduceCtorEq] at h
    next i =>
      split at h
      · next hf => injection h with h; exact ⟨i, rfl, hf.1, hf.2, h.symm⟩
      · cases h
  refine ⟨rfl, ?_, ?_, ?_, ?_, ?_, ?_⟩
  · intro v x h
    obtain ⟨i, rfl, h0, h1, rfl⟩ := hden v x h
    exact (hval _).2 ⟨i, rfl, h0, h1⟩
  · intro v er h
    refine intValidate_err (t := .int (8 * k)) (fun hb => ?_) h
    simp only [BoundsPrintable] at hb
    have hpos : (0 : Int) < 2 ^ (8 * k - 1) := by positivity
    constructor <;> intro j hj <;> have := hb j hj <;> generalize (2 : Int) ^ (8 * k - 1) = P at * <;>
      generalize 10 ^ j = Q at * <;> omega
  · intro v x h
    obtain ⟨i, rfl, h0, h1, rfl⟩ := hden v x h
    exact hcall i h0 h1
  · intro v h _
    obtain ⟨i, rfl, h0, h1⟩ := (hval v).1 h
    exact ⟨.num i, by simp only [denote]; rw [if_pos ⟨h0, h1⟩]⟩
  · intro v h
    obtain ⟨i, rfl, h0, h1⟩ := (hval v).1 h
    exact ⟨_, hcall i h0 h1, beBytes_length _ _⟩
  · intro v b h
    simp only [sintEnc, sintEncode, bind_eq_ok] at h
    obtain ⟨⟨⟩, h, _⟩ := h
    exact h

theorem bool_good [Ext] {d : Nat} (hd : 0 < d) :
    LeafGood .bool (boolEnc d) d fun x => match x with
      | .num i => beBytes d i
      | _ => [] := by
  have hpow : (2 : Int) ^ 8 ≤ 2 ^ (8 * d) := pow_le_pow_right₀ (by norm_num) (by omega)
  have hcall : ∀ b : Bool, (boolEnc d).call (.bool b) = .ok (beBytes d (if b then 1 else 0)) := by
    intro b
    cases b
    · have := zpad_beBytes (i := 0) hd (by omega) (by omega)
      simpa [boolEnc, fixedSizeEncode, boolValidate, isBoolean, boolEncodeFn, intToBigEndian] using this
    · have := zpad_beBytes (i := 1) hd (by omega) (by omega)
      simpa [boolEnc, fixedSizeEncode, boolValidate, isBoolean, boolEncodeFn, intToBigEndian,
        natToBEAux] using this
  have hval : ∀ v, (boolEnc d).validateValue v = .ok () ↔ ∃ b, v = .bool b := by
    intro v
    cases v <;> simp [boolEnc, Encoder.validateValue, boolValidate, isBoolean, invalidate_eq]
  have hden : ∀ v x, denote .bool v = some x →
      ∃ b, v = .bool b ∧ x = .num (if b then 1 else 0) := by
    intro v x h
    cases v <;> simp only [denote, reduceCtorEq] at h
    next b => injection h with h; exact ⟨b, rfl, h.symm⟩
  refine ⟨rfl, ?_, ?_, ?_, ?_, ?_, ?_⟩
  · intro v x h
    obtain ⟨b, rfl, rfl⟩ := hden v x h
    exact (hval _).2 ⟨b, rfl⟩
  · intro v er h
    cases v <;> simp [boolEnc, Encoder.validateValue, boolValidate, isBoolean, invalidate_eq] at h <;>
      subst h <;> exact (shown_refusal _ rfl).of _
  · intro v x h
    obtain ⟨b, rfl, rfl⟩ := hden v x h
    exact hcall b
  · intro v h _
    obtain ⟨b, rfl⟩ := (hval v).1 h
    exact ⟨_, rfl⟩
  · intro v h
    obtain ⟨b, rfl⟩ := (hval v).1 h
    exact ⟨_, hcall b, beBytes_length _ _⟩
  · intro v b h
    simp only [boolEnc, fixedSizeEncode, bind_eq_ok] at h
    obtain ⟨⟨⟩, h, _⟩ := h
    exact h

theorem address_good [Ext] {d : Nat} (hd : 20 ≤ d) :
    LeafGood .address (addressEnc d) d fun x => match x with
      | .raw b => List.replicate (d - 20) 0 ++ b
      | _ => [] := by
  have hcall : ∀ v b, address? v = some b →
      (addressEnc d).call v = .ok (List.replicate (d - 20) 0 ++ b) ∧ b.length = 20 := by
    intro v b h
    obtain ⟨h1, h2, h3⟩ := (address_eq v).1 b h
    refine ⟨?_, h3⟩
    simp only [addressEnc, fixedSizeEncode, addressValidate, h1, h2, if_true, ok_bind, pure_eq_ok,
      zpad, h3]
  have hval : ∀ v, (addressEnc d).validateValue v = .ok () ↔ ∃ b, address? v = some b := by
    intro v
    cases h : address? v with
    | none => simp [addressEnc, Encoder.validateValue, addressValidate, (address_eq v).2 h, invalidate_eq]
    | some b => simp [addressEnc, Encoder.validateValue, addressValidate, ((address_eq v).1 b h).1]
  have hden : ∀ v x, denote .address v = some x → ∃ b, address? v = some b ∧ x = .raw b := by
    intro v x h
    simp only [denote, Option.map_eq_some_iff] at h
    obtain ⟨b, h1, h2⟩ := h
    exact ⟨b, h1, h2.symm⟩
  refine ⟨rfl, ?_, ?_, ?_, ?_, ?_, ?_⟩
  · intro v x h
    obtain ⟨b, h1, rfl⟩ := hden v x h
    exact (hval _).2 ⟨b, h1⟩
  · intro v er h
    simp only [addressEnc, Encoder.validateValue, addressValidate, invalidate_eq] at h
    split at h
    · cases h
    · cases h; exact (shown_refusal _ rfl).of _
  · intro v x h
    obtain ⟨b, h1, rfl⟩ := hden v x h
    exact (hcall v b h1).1
  · intro v h _
    obtain ⟨b, h1⟩ := (hval v).1 h
    exact ⟨.raw b, by simp [denote, h1]⟩
  · intro v h
    obtain ⟨b, h1⟩ := (hval v).1 h
    refine ⟨_, (hcall v b h1).1, ?_⟩
    have := (hcall v b h1).2
    simp; omega
  · intro v b h
    simp only [addressEnc, fixedSizeEncode, bind_eq_ok] at h
    obtain ⟨⟨⟩, h, _⟩ := h
    exact h

theorem bytesM_good [Ext] {m d : Nat} (hd : m ≤ d) :
    LeafGood (.bytesM m) (bytesMEnc m d) d fun x => match x with
      | .raw b => b ++ List.replicate (d - m) 0
      | _ => [] := by
  have hval : ∀ v, (bytesMEnc m d).validateValue v = .ok () ↔
      ∃ b, asBytes? v = some b ∧ b.length ≤ m := by
    intro v
    simp only [bytesMEnc, Encoder.validateValue, bytesMValidate, invalidate_eq]
    cases h : asBytes? v with
    | none => simp
    | some b =>
      simp only [Option.some.injEq, exists_eq_left']
      by_cases hb : m * 8 / 8 < b.length
      · rw [if_pos hb]; simp; omega
      · rw [if_neg hb]; simp; omega
  have hcall : ∀ v b, asBytes? v = some b → b.length ≤ m →
      (bytesMEnc m d).call v = .ok (b ++ List.replicate (m - b.length) 0 ++ List.replicate (d - m) 0) := by
    intro v b h hb
    have h0 := (hval v).2 ⟨b, h, hb⟩
    simp only [bytesMEnc, Encoder.validateValue] at h0
    simp only [bytesMEnc, fixedSizeEncode, h0, ok_bind, bytesEncodeFn, h, pure_eq_ok,
      Bool.false_eq_true, if_false, zpadRight]
    rw [List.append_assoc, List.replicate_append_replicate]
    congr 3; omega
  have hden : ∀ v x, denote (.bytesM m) v = some x → ∃ b, asBytes? v = some b ∧ b.length ≤ m ∧
      x = .raw (b ++ List.replicate (m - b.length) 0) := by
    intro v x h
    simp only [denote, Option.bind_eq_bind, Option.bind_eq_some_iff] at h
    obtain ⟨b, h1, h2⟩ := h
    split at h2
    · next h3 => injection h2 with h2; exact ⟨b, h1, h3, h2.symm⟩
    · cases h2
  refine ⟨rfl, ?_, ?_, ?_, ?_, ?_, ?_⟩
  · intro v x h
    obtain ⟨b, h1, h2, rfl⟩ := hden v x h
    exact (hval _).2 ⟨b, h1, h2⟩
  · intro v er h
    simp only [bytesMEnc, Encoder.validateValue, bytesMValidate, invalidate_eq] at h
    split at h
    · cases h; exact (shown_refusal _ rfl).of _
    · split at h
      · cases h; exact (shown_refusal _ rfl).of _
      · cases h
  · intro v x h
    obtain ⟨b, h1, h2, rfl⟩ := hden v x h
    exact hcall v b h1 h2
  · intro v h _
    obtain ⟨b, h1, h2⟩ := (hval v).1 h
    exact ⟨_, by simp only [denote, h1, Option.bind_eq_bind, Option.bind_some]; rw [if_pos h2]⟩
  · intro v h
    obtain ⟨b, h1, h2⟩ := (hval v).1 h
    refine ⟨_, hcall v b h1 h2, ?_⟩
    simp; omega
  · intro v b h
    simp only [bytesMEnc, fixedSizeEncode, bind_eq_ok] at h
    obtain ⟨⟨⟩, h, _⟩ := h
    exact h

theorem ufixed_good [Ext] {m n d : Nat} (hm : validBits m) (hn : n ≤ 80) (hmd : m ≤ 8 * d) :
    LeafGood (.ufixed m n) (ufixedEnc m n d) d fun x => match x with
      | .num i => beBytes d i
      | _ => [] := by
  obtain ⟨hm8, hm256, hmm⟩ := hm
  have hd : 0 < d := by omega
  have hpow : (2 : Int) ^ m ≤ 2 ^ (8 * d) := pow_le_pow_right₀ (by norm_num) hmd
  have hpow2 : (2 : Int) ^ m ≤ 2 ^ 256 := pow_le_pow_right₀ (by norm_num) hm256
  have hpos : (0 : Int) < 2 ^ m := by positivity
  have hb := unsignedFixedBounds_eq (m := m) hm256 hn
  have S := fun v => fixedValidate_spec (n := n) hn (L := (0, 0)) (U := (2 ^ m - 1, -(n : Int)))
    (lo := 0) (hi := 2 ^ m - 1) (by simp [V_zero]) (by simp [Dec10.V]) (by norm_num) le_rfl
    (by omega) (by omega) v
  have hv : ∀ v, (ufixedEnc m n d).validateValue v =
      fixedValidate (.ok ((0, 0), (2 ^ m - 1, -(n : Int)))) n v := by
    intro v; simp only [ufixedEnc, Encoder.validateValue, hb]
  have hcall : ∀ v i, (ufixedEnc m n d).validateValue v = .ok () → fixedScaled n v = .ok i →
      0 ≤ i → i ≤ 2 ^ m - 1 → (ufixedEnc m n d).call v = .ok (beBytes d i) := by
    intro v i h1 h2 h3 h4
    simp only [ufixedEnc, Encoder.validateValue] at h1
    simp only [ufixedEnc, fixedSizeEncode, h1, ok_bind, ufixedEncodeFn, h2, intToBigEndian?,
      if_neg (not_lt.2 h3), if_true, pure_eq_ok]
    rw [zpad_beBytes hd h3 (by omega)]
  have hden : ∀ v x, denote (.ufixed m n) v = some x → ∃ y k, number? v = some y ∧
      onGrid? n y = some k ∧ 0 ≤ k ∧ k ≤ 2 ^ m - 1 ∧ x = .num k := by
    intro v x h
    simp only [denote, Option.bind_eq_bind, Option.bind_eq_some_iff] at h
    obtain ⟨y, h1, k, h2, h3⟩ := h
    split at h3
    · next hf => injection h3 with h3; exact ⟨y, k, h1, h2, hf.1, by have := hf.2; omega, h3.symm⟩
    · cases h3
  refine ⟨rfl, ?_, ?_, ?_, ?_, ?_, ?_⟩
  · intro v x h
    obtain ⟨y, k, h1, h2, h3, h4, rfl⟩ := hden v x h
    rw [hv]; exact ((S v).1 y k h1 h2 h3 h4).1
  · intro v er h
    rw [hv] at h; exact ((S v).2.2.2.1 er h).elim (fun h => h.of _) fun h => .inr (.inr h)
  · intro v x h
    obtain ⟨y, k, h1, h2, h3, h4, rfl⟩ := hden v x h
    obtain ⟨a, b⟩ := (S v).1 y k h1 h2 h3 h4
    exact hcall v k (by rw [hv]; exact a) b h3 h4
  · intro v h hg
    rw [hv] at h
    obtain ⟨y, i, h1, h2, h3, h4, _⟩ := (S v).2.2.1 h
    obtain ⟨k, hk⟩ := Option.isSome_iff_exists.1 (hg y h1)
    by_cases hr : k < 0 ∨ 2 ^ m - 1 < k
    · have := (S v).2.1 y k h1 hk hr
      rw [h] at this; cases this
    · refine ⟨.num k, ?_⟩
      simp only [denote, h1, hk, Option.bind_eq_bind, Option.bind_some]
      rw [if_pos ⟨by omega, by omega⟩]
  · intro v h
    have h' := h
    rw [hv] at h
    obtain ⟨y, i, h1, h2, h3, h4, _⟩ := (S v).2.2.1 h
    exact ⟨_, hcall v i h' h2 h3 h4, beBytes_length _ _⟩
  · intro v b h
    simp only [ufixedEnc, fixedSizeEncode, bind_eq_ok] at h
    obtain ⟨⟨⟩, h, _⟩ := h
    exact h

theorem sfixed_good [Ext] {m n d : Nat} (hm : validBits m) (hn : n ≤ 80) (hmd : m ≤ 8 * d) :
    LeafGood (.fixed m n) (sfixedEnc m n d) d fun x => match x with
      | .num i => beBytes d i
      | _ => [] := by
  obtain ⟨hm8, hm256, hmm⟩ := hm
  obtain ⟨k, rfl⟩ : ∃ k, m = 8 * k := ⟨m / 8, by omega⟩
  have hk : 0 < k := by omega
  have hkd : k ≤ d := by omega
  have hd : 0 < d := by omega
  have hpow : (2 : Int) ^ (8 * k - 1) ≤ 2 ^ (8 * d) := pow_le_pow_right₀ (by norm_num) (by omega)
  have hpow1 : (2 : Int) ^ (8 * k - 1) ≤ 2 ^ (8 * k) := pow_le_pow_right₀ (by norm_num) (by omega)
  have hpow2 : (2 : Int) ^ (8 * k - 1) ≤ 2 ^ 256 := pow_le_pow_right₀ (by norm_num) (by omega)
  have hpos : (0 : Int) < 2 ^ (8 * k - 1) := by positivity
  have hb := signedFixedBounds_eq (m := 8 * k) hm256 hn
  have S := fun v => fixedValidate_spec (n := n) hn (L := (-2 ^ (8 * k - 1), -(n : Int)))
    (U := (2 ^ (8 * k - 1) - 1, -(n : Int))) (lo := -2 ^ (8 * k - 1)) (hi := 2 ^ (8 * k - 1) - 1)
    (by simp [Dec10.V]) (by simp [Dec10.V]) (by omega) (by omega) (by omega) (by omega) v
  have hv : ∀ v, (sfixedEnc (8 * k) n d).validateValue v = fixedValidate
      (.ok ((-2 ^ (8 * k - 1), -(n : Int)), (2 ^ (8 * k - 1) - 1, -(n : Int)))) n v := by
    intro v; simp only [sfixedEnc, Encoder.validateValue, hb]
  have hnn : ∀ i : Int, 0 ≤ i % 2 ^ (8 * k) := fun i => Int.emod_nonneg _ (by positivity)
  have hc0 : ∀ v y i, (sfixedEnc (8 * k) n d).validateValue v = .ok () → number? v = some y →
      fixedScaled n v = .ok i → (sfixedEnc (8 * k) n d).call v = .ok
        (if 0 ≤ y.1 then zpad (intToBigEndian (i % 2 ^ (8 * k)).toNat) d
          else fpad (intToBigEndian (i % 2 ^ (8 * k)).toNat) d) := by
    intro v y i h1 h2 h3
    have h2' : asDec10? v = some y := by rw [asDec10_eq]; exact h2
    simp only [sfixedEnc, Encoder.validateValue] at h1
    simp only [sfixedEnc, sfixedEncode, h1, ok_bind, h3, h2', intToBigEndian?,
      if_neg (not_lt.2 (hnn i)), pure_eq_ok]
    split <;> rfl
  have hlen : ∀ i : Int, (intToBigEndian (i % 2 ^ (8 * k)).toNat).length ≤ d := by
    intro i
    refine le_trans (intToBigEndian_length_le hk ?_) hkd
    have h1 : i % 2 ^ (8 * k) < 2 ^ (8 * k) := Int.emod_lt_of_pos _ (by positivity)
    have : ((i % 2 ^ (8 * k)).toNat : Int) < ((256 ^ k : Nat) : Int) := by
      rw [pow_256_int, Int.toNat_of_nonneg (hnn i)]; exact h1
    exact_mod_cast this
  have hden : ∀ v x, denote (.fixed (8 * k) n) v = some x → ∃ y j, number? v = some y ∧
      onGrid? n y = some j ∧ -2 ^ (8 * k - 1) ≤ j ∧ j ≤ 2 ^ (8 * k - 1) - 1 ∧ x = .num j := by
    intro v x h
    simp only [denote, Option.bind_eq_bind, Option.bind_eq_some_iff] at h
    obtain ⟨y, h1, j, h2, h3⟩ := h
    split at h3
    · next hf => injection h3 with h3; exact ⟨y, j, h1, h2, hf.1, by have := hf.2; omega, h3.symm⟩
    · cases h3
  refine ⟨rfl, ?_, ?_, ?_, ?_, ?_, ?_⟩
  · intro v x h
    obtain ⟨y, j, h1, h2, h3, h4, rfl⟩ := hden v x h
    rw [hv]; exact ((S v).1 y j h1 h2 h3 h4).1
  · intro v er h
    rw [hv] at h; exact ((S v).2.2.2.1 er h).elim (fun h => h.of _) fun h => .inr (.inr h)
  · intro v x h
    obtain ⟨y, j, h1, h2, h3, h4, rfl⟩ := hden v x h
    obtain ⟨a, b⟩ := (S v).1 y j h1 h2 h3 h4
    rw [hc0 v y j (by rw [hv]; exact a) h1 b]
    have hsgn : 0 ≤ y.1 ↔ 0 ≤ j := by
      rw [← V_nonneg_iff, onGrid_some_iff.1 h2, mul_nonneg_iff_of_pos_right (ten_zpow_pos _),
        Int.cast_nonneg_iff]
    by_cases hj : 0 ≤ j
    · rw [if_pos (hsgn.2 hj), Int.emod_eq_of_lt hj (by omega), zpad_beBytes hd hj (by omega)]
    · rw [if_neg (fun c => hj (hsgn.1 c)), fpad_beBytes hk hkd h3 (by omega)]
  · intro v h hg
    rw [hv] at h
    obtain ⟨y, i, h1, h2, h3, h4, _⟩ := (S v).2.2.1 h
    obtain ⟨j, hj⟩ := Option.isSome_iff_exists.1 (hg y h1)
    by_cases hr : j < -2 ^ (8 * k - 1) ∨ 2 ^ (8 * k - 1) - 1 < j
    · have := (S v).2.1 y j h1 hj hr
      rw [h] at this; cases this
    · refine ⟨.num j, ?_⟩
      simp only [denote, h1, hj, Option.bind_eq_bind, Option.bind_some]
      rw [if_pos ⟨by omega, by omega⟩]
  · intro v h
    have h' := h
    rw [hv] at h
    obtain ⟨y, i, h1, h2, h3, h4, _⟩ := (S v).2.2.1 h
    refine ⟨_, hc0 v y i h' h1 h2, ?_⟩
    have := hlen i
    split
    · rw [zpad_length]; omega
    · rw [fpad_length]; omega
  · intro v b h
    simp only [sfixedEnc, sfixedEncode, bind_eq_ok] at h
    obtain ⟨⟨⟩, h, _⟩ := h
    exact h

end EthAbi
