import Verif.Lemmas.DirectEnc

/-! # Coder objects with the other `is_big_endian` -/
namespace EthAbi
open Spec

/-! ## Bytes -/

theorem lastFirst_append {n : Nat} {a b : Bytes} (h : b.length = n) : lastFirst n (a ++ b) = b ++ a := by
  unfold lastFirst
  have : (a ++ b).length - n = a.length := by simp [h]
  rw [this, List.drop_left' rfl, List.take_left' rfl]

theorem lastFirst_length (n : Nat) (b : Bytes) : (lastFirst n b).length = b.length := by
  simp [lastFirst]

theorem append_replicate_comm {p : UInt8} {n : Nat} (a : Bytes) :
    a ++ List.replicate n p = List.replicate n p ++ a ↔ n = 0 ∨ ∀ x ∈ a, x = p := by
  constructor
  · intro h
    cases n with
    | zero => exact .inl rfl
    | succ n =>
      right
      induction a with
      | nil => simp
      | cons x a ih =>
        rw [List.replicate_succ] at h
        simp only [List.cons_append, List.cons.injEq] at h
        obtain ⟨rfl, h⟩ := h
        rw [← List.replicate_succ] at h
        have : a ++ List.replicate (n + 1) x = List.replicate (n + 1) x ++ a := by
          rw [h, List.replicate_succ']; simp
        intro y hy
        rcases List.mem_cons.1 hy with rfl | hy
        · rfl
        · exact ih this y hy
  · rintro (rfl | h)
    · simp
    · rw [List.eq_replicate_iff.2 ⟨rfl, h⟩, List.replicate_append_replicate, List.replicate_append_replicate,
        Nat.add_comm]

theorem bigEndianToInt_zeros_right (a : Bytes) (n : Nat) :
    bigEndianToInt (a ++ List.replicate n 0) = bigEndianToInt a * 256 ^ n := by
  rw [bigEndianToInt_append, ← beN_zero, bigEndianToInt_beN]; simp

theorem bigEndianToInt_zeros_left (a : Bytes) (n : Nat) :
    bigEndianToInt (List.replicate n 0 ++ a) = bigEndianToInt a := by
  rw [bigEndianToInt_append, ← beN_zero, bigEndianToInt_beN]; simp

theorem lt_pow_bytesOf (i : Int) : i.toNat < 256 ^ bytesOf i := Nat.lt_pow_succ_log_self (by omega) _

theorem intToBigEndian_eq {i : Int} (h : 0 ≤ i) : intToBigEndian i.toNat = beBytes (bytesOf i) i := by
  obtain ⟨j, h1, h2, h3, h4⟩ := intToBigEndian_spec i.toNat
  have hj : j = bytesOf i := by
    unfold bytesOf
    rcases Nat.eq_zero_or_pos i.toNat with h0 | h0
    · rw [h0] at h4 ⊢
      rcases h4 with rfl | h4
      · simp
      · have : 0 < 256 ^ (j - 1) := Nat.pow_pos (by omega)
        omega
    · have h5 : 256 ^ (j - 1) ≤ i.toNat := by
        rcases h4 with rfl | h4
        · simp only [Nat.sub_self, pow_zero]; omega
        · exact h4
      have := Nat.log_eq_of_pow_le_of_lt_pow h5 (by rw [show j - 1 + 1 = j by omega]; exact h2)
      omega
  subst hj
  rw [h1, beBytes_eq]
  congr 1
  have : i < 2 ^ (8 * bytesOf i) := by
    rw [← pow_256_int]
    have : ((i.toNat : Nat) : Int) < ((256 ^ bytesOf i : Nat) : Int) := by exact_mod_cast lt_pow_bytesOf i
    rwa [Int.toNat_of_nonneg h] at this
  rw [Int.emod_eq_of_lt h this]

theorem bytesOf_le {k : Nat} (hk : 0 < k) {i : Int} (hf : fitsU (8 * k) i) : bytesOf i ≤ k := by
  have h2 : i.toNat < 256 ^ k := by
    have : (i.toNat : Int) < ((256 ^ k : Nat) : Int) := by
      rw [pow_256_int, Int.toNat_of_nonneg hf.1]; exact hf.2
    exact_mod_cast this
  unfold bytesOf
  rcases Nat.eq_zero_or_pos i.toNat with h0 | h0
  · rw [h0]; simp; omega
  · have := Nat.log_lt_of_lt_pow (by omega) h2
    omega

/-- A number in as many bytes as it needs, then zeros: the padded form exactly if it needs them all. -/
theorem shortest_iff {k d : Nat} (hk0 : 0 < k) (hk : k ≤ d) {i : Int} (hf : fitsU (8 * k) i) :
    beN k i.toNat ++ List.replicate (d - k) 0 =
      beBytes (bytesOf i) i ++ List.replicate (d - bytesOf i) 0 ↔ i = 0 ∨ 2 ^ (8 * k - 8) ≤ i := by
  have hle := bytesOf_le hk0 hf
  have hlt := lt_pow_bytesOf i
  obtain ⟨n, rfl⟩ := Int.eq_ofNat_of_zero_le hf.1
  rw [← intToBigEndian_eq hf.1]
  simp only [Int.toNat_natCast] at hlt ⊢
  have hval : bigEndianToInt (intToBigEndian n) = n := by
    obtain ⟨j, h1, h2, _, _⟩ := intToBigEndian_spec n
    rw [h1, bigEndianToInt_beN, Nat.mod_eq_of_lt h2]
  have hpow : ((2 : Int) ^ (8 * k - 8)) = ((256 ^ (k - 1) : Nat) : Int) := by
    rw [pow_256_int]; congr 1; omega
  have hlen : (intToBigEndian n).length = bytesOf n := by
    have := intToBigEndian_eq hf.1
    rw [Int.toNat_natCast] at this
    rw [this, beBytes_length]
  rw [hpow]
  constructor
  · intro h
    have h2 := congrArg bigEndianToInt h
    rw [bigEndianToInt_zeros_right, bigEndianToInt_zeros_right, bigEndianToInt_beN, hval,
      Nat.mod_eq_of_lt (by
        have : (n : Int) < ((256 ^ k : Nat) : Int) := by rw [pow_256_int]; exact hf.2
        exact_mod_cast this)] at h2
    rcases Nat.eq_zero_or_pos n with rfl | hn
    · exact .inl rfl
    · right
      have h3 := Nat.eq_of_mul_eq_mul_left hn h2
      have h4 := Nat.pow_right_injective (le_refl 2 |>.trans (by omega : 2 ≤ 256)) h3
      have h5 : bytesOf n = k := by omega
      have h6 : 256 ^ (bytesOf n - 1) ≤ n := by
        unfold bytesOf
        simp only [Int.toNat_natCast, Nat.add_sub_cancel]
        exact Nat.pow_log_le_self 256 (by omega)
      rw [h5] at h6
      exact_mod_cast h6
  · rintro (h | h)
    · have : n = 0 := by exact_mod_cast h
      subst this
      rw [beN_zero, show intToBigEndian 0 = List.replicate 1 0 from rfl, List.replicate_append_replicate,
        List.replicate_append_replicate]
      have h1 : bytesOf ((0 : Nat) : Int) = 1 := by simp [bytesOf]
      generalize bytesOf ((0 : Nat) : Int) = z at h1 hle ⊢
      rw [show k + (d - k) = 1 + (d - z) by omega]
    · have h : 256 ^ (k - 1) ≤ n := by exact_mod_cast h
      have h5 : bytesOf n = k := by
        by_contra hc
        have : 256 ^ bytesOf n ≤ 256 ^ (k - 1) := Nat.pow_le_pow_right (by omega) (by omega)
        omega
      have h1 := intToBigEndian_eq hf.1
      rw [Int.toNat_natCast] at h1
      rw [h1, h5, beBytes_unsigned (le_refl k) hf]
      simp

/-! ## Decoding -/

theorem split_turned {k d : Nat} (hk : k ≤ d) (be : Bool) {raw : Bytes} (hr : raw.length = d) :
    splitDataAndPadding k d (!be) raw =
      splitDataAndPadding k d be (lastFirst (if be then d - k else k) raw) := by
  cases be
  · simp only [splitDataAndPadding, lastFirst, hr, Bool.not_false, if_true, Bool.false_eq_true, if_false]
    rw [List.take_left' (by simp; omega), List.drop_left' (by simp; omega)]
  · simp only [splitDataAndPadding, lastFirst, hr, Bool.not_true, if_true, Bool.false_eq_true, if_false]
    rw [show d - (d - k) = k by omega, List.take_left' (by simp; omega), List.drop_left' (by simp; omega)]

theorem lastFirst_lastFirst {k d : Nat} (hk : k ≤ d) {raw : Bytes} (hr : raw.length = d) :
    lastFirst k (lastFirst (d - k) raw) = raw := by
  have h : lastFirst (d - k) raw = raw.drop k ++ raw.take k := by
    simp only [lastFirst, hr, show d - (d - k) = k by omega]
  rw [h, lastFirst_append (by simp; omega), List.take_append_drop]

/-- How much of the word `turnedIn` moves to the front. -/
def moved (c : Cls) (v d : Nat) : Nat := if c = .bytesM then d - v / 8 else v / 8

theorem turned_decodes {c : Cls} {v d f : Nat} (hs : SizesOk c v d f) (hb : BitsOk c v) {st st' : Stream}
    (hd : st.data.length ≤ ssizeMax) {x : PyVal} :
    decodeFixed v d (!usualOrder c) (directFn c v f) (directNeg c) st = .ok (x, st') ↔
      ∃ y, Val.Of (clsType c v f) y ∧ turnedIn c v d f y <+: st.data.drop st.pos ∧
        x = toPy (clsType c v f) y ∧ st' = { st with pos := st.pos + d } := by
  have hk : v / 8 ≤ d := by have := hs.2.1; omega
  have hm : moved c v d ≤ d := by unfold moved; split <;> omega
  have hu : ∀ raw : Bytes, raw.length = d → splitDataAndPadding (v / 8) d (!usualOrder c) raw =
      splitDataAndPadding (v / 8) d (c != .bytesM) (lastFirst (d - moved c v d) raw) := by
    intro raw hr
    rw [split_turned hk _ hr]
    congr 2
    cases c <;> simp [usualOrder, moved] <;> omega
  rw [decodeFixed_iff hd]
  constructor
  · rintro ⟨raw, h1, h2, h3, h4, h5⟩
    rw [hu raw h1] at h4 h5
    obtain ⟨y, hy, he, hx⟩ := (direct_raw hs hb (by rw [lastFirst_length]; exact h1) x).1 ⟨h4, h5⟩
    refine ⟨y, hy, ?_, hx, h3⟩
    have : turnedIn c v d f y = lastFirst (moved c v d) (encIn d (clsType c v f) y) := rfl
    rw [this, he, lastFirst_lastFirst hm h1]
    exact h2
  · rintro ⟨y, hy, h2, hx, h3⟩
    have hl := encIn_length hs hb hy
    obtain ⟨h4, h5⟩ := (direct_raw hs hb hl x).2 ⟨y, hy, rfl, hx⟩
    have hl2 : (turnedIn c v d f y).length = d := by rw [turnedIn, lastFirst_length, hl]
    have hback : lastFirst (d - moved c v d) (turnedIn c v d f y) = encIn d (clsType c v f) y := by
      have := lastFirst_lastFirst (k := d - moved c v d) (d := d) (by omega) hl
      rw [show d - (d - moved c v d) = moved c v d by omega] at this
      exact this
    refine ⟨_, hl2, h2, h3, ?_, ?_⟩
    · rw [hu _ hl2, hback]; exact h4
    · rw [hu _ hl2, hback]; exact h5

/-! ## Encoding -/

/-- The two orders differ in the padding only. -/
theorem fixedSizeEncode_both (validate : PyVal → PyM Unit) (fn : PyVal → PyM Bytes) (d : Nat) (v : PyVal) :
    (∃ base, validate v = .ok () ∧ fn v = .ok base ∧ fixedSizeEncode validate fn true d v = .ok (zpad base d) ∧
      fixedSizeEncode validate fn false d v = .ok (zpadRight base d)) ∨
    ∃ er, fixedSizeEncode validate fn true d v = .error er ∧ fixedSizeEncode validate fn false d v = .error er := by
  unfold fixedSizeEncode
  cases h1 : validate v with
  | error er => exact .inr ⟨er, rfl, rfl⟩
  | ok u =>
    cases h2 : fn v with
    | error er => exact .inr ⟨er, rfl, rfl⟩
    | ok base => exact .inl ⟨base, rfl, rfl, rfl, rfl⟩

theorem uintEncodeFn_ok {v : PyVal} {base : Bytes} (h : uintEncodeFn v = .ok base) :
    ∃ j : Int, 0 ≤ j ∧ base = intToBigEndian j.toNat := by
  cases v <;> simp only [uintEncodeFn, reduceCtorEq] at h
  next i =>
    unfold intToBigEndian? at h
    split at h
    · cases h
    · injection h with h; exact ⟨i, by omega, h.symm⟩

theorem ufixedEncodeFn_ok {f : Nat} {v : PyVal} {base : Bytes} (h : ufixedEncodeFn f v = .ok base) :
    ∃ j : Int, 0 ≤ j ∧ base = intToBigEndian j.toNat := by
  unfold ufixedEncodeFn at h
  obtain ⟨i, _, h⟩ := bind_eq_ok.1 h
  unfold intToBigEndian? at h
  split at h
  · cases h
  · injection h with h; exact ⟨i, by omega, h.symm⟩

/-- The number that the padded form is of. -/
theorem unpadded {d k : Nat} (hk : k ≤ d) {i j : Int} (hj : 0 ≤ j) (hf : fitsU (8 * k) i)
    (h : zpad (intToBigEndian j.toNat) d = beBytes d i) : j = i := by
  have h2 := congrArg bigEndianToInt h
  have hi : i.toNat < 256 ^ k := by
    have : (i.toNat : Int) < ((256 ^ k : Nat) : Int) := by
      rw [pow_256_int, Int.toNat_of_nonneg hf.1]; exact hf.2
    exact_mod_cast this
  rw [beBytes_unsigned hk hf, zpad, bigEndianToInt_zeros_left, bigEndianToInt_zeros_left, bigEndianToInt_beN,
    Nat.mod_eq_of_lt hi] at h2
  have hval : bigEndianToInt (intToBigEndian j.toNat) = j.toNat := by
    obtain ⟨m, h1, h2, _, _⟩ := intToBigEndian_spec j.toNat
    rw [h1, bigEndianToInt_beN, Nat.mod_eq_of_lt h2]
  rw [hval] at h2
  have := hf.1
  omega

theorem turned_error [Ext] {c : Cls} {v d f : Nat} (h8 : v % 8 = 0) {value : PyVal} {er : Exc}
    (h : (directEnc c v d f).call value = .error er) :
    (directEncB c v d f (!usualOrder c)).call value = .error er := by
  rw [← directEncB_usual h8] at h
  have key : ∀ {validate : PyVal → PyM Unit} {fn : PyVal → PyM Bytes},
      fixedSizeEncode validate fn true d value = .error er →
      fixedSizeEncode validate fn false d value = .error er := by
    intro validate fn h
    rcases fixedSizeEncode_both validate fn d value with ⟨b, _, _, h2, _⟩ | ⟨er', h2, h3⟩
    · rw [h2] at h; cases h
    · rw [h2] at h; cases h; exact h3
  have key2 : ∀ {validate : PyVal → PyM Unit} {fn : PyVal → PyM Bytes},
      fixedSizeEncode validate fn false d value = .error er →
      fixedSizeEncode validate fn true d value = .error er := by
    intro validate fn h
    rcases fixedSizeEncode_both validate fn d value with ⟨b, _, _, _, h2⟩ | ⟨er', h2, h3⟩
    · rw [h2] at h; cases h
    · rw [h3] at h; cases h; exact h2
  cases c
  case bool => exact key h
  case uint => exact key h
  case int => exact h
  case ufixed => exact key h
  case fixed => exact h
  case address => exact key h
  case bytesM => exact key2 h

theorem turned_writes [Ext] {c : Cls} {v d f : Nat} (hs : SizesOk c v d f) (hb : BitsOk c v) {value : PyVal}
    {y : Val} (hy : denote (clsType c v f) value = some y) :
    (directEncB c v d f (!usualOrder c)).call value = .ok (writtenIn c v d f value y) := by
  have hg := (direct_good (f := f) hs hb).enc value y hy
  have hof := denote_of _ _ _ hy
  rw [← directEncB_usual hs.1] at hg
  obtain ⟨h8, hvd, hf⟩ := hs
  obtain ⟨k, rfl⟩ : ∃ k, v = 8 * k := ⟨v / 8, by omega⟩
  have hk : k ≤ d := by omega
  have hdiv : 8 * k / 8 = k := by omega
  have key : ∀ {validate : PyVal → PyM Unit} {fn : PyVal → PyM Bytes} {b : Bytes},
      fixedSizeEncode validate fn true d value = .ok b →
      ∃ base, validate value = .ok () ∧ fn value = .ok base ∧ zpad base d = b ∧
        fixedSizeEncode validate fn false d value = .ok (zpadRight base d) := by
    intro validate fn b h
    rcases fixedSizeEncode_both validate fn d value with ⟨b', h0, h1, h2, h3⟩ | ⟨er', h2, h3⟩
    · rw [h2] at h; injection h with h; exact ⟨b', h0, h1, h, h3⟩
    · rw [h2] at h; cases h
  cases c
  case bool =>
    simp only [clsType] at hy hof
    cases value <;> simp only [denote, reduceCtorEq] at hy
    next b =>
    injection hy with hy
    subst hy
    simp only [BitsOk] at hb
    obtain rfl : k = 1 := by omega
    have hw : writtenIn .bool (8 * 1) d f (.bool b) (.num (if b then 1 else 0)) =
        turnedIn .bool (8 * 1) d f (.num (if b then 1 else 0)) := rfl
    have hfit : fitsU (8 * 1) (if b then 1 else 0) := by cases b <;> simp [fitsU]
    rw [hw, turnedIn, if_neg (by decide), clsType, encIn, beBytes_unsigned hk hfit, lastFirst_append (by simp)]
    cases b <;> rfl
  case uint =>
    obtain ⟨base, _, h1, h2, h3⟩ := key hg
    obtain ⟨j, hj, rfl⟩ := uintEncodeFn_ok h1
    cases y <;> simp only [clsType, Val.Of] at hof
    next i =>
    have h2 : zpad (intToBigEndian j.toNat) d = beBytes d i := h2
    obtain rfl := unpadded hk hj hof h2
    change fixedSizeEncode _ _ false d value = _
    rw [h3]
    simp only [writtenIn, zpadRight]
    rw [intToBigEndian_eq hj, beBytes_length]
  case int => exact hg
  case ufixed =>
    obtain ⟨base, _, h1, h2, h3⟩ := key hg
    obtain ⟨j, hj, rfl⟩ := ufixedEncodeFn_ok h1
    cases y <;> simp only [clsType, Val.Of] at hof
    next i =>
    have h2 : zpad (intToBigEndian j.toNat) d = beBytes d i := h2
    obtain rfl := unpadded hk hj hof h2
    change fixedSizeEncode _ _ false d value = _
    rw [h3]
    simp only [writtenIn, zpadRight]
    rw [intToBigEndian_eq hj, beBytes_length]
  case fixed => exact hg
  case address =>
    simp only [BitsOk] at hb
    obtain rfl : k = 20 := by omega
    simp only [clsType, denote, Option.map_eq_some_iff] at hy
    obtain ⟨b, hb1, rfl⟩ := hy
    obtain ⟨h1, h2, h3⟩ := (address_eq value).1 b hb1
    have hw : writtenIn .address (8 * 20) d f value (.raw b) = turnedIn .address (8 * 20) d f (.raw b) := rfl
    rw [hw, turnedIn, if_neg (by decide), clsType, encIn, lastFirst_append (by simp [h3])]
    change fixedSizeEncode addressValidate toCanonicalAddress false d value = _
    simp only [fixedSizeEncode, addressValidate, h1, h2, if_true, ok_bind, pure_eq_ok, Bool.false_eq_true,
      if_false, zpadRight, h3]
  case bytesM =>
    simp only [clsType, hdiv, denote, Option.bind_eq_bind, Option.bind_eq_some_iff] at hy
    obtain ⟨b, h1, h2⟩ := hy
    split at h2
    swap
    · cases h2
    next h3 =>
    injection h2 with h2
    subst h2
    have hw : writtenIn .bytesM (8 * k) d f value (.raw (b ++ List.replicate (k - b.length) 0)) =
        List.replicate (d - b.length) 0 ++ b := by simp only [writtenIn, h1]
    rw [hw]
    change fixedSizeEncode (bytesMValidate (8 * k)) bytesEncodeFn true d value = _
    have h0 : bytesMValidate (8 * k) value = .ok () := by
      simp only [bytesMValidate, h1, hdiv]
      rw [if_neg (by omega)]
    simp only [fixedSizeEncode, h0, ok_bind, bytesEncodeFn, h1, if_true, zpad]
    rfl

theorem writtenIn_length [Ext] {c : Cls} {v d f : Nat} (hs : SizesOk c v d f) (hb : BitsOk c v) {value : PyVal}
    {y : Val} (hy : denote (clsType c v f) value = some y) : (writtenIn c v d f value y).length = d := by
  have hof := denote_of _ _ _ hy
  have hl := encIn_length hs hb hof
  obtain ⟨h8, hvd, hf⟩ := hs
  obtain ⟨k, rfl⟩ : ∃ k, v = 8 * k := ⟨v / 8, by omega⟩
  have hk : k ≤ d := by omega
  have hdiv : 8 * k / 8 = k := by omega
  cases c
  case bool =>
    have : writtenIn .bool (8 * k) d f value y = turnedIn .bool (8 * k) d f y := rfl
    rw [this, turnedIn, lastFirst_length, hl]
  case uint =>
    simp only [BitsOk] at hb
    cases y <;> simp only [clsType, Val.Of] at hof
    have := bytesOf_le (by omega) hof
    simp only [writtenIn, List.length_append, beBytes_length, List.length_replicate]
    omega
  case int => exact hl
  case ufixed =>
    simp only [BitsOk] at hb
    cases y <;> simp only [clsType, Val.Of] at hof
    have := bytesOf_le (by omega) hof
    simp only [writtenIn, List.length_append, beBytes_length, List.length_replicate]
    omega
  case fixed => exact hl
  case address =>
    have : writtenIn .address (8 * k) d f value y = turnedIn .address (8 * k) d f y := rfl
    rw [this, turnedIn, lastFirst_length, hl]
  case bytesM =>
    simp only [clsType, hdiv, denote, Option.bind_eq_bind, Option.bind_eq_some_iff] at hy
    obtain ⟨b, h1, h2⟩ := hy
    split at h2
    · simp only [writtenIn, h1, List.length_append, List.length_replicate]; omega
    · cases h2

/-! ## Round trips -/

theorem all_zero_iff (k n : Nat) (h : n < 256 ^ k) : (∀ x ∈ beN k n, x = 0) ↔ n = 0 := by
  constructor
  · intro h2
    have h3 : beN k n = List.replicate k 0 := List.eq_replicate_iff.2 ⟨beN_length _ _, h2⟩
    have h4 := congrArg bigEndianToInt h3
    rw [← beN_zero, bigEndianToInt_beN, bigEndianToInt_beN, Nat.mod_eq_of_lt h] at h4
    simpa using h4
  · rintro rfl
    rw [beN_zero]
    intro x hx
    exact (List.mem_replicate.1 hx).2

theorem all_ff_iff (k n : Nat) (h : n < 256 ^ k) : (∀ x ∈ beN k n, x = 0xff) ↔ n = 256 ^ k - 1 := by
  have hff : beN k (256 ^ k - 1) = List.replicate k 0xff := by
    have := beN_ff k 0 0 (by simp)
    simpa [beN] using this
  constructor
  · intro h2
    have h3 : beN k n = List.replicate k 0xff := List.eq_replicate_iff.2 ⟨beN_length _ _, h2⟩
    rw [← hff] at h3
    have h4 := congrArg bigEndianToInt h3
    rw [bigEndianToInt_beN, bigEndianToInt_beN, Nat.mod_eq_of_lt h, Nat.mod_eq_of_lt] at h4
    · exact h4
    · have : 0 < 256 ^ k := Nat.pow_pos (by omega)
      omega
  · rintro rfl
    rw [hff]
    intro x hx
    exact (List.mem_replicate.1 hx).2

theorem signed_turned_iff {k d : Nat} (hk0 : 0 < k) (hk : k ≤ d) {i : Int} (hf : fitsS (8 * k) i) :
    lastFirst k (beBytes d i) = beBytes d i ↔ i = 0 ∨ i = -1 ∨ 8 * k = 8 * d := by
  rw [beBytes_signed hk hk0 hf, lastFirst_append (by simp), append_replicate_comm]
  have hpow : (2 : Int) ^ (8 * k) = 2 * 2 ^ (8 * k - 1) := by
    rw [← pow_succ']; congr 1; omega
  have hpos : (0 : Int) < 2 ^ (8 * k - 1) := by positivity
  have hcast : ((256 ^ k : Nat) : Int) = 2 ^ (8 * k) := pow_256_int k
  by_cases hi : i < 0
  · rw [if_pos hi, if_pos hi, all_ff_iff]
    · have := hf.1; omega
    · have := hf.1; omega
  · rw [if_neg hi, if_neg hi, all_zero_iff]
    · omega
    · have := hf.2; omega

theorem comesBack_iff [Ext] {c : Cls} {v d f : Nat} (hs : SizesOk c v d f) (hb : BitsOk c v) {value : PyVal}
    {y : Val} (hy : denote (clsType c v f) value = some y) :
    turnedIn c v d f y = writtenIn c v d f value y ↔ ComesBack c v d value y := by
  have hof := denote_of _ _ _ hy
  obtain ⟨h8, hvd, hf⟩ := hs
  obtain ⟨k, rfl⟩ : ∃ k, v = 8 * k := ⟨v / 8, by omega⟩
  have hk : k ≤ d := by omega
  have hdiv : 8 * k / 8 = k := by omega
  cases c
  case bool => exact ⟨fun _ => trivial, fun _ => rfl⟩
  case uint =>
    simp only [BitsOk] at hb
    cases y <;> simp only [clsType, Val.Of] at hof
    next i =>
    simp only [ComesBack, writtenIn]
    rw [turnedIn, if_neg (by decide), hdiv, clsType, encIn, beBytes_unsigned hk hof, lastFirst_append (by simp)]
    exact shortest_iff (by omega) hk hof
  case int =>
    simp only [BitsOk] at hb
    cases y <;> simp only [clsType, Val.Of] at hof
    next i =>
    simp only [ComesBack, writtenIn]
    rw [turnedIn, if_neg (by decide), hdiv, clsType, encIn]
    exact signed_turned_iff (by omega) hk hof
  case ufixed =>
    simp only [BitsOk] at hb
    cases y <;> simp only [clsType, Val.Of] at hof
    next i =>
    simp only [ComesBack, writtenIn]
    rw [turnedIn, if_neg (by decide), hdiv, clsType, encIn, beBytes_unsigned hk hof, lastFirst_append (by simp)]
    exact shortest_iff (by omega) hk hof
  case fixed =>
    simp only [BitsOk] at hb
    cases y <;> simp only [clsType, Val.Of] at hof
    next i =>
    simp only [ComesBack, writtenIn]
    rw [turnedIn, if_neg (by decide), hdiv, clsType, encIn]
    exact signed_turned_iff (by omega) hk hof
  case address => exact ⟨fun _ => by simp [ComesBack], fun _ => rfl⟩
  case bytesM =>
    simp only [clsType, hdiv, denote, Option.bind_eq_bind, Option.bind_eq_some_iff] at hy
    obtain ⟨b, h1, h2⟩ := hy
    split at h2
    swap
    · cases h2
    next h3 =>
    injection h2 with h2
    subst h2
    simp only [ComesBack, writtenIn, h1, Option.some.injEq, exists_eq_left', hdiv]
    rw [turnedIn, if_pos rfl, hdiv, clsType, hdiv, encIn, lastFirst_append (by simp),
      show d - b.length = (d - k) + (k - b.length) by omega, ← List.replicate_append_replicate,
      List.append_assoc, List.append_cancel_left_eq, append_replicate_comm]
    constructor
    · rintro (h | h)
      · exact .inl (by omega)
      · exact .inr h
    · rintro (h | h)
      · exact .inl (by omega)
      · exact .inr h

end EthAbi
