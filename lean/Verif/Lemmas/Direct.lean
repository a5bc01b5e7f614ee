import Verif.Spec.Direct
import Verif.Lemmas.LeafDec

/-! # Coder objects with sizes of one's own -/
namespace EthAbi
open Spec

/-! ## Numbers in `d` bytes -/

theorem beBytes_unsigned {k d : Nat} (hk : k ≤ d) {i : Int} (h : fitsU (8 * k) i) :
    beBytes d i = List.replicate (d - k) 0 ++ beN k i.toNat := by
  obtain ⟨h0, h1⟩ := h
  have h2 : i.toNat < 256 ^ k := by
    have : (i.toNat : Int) < ((256 ^ k : Nat) : Int) := by
      rw [pow_256_int, Int.toNat_of_nonneg h0]; exact h1
    exact_mod_cast this
  have h3 : i < 2 ^ (8 * d) := lt_of_lt_of_le h1 (pow_le_pow_right₀ (by norm_num) (by omega))
  rw [beBytes_eq, Int.emod_eq_of_lt h0 h3, ← beN_small h2]
  congr 1; omega

theorem beBytes_negative {k d : Nat} (hk : k ≤ d) (hk0 : 0 < k) {i : Int} (h0 : -2 ^ (8 * k - 1) ≤ i)
    (h1 : i < 0) :
    beBytes d i = List.replicate (d - k) 0xff ++ beN k (i + 2 ^ (8 * k)).toNat := by
  have hpow : (2 : Int) ^ (8 * k) = 2 * 2 ^ (8 * k - 1) := by
    rw [← pow_succ']; congr 1; omega
  have hpos : (0 : Int) < 2 ^ (8 * k - 1) := by positivity
  have hmod : i % 2 ^ (8 * k) = i + 2 ^ (8 * k) := by
    rw [← Int.add_emod_right]
    exact Int.emod_eq_of_lt (by linarith) (by linarith)
  have hfp := fpad_beBytes hk0 hk h0 h1
  rw [hmod] at hfp
  obtain ⟨n, hn⟩ := Int.eq_ofNat_of_zero_le (show 0 ≤ i + 2 ^ (8 * k) by linarith)
  rw [hn, Int.toNat_natCast] at hfp
  rw [hn, Int.toNat_natCast]
  have hn1 : n < 256 ^ k := by
    have : (n : Int) < ((256 ^ k : Nat) : Int) := by rw [pow_256_int, ← hn]; linarith
    exact_mod_cast this
  have hn2 : 256 ^ (k - 1) ≤ n := by
    have e : (2 : Int) ^ (8 * k - 1) = 128 * 2 ^ (8 * (k - 1)) := by
      rw [show (128 : Int) = 2 ^ 7 by norm_num, ← pow_add]; congr 1; omega
    have hp : (0 : Int) < 2 ^ (8 * (k - 1)) := by positivity
    have : ((256 ^ (k - 1) : Nat) : Int) ≤ n := by rw [pow_256_int, ← hn]; linarith
    exact_mod_cast this
  have := fpad_intToBigEndian (a := d - k) hk0 hn1 hn2
  rw [show d - k + k = d by omega] at this
  rw [← hfp, this]

theorem beBytes_signed {k d : Nat} (hk : k ≤ d) (hk0 : 0 < k) {i : Int} (hf : fitsS (8 * k) i) :
    beBytes d i = List.replicate (d - k) (if i < 0 then 0xff else 0) ++
      beN k (if i < 0 then i + 2 ^ (8 * k) else i).toNat := by
  by_cases hi : i < 0
  · rw [if_pos hi, if_pos hi]
    exact beBytes_negative hk hk0 hf.1 hi
  · rw [if_neg hi, if_neg hi]
    refine beBytes_unsigned hk ⟨by omega, lt_of_lt_of_le hf.2 ?_⟩
    exact pow_le_pow_right₀ (by norm_num) (by omega)

/-- An unsigned number in `d` bytes of which `k` are for the value. -/
theorem unsigned_iff {k d : Nat} (hk : k ≤ d) {raw : Bytes} (hr : raw.length = d) {i : Int} :
    (raw.take (d - k) = List.replicate (d - k) 0 ∧ i = bigEndianToInt (raw.drop (d - k))) ↔
      fitsU (8 * k) i ∧ beBytes d i = raw := by
  have hb : (raw.drop (d - k)).length = k := by simp [hr]; omega
  constructor
  · rintro ⟨ha, rfl⟩
    have hf : fitsU (8 * k) (bigEndianToInt (raw.drop (d - k))) := by
      refine ⟨by omega, ?_⟩
      have := bigEndianToInt_lt (raw.drop (d - k))
      rw [hb] at this
      rw [← pow_256_int]
      exact_mod_cast this
    refine ⟨hf, ?_⟩
    rw [beBytes_unsigned hk hf, Int.toNat_natCast, beN_bigEndianToInt' _ hb, ← ha, List.take_append_drop]
  · rintro ⟨hf, rfl⟩
    rw [beBytes_unsigned hk hf]
    have ha : (List.replicate (d - k) (0 : UInt8)).length = d - k := by simp
    rw [List.take_left' ha, List.drop_left' ha, bigEndianToInt_beN, Nat.mod_eq_of_lt,
      Int.toNat_of_nonneg hf.1]
    · exact ⟨rfl, rfl⟩
    · have : (i.toNat : Int) < ((256 ^ k : Nat) : Int) := by
        rw [pow_256_int, Int.toNat_of_nonneg hf.1]; exact hf.2
      exact_mod_cast this

/-- A signed number in `d` bytes of which `k` are for the value. -/
theorem signed_iff {k d : Nat} (hk : k ≤ d) (hk0 : 0 < k) {raw : Bytes} (hr : raw.length = d) {i : Int} :
    (raw.take (d - k) = List.replicate (d - k) (if i < 0 then 0xff else 0) ∧
      i = toSigned (8 * k) (raw.drop (d - k))) ↔ fitsS (8 * k) i ∧ beBytes d i = raw := by
  have hb : (raw.drop (d - k)).length = k := by simp [hr]; omega
  constructor
  · rintro ⟨ha, rfl⟩
    obtain ⟨h1, h2, h3⟩ := toSigned_spec hk0 hb
    refine ⟨h1, ?_⟩
    rw [beBytes_signed hk hk0 h1, ← ha]
    conv_rhs => rw [← List.take_append_drop (d - k) raw]
    congr 1
    by_cases hi : toSigned (8 * k) (raw.drop (d - k)) < 0
    · rw [if_pos hi, h2 hi, beN_bigEndianToInt' _ hb]
    · rw [if_neg hi, h3 (by omega), beN_bigEndianToInt' _ hb]
  · rintro ⟨hf, rfl⟩
    rw [beBytes_signed hk hk0 hf]
    have ha : (List.replicate (d - k) (if i < 0 then (0xff : UInt8) else 0)).length = d - k := by simp
    rw [List.take_left' ha, List.drop_left' ha, toSigned_beN hk0 hf]
    exact ⟨rfl, rfl⟩

/-! ## Reading `d` bytes -/

theorem readFixed_iff {d : Nat} {st : Stream} (hd : st.data.length ≤ ssizeMax) {raw : Bytes} {st' : Stream} :
    readFixed d st = .ok (raw, st') ↔
      raw.length = d ∧ raw <+: st.data.drop st.pos ∧ st' = { st with pos := st.pos + d } := by
  have hlen : ((st.data.drop st.pos).take d).length = min d (st.data.length - st.pos) := by simp
  unfold readFixed Stream.read
  constructor
  · intro h
    by_cases hs : ssizeMax < d
    · rw [if_pos hs] at h; cases h
    · rw [if_neg hs] at h
      simp only [ok_bind] at h
      split at h
      · cases h
      · next h2 =>
        have h2 : ((st.data.drop st.pos).take d).length = d := by simpa using h2
        injection h with h
        injection h with h3 h4
        subst h3
        refine ⟨h2, List.take_prefix _ _, ?_⟩
        rw [← h4, h2]
  · rintro ⟨h1, h2, rfl⟩
    have h3 : (st.data.drop st.pos).take d = raw := by
      rw [← h1]; exact (List.prefix_iff_eq_take.1 h2).symm
    have h4 : d ≤ st.data.length - st.pos := by
      have := h2.length_le
      rw [h1, List.length_drop] at this
      exact this
    rw [if_neg (by omega)]
    simp only [ok_bind, h3, h1]
    rw [if_neg (by simp)]
    rfl

/-- A fixed-size decoder in terms of the bytes it reads. -/
theorem decodeFixed_iff {v d : Nat} {be : Bool} {fn : Bytes → PyM PyVal} {neg : PyVal → Bool} {st : Stream}
    (hd : st.data.length ≤ ssizeMax) {x : PyVal} {st' : Stream} :
    decodeFixed v d be fn neg st = .ok (x, st') ↔
      ∃ raw, raw.length = d ∧ raw <+: st.data.drop st.pos ∧ st' = { st with pos := st.pos + d } ∧
        fn (splitDataAndPadding (v / 8) d be raw).1 = .ok x ∧
        (splitDataAndPadding (v / 8) d be raw).2 = List.replicate (d - v / 8) (if neg x then 0xff else 0x00) := by
  have hp : ∀ (n : Bool) (pad : Bytes), validatePadding (v / 8) d n pad = .ok () ↔
      pad = List.replicate (d - v / 8) (if n then 0xff else 0x00) := by
    intro n pad
    simp only [validatePadding]
    cases n <;> simp
  unfold decodeFixed
  constructor
  · intro h
    obtain ⟨⟨raw, st1⟩, h1, h⟩ := bind_eq_ok.1 h
    obtain ⟨h2, h3, h4⟩ := (readFixed_iff hd).1 h1
    simp only at h
    obtain ⟨y, h5, h⟩ := bind_eq_ok.1 h
    obtain ⟨⟨⟩, h6, h⟩ := bind_eq_ok.1 h
    injection h with h
    injection h with h7 h8
    subst h7 h8
    exact ⟨raw, h2, h3, h4, h5, (hp _ _).1 h6⟩
  · rintro ⟨raw, h2, h3, rfl, h5, h6⟩
    rw [(readFixed_iff hd).2 ⟨h2, h3, rfl⟩]
    simp only [ok_bind]
    generalize splitDataAndPadding (v / 8) d be raw = sp at h5 h6
    obtain ⟨a, b⟩ := sp
    simp only at h5 h6 ⊢
    rw [h5, ok_bind, (hp _ _).2 h6]
    rfl


theorem encIn_length {c : Cls} {v d f : Nat} (hs : SizesOk c v d f) (hb : BitsOk c v) {y : Val}
    (hy : Val.Of (clsType c v f) y) : (encIn d (clsType c v f) y).length = d := by
  obtain ⟨h8, hvd, _⟩ := hs
  cases c <;> cases y <;> simp only [clsType, Val.Of] at hy <;> try cases hy
  all_goals simp only [clsType, encIn, beBytes_length]
  · simp only [BitsOk] at hb
    simp; omega
  · simp; omega

/-- What the fixed-size decoders make of `d` bytes, by class. -/
def directFn (c : Cls) (v f : Nat) : Bytes → PyM PyVal :=
  match c with
  | .bool => boolDecoderFn
  | .uint => uintDecoderFn
  | .int => fun data => .ok (.int (toSigned v data))
  | .ufixed => fun data => .ok (decVal (decDivTenPow (bigEndianToInt data) f))
  | .fixed => fun data => .ok (decVal (decDivTenPow (toSigned v data) f))
  | .address => addressDecoderFn
  | .bytesM => fun data => .ok (.bytes data)

/-- Whether the padding may be `0xff`. -/
def directNeg (c : Cls) : PyVal → Bool :=
  match c with
  | .int => valNeg
  | .fixed => valNeg
  | _ => neverNeg

theorem direct_raw {c : Cls} {v d f : Nat} (hs : SizesOk c v d f) (hb : BitsOk c v) {raw : Bytes}
    (hr : raw.length = d) (x : PyVal) :
    (directFn c v f (splitDataAndPadding (v / 8) d (c != .bytesM) raw).1 = .ok x ∧
      (splitDataAndPadding (v / 8) d (c != .bytesM) raw).2 =
        List.replicate (d - v / 8) (if directNeg c x then 0xff else 0x00)) ↔
    ∃ y, Val.Of (clsType c v f) y ∧ encIn d (clsType c v f) y = raw ∧ x = toPy (clsType c v f) y := by
  obtain ⟨h8, hvd, _⟩ := hs
  obtain ⟨k, rfl⟩ : ∃ k, v = 8 * k := ⟨v / 8, by omega⟩
  have hk : k ≤ d := by omega
  have hdiv : 8 * k / 8 = k := by omega
  have hbl : (raw.drop (d - k)).length = k := by simp [hr]; omega
  rw [hdiv]
  cases c
  case bool =>
    obtain rfl : k = 1 := by simp only [BitsOk] at hb; omega
    simp only [directFn, splitDataAndPadding, directNeg, neverNeg, clsType, boolDecoderFn,
      show (Cls.bool != Cls.bytesM) = true from rfl, if_true, Bool.false_eq_true, if_false]
    have key : ∀ b : Nat, b ≤ 1 → (raw.take (d - 1) = List.replicate (d - 1) 0 ∧ raw.drop (d - 1) = [UInt8.ofNat b] ↔
        beBytes d b = raw) := by
      intro b hb1
      have hf : fitsU (8 * 1) (b : Int) := ⟨by omega, by norm_num; omega⟩
      rw [beBytes_unsigned hk hf]
      simp only [beN, Int.toNat_natCast]
      constructor
      · rintro ⟨h1, h2⟩
        conv_rhs => rw [← List.take_append_drop (d - 1) raw, h1, h2]
        simp
      · intro h
        rw [← h]
        rw [List.take_left' (by simp), List.drop_left' (by simp)]
        simp
    constructor
    · rintro ⟨h1, h2⟩
      split at h1
      · next h0 =>
        injection h1 with h1
        subst h1
        exact ⟨.num 0, by simp [Val.Of], (key 0 (by omega)).1 ⟨h2, h0⟩, rfl⟩
      · split at h1
        · next h0 =>
          injection h1 with h1
          subst h1
          exact ⟨.num 1, by simp [Val.Of], (key 1 (by omega)).1 ⟨h2, h0⟩, rfl⟩
        · cases h1
    · rintro ⟨y, hy, he, rfl⟩
      cases y <;> simp only [Val.Of] at hy
      rcases hy with rfl | rfl
      · obtain ⟨h1, h2⟩ := (key 0 (by omega)).2 he
        rw [h2, if_pos (by rfl)]
        exact ⟨rfl, h1⟩
      · obtain ⟨h1, h2⟩ := (key 1 (by omega)).2 he
        rw [h2, if_neg (by decide), if_pos (by rfl)]
        exact ⟨rfl, h1⟩
  case uint =>
    simp only [directFn, splitDataAndPadding, directNeg, neverNeg, clsType, uintDecoderFn,
      show (Cls.uint != Cls.bytesM) = true from rfl, if_true, Bool.false_eq_true, if_false]
    constructor
    · rintro ⟨h1, h2⟩
      injection h1 with h1
      subst h1
      obtain ⟨h3, h4⟩ := (unsigned_iff hk hr).1 ⟨h2, rfl⟩
      exact ⟨.num _, h3, h4, rfl⟩
    · rintro ⟨y, hy, he, rfl⟩
      cases y <;> simp only [Val.Of] at hy
      obtain ⟨h1, h2⟩ := (unsigned_iff hk hr).2 ⟨hy, he⟩
      exact ⟨by rw [← h2]; rfl, h1⟩
  case int =>
    have hk0 : 0 < k := by simp only [BitsOk] at hb; omega
    simp only [directFn, splitDataAndPadding, directNeg, valNeg, clsType,
      show (Cls.int != Cls.bytesM) = true from rfl, if_true]
    constructor
    · rintro ⟨h1, h2⟩
      injection h1 with h1
      subst h1
      simp only [decide_eq_true_eq] at h2
      obtain ⟨h3, h4⟩ := (signed_iff hk hk0 hr).1 ⟨h2, rfl⟩
      exact ⟨.num _, h3, h4, rfl⟩
    · rintro ⟨y, hy, he, rfl⟩
      cases y <;> simp only [Val.Of] at hy
      obtain ⟨h1, h2⟩ := (signed_iff hk hk0 hr).2 ⟨hy, he⟩
      refine ⟨by rw [← h2]; rfl, ?_⟩
      simpa only [toPy, decide_eq_true_eq] using h1
  case ufixed =>
    simp only [directFn, splitDataAndPadding, directNeg, neverNeg, clsType, decDivTenPow_eq, decVal,
      show (Cls.ufixed != Cls.bytesM) = true from rfl, if_true, Bool.false_eq_true, if_false]
    constructor
    · rintro ⟨h1, h2⟩
      injection h1 with h1
      subst h1
      obtain ⟨h3, h4⟩ := (unsigned_iff hk hr).1 ⟨h2, rfl⟩
      exact ⟨.num _, h3, h4, rfl⟩
    · rintro ⟨y, hy, he, rfl⟩
      cases y <;> simp only [Val.Of] at hy
      obtain ⟨h1, h2⟩ := (unsigned_iff hk hr).2 ⟨hy, he⟩
      exact ⟨by rw [← h2]; rfl, h1⟩
  case fixed =>
    have hk0 : 0 < k := by simp only [BitsOk] at hb; omega
    simp only [directFn, splitDataAndPadding, directNeg, valNeg, clsType, decDivTenPow_eq, decVal,
      show (Cls.fixed != Cls.bytesM) = true from rfl, if_true]
    constructor
    · rintro ⟨h1, h2⟩
      injection h1 with h1
      subst h1
      simp only [decide_eq_true_eq, gridDec_neg] at h2
      obtain ⟨h3, h4⟩ := (signed_iff hk hk0 hr).1 ⟨h2, rfl⟩
      exact ⟨.num _, h3, h4, rfl⟩
    · rintro ⟨y, hy, he, rfl⟩
      cases y <;> simp only [Val.Of] at hy
      obtain ⟨h1, h2⟩ := (signed_iff hk hk0 hr).2 ⟨hy, he⟩
      refine ⟨by rw [← h2]; rfl, ?_⟩
      simpa only [toPy, decide_eq_true_eq, gridDec_neg] using h1
  case address =>
    obtain rfl : k = 20 := by simp only [BitsOk] at hb; omega
    simp only [directFn, splitDataAndPadding, directNeg, neverNeg, clsType, addressDecoderFn, toNormalizedAddress,
      show (Cls.address != Cls.bytesM) = true from rfl, if_true, Bool.false_eq_true, if_false, hbl]
    constructor
    · rintro ⟨h1, h2⟩
      simp at h1
      subst h1
      refine ⟨.raw (raw.drop (d - 20)), hbl, ?_, rfl⟩
      rw [encIn, ← h2, List.take_append_drop]
    · rintro ⟨y, hy, he, rfl⟩
      cases y <;> simp only [Val.Of] at hy
      rw [encIn] at he
      subst he
      rw [List.take_left' (by simp), List.drop_left' (by simp)]
      exact ⟨rfl, rfl⟩
  case bytesM =>
    simp only [directFn, splitDataAndPadding, directNeg, neverNeg, clsType, hdiv,
      show (Cls.bytesM != Cls.bytesM) = false from rfl, Bool.false_eq_true, if_false]
    constructor
    · rintro ⟨h1, h2⟩
      injection h1 with h1
      subst h1
      refine ⟨.raw (raw.take k), by simp [Val.Of, hr]; omega, ?_, rfl⟩
      rw [encIn, ← h2, List.take_append_drop]
    · rintro ⟨y, hy, he, rfl⟩
      cases y <;> simp only [Val.Of] at hy
      rw [encIn] at he
      subst he
      rw [List.take_left' hy, List.drop_left' hy]
      exact ⟨rfl, rfl⟩

/-- What an object of a decoder class returns. -/
theorem direct_decodes {c : Cls} {v d f : Nat} (hs : SizesOk c v d f) (hb : BitsOk c v) {st st' : Stream}
    (hd : st.data.length ≤ ssizeMax) {x : PyVal} :
    decodeFixed v d (c != .bytesM) (directFn c v f) (directNeg c) st = .ok (x, st') ↔
      ∃ y, Val.Of (clsType c v f) y ∧ encIn d (clsType c v f) y <+: st.data.drop st.pos ∧
        x = toPy (clsType c v f) y ∧ st' = { st with pos := st.pos + d } := by
  rw [decodeFixed_iff hd]
  constructor
  · rintro ⟨raw, h1, h2, h3, h4, h5⟩
    obtain ⟨y, hy, he, hx⟩ := (direct_raw hs hb h1 x).1 ⟨h4, h5⟩
    exact ⟨y, hy, he ▸ h2, hx, h3⟩
  · rintro ⟨y, hy, h2, hx, h3⟩
    have hl := encIn_length hs hb hy
    obtain ⟨h4, h5⟩ := (direct_raw hs hb hl x).2 ⟨y, hy, rfl, hx⟩
    exact ⟨_, hl, h2, h3, h4, h5⟩

/-! ## The keyword arguments -/

theorem hasattr_takes (c : Cls) (key : Key) : c.hasattr key = takes c key := by
  cases c <;> cases key <;> rfl

theorem initKwargs_unknown {c : Cls} {kwargs : List (Key × Option Nat)} (a : Attrs)
    (h : ∃ p ∈ kwargs, takes c p.1 = false) : initKwargs c kwargs a = .error .attributeError := by
  simp only [← hasattr_takes] at h
  induction kwargs generalizing a with
  | nil => obtain ⟨_, hp, _⟩ := h; cases hp
  | cons p kwargs ih =>
    obtain ⟨key, v⟩ := p
    simp only [initKwargs]
    cases hk : c.hasattr key with
    | false => simp
    | true =>
      simp only [Bool.not_true, Bool.false_eq_true, if_false]
      obtain ⟨q, hq, hq2⟩ := h
      rcases List.mem_cons.1 hq with rfl | hq
      · simp only at hq2; rw [hk] at hq2; cases hq2
      · exact ih _ ⟨q, hq, hq2⟩

theorem argument_of_not_mem {kwargs : List (Key × Option Nat)} {key : Key} (h : key ∉ kwargs.map Prod.fst)
    (x : Option Nat) : argument kwargs key x = x := by
  unfold argument
  rw [List.lookup_eq_none_iff.2]
  · rfl
  · intro p hp
    simp only [bne_iff_ne]
    rintro rfl
    exact h (List.mem_map_of_mem hp)

theorem argument_cons {kwargs : List (Key × Option Nat)} {key key' : Key} {v : Option Nat}
    (x : Option Nat) : argument ((key', v) :: kwargs) key x = if key = key' then v else argument kwargs key x := by
  unfold argument
  by_cases h : key = key'
  · subst h; simp
  · rw [if_neg h, List.lookup_cons, beq_false_of_ne h]

theorem initKwargs_known {c : Cls} {kwargs : List (Key × Option Nat)} (hn : DistinctKeys kwargs)
    (h : ∀ p ∈ kwargs, takes c p.1 = true) (a : Attrs) :
    initKwargs c kwargs a = .ok
      { value := argument kwargs .valueBitSize a.value
        data := argument kwargs .dataByteSize a.data
        frac := argument kwargs .fracPlaces a.frac
        big := argument kwargs .isBigEndian a.big } := by
  induction kwargs generalizing a with
  | nil => rfl
  | cons p kwargs ih =>
    obtain ⟨key, v⟩ := p
    have hn' : key ∉ kwargs.map Prod.fst ∧ DistinctKeys kwargs := by
      simpa only [DistinctKeys, List.map_cons, List.nodup_cons] using hn
    have hk : c.hasattr key = true := (hasattr_takes c key).trans (h (key, v) (by simp))
    simp only [initKwargs, hk, Bool.not_true, Bool.false_eq_true, if_false]
    rw [ih hn'.2 (fun q hq => h q (by simp [hq]))]
    have ha := argument_of_not_mem hn'.1
    cases key <;> simp only [Attrs.set, argument_cons, ha] <;> simp

end EthAbi
