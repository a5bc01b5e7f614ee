import Verif.Lemmas.Bytes
import Verif.Lemmas.Decimal
import Verif.Lemmas.Address
import Verif.Lemmas.Utf8
import Verif.Model.Encoding
import Verif.Spec.Values

/-! # The encoder object for each ABI type, and what the elementary ones do -/
namespace EthAbi
open Spec

/-- The object `UnsignedIntegerEncoder(value_bit_size=n, data_byte_size=d)`. -/
def uintEnc [Ext] (n d : Nat) : Encoder where
  isDynamic := some false
  validate := some (intValidate (computeUnsignedIntegerBounds n))
  call := fixedSizeEncode (intValidate (computeUnsignedIntegerBounds n)) uintEncodeFn true d

/-- The object `SignedIntegerEncoder(value_bit_size=n, data_byte_size=d)`. -/
def sintEnc [Ext] (n d : Nat) : Encoder where
  isDynamic := some false
  validate := some (intValidate (computeSignedIntegerBounds n))
  call := sintEncode (intValidate (computeSignedIntegerBounds n)) n d

/-- The object `BooleanEncoder(data_byte_size=d)`. -/
def boolEnc [Ext] (d : Nat) : Encoder where
  isDynamic := some false
  validate := some boolValidate
  call := fixedSizeEncode boolValidate boolEncodeFn true d

/-- The object `UnsignedFixedEncoder(value_bit_size=m, frac_places=n, data_byte_size=d)`. -/
def ufixedEnc [Ext] (m n d : Nat) : Encoder where
  isDynamic := some false
  validate := some (fixedValidate (computeUnsignedFixedBounds m n) n)
  call := fixedSizeEncode (fixedValidate (computeUnsignedFixedBounds m n) n) (ufixedEncodeFn n) true d

/-- The object `SignedFixedEncoder(value_bit_size=m, frac_places=n, data_byte_size=d)`. -/
def sfixedEnc [Ext] (m n d : Nat) : Encoder where
  isDynamic := some false
  validate := some (fixedValidate (computeSignedFixedBounds m n) n)
  call := sfixedEncode (fixedValidate (computeSignedFixedBounds m n) n) m n d

/-- The object `AddressEncoder(data_byte_size=d)`. -/
def addressEnc [Ext] (d : Nat) : Encoder where
  isDynamic := some false
  validate := some addressValidate
  call := fixedSizeEncode addressValidate toCanonicalAddress true d

/-- The object `BytesEncoder(value_bit_size=8*m, data_byte_size=d)`. -/
def bytesMEnc [Ext] (m d : Nat) : Encoder where
  isDynamic := some false
  validate := some (bytesMValidate (m * 8))
  call := fixedSizeEncode (bytesMValidate (m * 8)) bytesEncodeFn false d

/-- The object `SizedArrayEncoder(array_size=k, item_encoder=item)`. -/
def sizedEnc [Ext] (k : Nat) (item : Encoder) : Encoder where
  isDynamic := some item.dyn
  validate := some (sizedArrayValidate item (some k))
  call := encodeElements (sizedArrayValidate item (some k)) item

mutual
/-- The encoder object of a type in the default (`pk = false`) or the packed registry. -/
def encOf [Ext] (pk : Bool) : Ty → Encoder
  | .uint n => uintEnc n (if pk then n / 8 else 32)
  | .int n => sintEnc n (if pk then n / 8 else 32)
  | .address => addressEnc (if pk then 20 else 32)
  | .bool => boolEnc (if pk then 1 else 32)
  | .ufixed m n => ufixedEnc m n (if pk then m / 8 else 32)
  | .fixed m n => sfixedEnc m n (if pk then m / 8 else 32)
  | .bytesM m => bytesMEnc m (if pk then m else 32)
  | .bytes => if pk then packedByteStringEncoder else byteStringEncoder
  | .string => if pk then packedTextStringEncoder else textStringEncoder
  | .sized k t => if pk then mkPackedArray (some k) (encOf pk t) else sizedEnc k (encOf pk t)
  | .dyn t => if pk then mkPackedArray none (encOf pk t) else mkDynamicArray (encOf pk t)
  | .tuple ts => mkTuple (encsOf pk ts)
/-- The encoder objects of a list of types. -/
def encsOf [Ext] (pk : Bool) : List Ty → List Encoder
  | [] => []
  | t :: ts => encOf pk t :: encsOf pk ts
end

/-- The specified encoding, standard or packed. -/
def encBy (pk : Bool) (t : Ty) (x : Val) : Bytes := if pk then encPacked t x else enc t x

/-- The standard dynamic flag; in packed mode nothing is dynamic. -/
def dynBy (pk : Bool) (t : Ty) : Bool := !pk && t.dynamic

/-! ## The fixed-point validation -/

theorem oddValidate_error [Ext] (b : Dec10 × Dec10) (v : PyVal) : ∃ e, oddValidate (.ok b) v = .error e ∧
    (Refusal v e ∨ e = .typeError ∧ OddNumber v) := by
  unfold oddValidate
  split
  · exact ⟨_, rfl, .inr ⟨rfl, .inl rfl⟩⟩
  · simp only [ok_bind, invalidate_eq]
    split
    · exact ⟨_, rfl, .inl (shown_refusal _ rfl)⟩
    · exact ⟨_, rfl, .inr ⟨rfl, .inr ⟨_, _, rfl⟩⟩⟩
  · rw [invalidate_eq]
    exact ⟨_, rfl, .inl (shown_refusal _ rfl)⟩

/-- What `fixed_bounds` and the grid test accept, in terms of the exact value. -/
theorem fixedValidate_spec [Ext] {n : Nat} (hn : n ≤ 80) {L U : Dec10} {lo hi : Int}
    (hL : L.V = lo * (10 : ℚ) ^ (-(n : Int))) (hU : U.V = hi * (10 : ℚ) ^ (-(n : Int)))
    (hlo : -2 ^ 256 ≤ lo) (hlo0 : lo ≤ 0) (hhi0 : 0 ≤ hi) (hhi : hi ≤ 2 ^ 256) (v : PyVal) :
    (∀ x k, number? v = some x → onGrid? n x = some k → lo ≤ k → k ≤ hi →
      fixedValidate (.ok (L, U)) n v = .ok () ∧ fixedScaled n v = .ok k) ∧
    (∀ x k, number? v = some x → onGrid? n x = some k → (k < lo ∨ hi < k) →
      fixedValidate (.ok (L, U)) n v = .error (shown v .valueOutOfBounds)) ∧
    (fixedValidate (.ok (L, U)) n v = .ok () → ∃ x i, number? v = some x ∧
      fixedScaled n v = .ok i ∧ lo ≤ i ∧ i ≤ hi ∧ (0 ≤ x.1 → 0 ≤ i) ∧ (x.1 < 0 → i ≤ 0)) ∧
    (∀ e, fixedValidate (.ok (L, U)) n v = .error e → Refusal v e ∨ e = .typeError ∧ OddNumber v) ∧
    (∀ x, number? v = some x → onGrid? n x = none → 0 ≤ x.1 → decEtiny ≤ x.2 →
      fixedValidate (.ok (L, U)) n v ≠ .ok ()) ∧
    (∀ x, number? v = some x → x.1 < 0 → lo * (10 : ℚ) ^ (-(n : Int)) ≤ x.V →
      fixedValidate (.ok (L, U)) n v = .ok ()) := by
  have h10 : (0 : ℚ) < (10 : ℚ) ^ (-(n : Int)) := ten_zpow_pos _
  -- unfold once
  have hunf : ∀ x, number? v = some x → fixedValidate (.ok (L, U)) n v =
      if decLt x L || decLt U x then .error (shown v .valueOutOfBounds)
      else (decRem x (tenPowNeg n) >>= fun r =>
        if 0 < r.1 then .error (shown v .illegalValue) else .ok ()) := by
    intro x hx
    have hnum : (isNumber v && v != .float) = true := by
      cases v <;> first | rfl | (simp [number?] at hx)
    have hx' : asDec10? v = some x := by rw [asDec10_eq]; exact hx
    simp only [fixedValidate, hnum, hx', invalidate_eq]
    simp only [Bool.not_true, Bool.false_eq_true, if_false, ok_bind, pure_eq_ok]
    split
    · rfl
    · rfl
  have hscale : ∀ x, number? v = some x →
      fixedScaled n v = (ctxFinal (x.1 * 10 ^ n, x.2) >>= fun y => .ok (decToInt y)) := by
    intro x hx
    have hx' : asDec10? v = some x := by rw [asDec10_eq]; exact hx
    simp only [fixedScaled, hx', decMul, tenPow, add_zero]
    rfl
  have hVs : ∀ x : Dec10, Dec10.V (x.1 * 10 ^ n, x.2) = x.V * 10 ^ n := by
    intro x; simp only [Dec10.V]; push_cast; ring
  have hcancel : (10 : ℚ) ^ (-(n : Int)) * 10 ^ n = 1 := by
    rw [← zpow_natCast, ← zpow_add₀ (by norm_num)]; simp
  have hp78 : (2 : ℚ) ^ 256 < 10 ^ (999 : Int) := by
    have h1 : (2 : ℚ) ^ 256 < 10 ^ (78 : Int) := by norm_num
    exact lt_trans h1 (zpow_lt_zpow_right₀ (by norm_num) (by norm_num))
  have hBpos : (0 : ℚ) < (2 : ℚ) ^ 256 := by positivity
  obtain ⟨B, hB⟩ : ∃ B : ℚ, B = 10 ^ (999 : Int) := ⟨_, rfl⟩
  have hloq : -(2 : ℚ) ^ 256 ≤ lo := by exact_mod_cast hlo
  have hhiq : (hi : ℚ) ≤ 2 ^ 256 := by exact_mod_cast hhi
  rw [← hB] at hp78
  generalize (2 : ℚ) ^ 256 = C at hp78 hloq hhiq hBpos
  have hloB : -B < lo := by linarith
  have hhiB : (hi : ℚ) < B := by linarith
  have hin : ∀ x : Dec10, L.V ≤ x.V → x.V ≤ U.V →
      |x.V| < (10 : ℚ) ^ (999 : Int) * 10 ^ (-(n : Int)) := by
    intro x h1 h2
    rw [hL] at h1
    rw [hU] at h2
    rw [← hB, abs_lt]
    have h3 := mul_lt_mul_of_pos_right hloB h10
    have h4 := mul_lt_mul_of_pos_right hhiB h10
    constructor <;> linarith
  have hin' : ∀ x : Dec10, L.V ≤ x.V → x.V ≤ U.V →
      (lo : ℚ) ≤ x.V * 10 ^ n ∧ x.V * 10 ^ n ≤ hi := by
    intro x h1 h2
    have hp : (0 : ℚ) < 10 ^ n := by positivity
    constructor
    · have := mul_le_mul_of_nonneg_right h1 hp.le
      rwa [hL, mul_assoc, hcancel, mul_one] at this
    · have := mul_le_mul_of_nonneg_right h2 hp.le
      rwa [hU, mul_assoc, hcancel, mul_one] at this
  have hbnd : ∀ x : Dec10, (decLt x L || decLt U x) = false ↔ L.V ≤ x.V ∧ x.V ≤ U.V := by
    intro x
    rw [Bool.or_eq_false_iff, decLt_eq_false_iff, decLt_eq_false_iff]
  refine ⟨?_, ?_, ?_, ?_, ?_, ?_⟩
  · intro x k hx hk h1 h2
    have hxV := onGrid_some_iff.1 hk
    have h1q : (lo : ℚ) ≤ k := by exact_mod_cast h1
    have h2q : (k : ℚ) ≤ hi := by exact_mod_cast h2
    have hb : L.V ≤ x.V ∧ x.V ≤ U.V := by
      rw [hL, hU, hxV]
      exact ⟨mul_le_mul_of_nonneg_right h1q h10.le, mul_le_mul_of_nonneg_right h2q h10.le⟩
    obtain ⟨r, hr, _, hr0, _⟩ := decRem_spec hn (hin x hb.1 hb.2)
    constructor
    · rw [hunf x hx, (hbnd x).2 hb, hr]
      simp [hr0 (by rw [hk]; rfl)]
    · have hkV : Dec10.V (x.1 * 10 ^ n, x.2) = k := by
        rw [hVs, hxV, mul_assoc, hcancel, mul_one]
      obtain ⟨y, hy, hy1, hy2, _⟩ := ctxFinal_spec (x := (x.1 * 10 ^ n, x.2)) (by
        rw [hkV, ← hB, abs_lt]; constructor <;> linarith)
      rw [hscale x hx, hy, ok_bind, decToInt_exact (le_antisymm (hy1 k hkV.le) (hy2 k hkV.ge))]
  · intro x k hx hk h
    have hxV := onGrid_some_iff.1 hk
    rw [hunf x hx, if_pos]
    rw [← Bool.not_eq_false, hbnd, hL, hU, hxV]
    rintro ⟨a, b⟩
    have a' := le_of_mul_le_mul_right a h10
    have b' := le_of_mul_le_mul_right b h10
    have a'' : lo ≤ k := by exact_mod_cast a'
    have b'' : k ≤ hi := by exact_mod_cast b'
    omega
  · intro hok
    cases hx : number? v with
    | none =>
      exfalso
      have hx' : asDec10? v = none := by rw [asDec10_eq]; exact hx
      obtain ⟨e, he, _⟩ := oddValidate_error (L, U) v
      simp only [fixedValidate, hx', invalidate_eq, he] at hok
      split at hok <;> simp at hok
    | some x =>
      rw [hunf x hx] at hok
      split at hok
      · cases hok
      · next hb =>
        have hb := (hbnd x).1 (by simpa using hb)
        have hi' := hin' x hb.1 hb.2
        obtain ⟨y, hy, hy1, hy2, _⟩ := ctxFinal_spec (x := (x.1 * 10 ^ n, x.2)) (by
          rw [hVs, ← hB, abs_lt]; constructor <;> linarith)
        refine ⟨x, decToInt y, rfl, by rw [hscale x hx, hy]; rfl, ?_⟩
        have hbt := decToInt_between hlo0 hhi0 (hy2 lo (by rw [hVs]; exact hi'.1))
          (hy1 hi (by rw [hVs]; exact hi'.2))
        refine ⟨hbt.1, hbt.2, ?_, ?_⟩
        · intro h0
          have h0' : (0 : ℚ) ≤ Dec10.V (x.1 * 10 ^ n, x.2) := by
            rw [V_nonneg_iff]; exact mul_nonneg h0 (by positivity)
          have := hy2 0 (by simpa using h0')
          exact (decToInt_nonneg (by simpa using this)).1
        · intro h0
          have h0' : Dec10.V (x.1 * 10 ^ n, x.2) ≤ 0 := by
            rw [← not_lt, V_pos_iff, not_lt]
            exact mul_nonpos_of_nonpos_of_nonneg h0.le (by positivity)
          have := hy1 0 (by simpa using h0')
          exact (decToInt_nonpos (by simpa using this)).1
  · intro e he
    cases hx : number? v with
    | none =>
      have hx' : asDec10? v = none := by rw [asDec10_eq]; exact hx
      obtain ⟨e', he', h'⟩ := oddValidate_error (L, U) v
      simp only [fixedValidate, hx', invalidate_eq, he'] at he
      split at he
      · simp at he; subst he; exact .inl (shown_refusal v rfl)
      · simp at he; subst he; exact h'
    | some x =>
      rw [hunf x hx] at he
      split at he
      · cases he; exact .inl (shown_refusal v rfl)
      · next hb =>
        have hb := (hbnd x).1 (by simpa using hb)
        obtain ⟨r, hr, _⟩ := decRem_spec hn (hin x hb.1 hb.2)
        rw [hr, ok_bind] at he
        split at he
        · cases he; exact .inl (shown_refusal v rfl)
        · cases he
  · intro x hx hk h0 hE hok
    rw [hunf x hx] at hok
    split at hok
    · cases hok
    · next hb =>
      have hb := (hbnd x).1 (by simpa using hb)
      obtain ⟨r, hr, _, _, hr2⟩ := decRem_spec hn (hin x hb.1 hb.2)
      have hpos : 0 < x.V := by
        rw [V_pos_iff]
        rcases h0.lt_or_eq with h | h
        · exact h
        · exfalso
          have : onGrid? n x = some 0 := by
            rw [onGrid_some_iff, Dec10.V, ← h]; simp
          rw [hk] at this; simp at this
      rw [hr, ok_bind, if_pos (hr2 hk hpos hE)] at hok
      cases hok
  · intro x hx hneg hlow
    have hxV : x.V ≤ 0 := by rw [← not_lt, V_pos_iff]; omega
    have hb : L.V ≤ x.V ∧ x.V ≤ U.V := by
      rw [hL, hU]
      refine ⟨hlow, le_trans hxV ?_⟩
      have : (0 : ℚ) ≤ hi := by exact_mod_cast hhi0
      positivity
    obtain ⟨r, hr, hr1, _⟩ := decRem_spec hn (hin x hb.1 hb.2)
    rw [hunf x hx, (hbnd x).2 hb, hr]
    have := hr1 hxV
    simp; omega

end EthAbi
