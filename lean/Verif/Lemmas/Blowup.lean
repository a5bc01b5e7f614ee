import Verif.Lemmas.Cost
import Verif.Lemmas.TupleStr

/-! # Types and data on which decoding takes long -/
namespace EthAbi
open Spec

/-! ## Nested tuples -/

/-- `((...(uint256)...))` with `d` pairs of parentheses. -/
def nestStr : Nat → TypeStr
  | 0 => t!"uint256"
  | d + 1 => t!"(" ++ nestStr d ++ t!")"

/-- The type it names. -/
def nestTy : Nat → Ty
  | 0 => .uint 256
  | d + 1 => .tuple [nestTy d]

theorem nestStr_length (d : Nat) : (nestStr d).length = 7 + 2 * d := by
  induction d with
  | zero => rfl
  | succ d ih =>
    simp only [nestStr, List.length_append, ih]
    simp only [List.length_cons, List.length_nil]
    omega

theorem nest_supported [Ext] (d : Nat) : Supported (nestStr d) (nestTy d) := by
  constructor
  · induction d with
    | zero => exact .uint (n := 256) (by decide)
    | succ d ih => exact .tuple (.one ih)
  · intro h
    have := congrArg List.length h
    rw [nestStr_length] at this
    simp at this
    omega

theorem nest_static (d : Nat) : (nestTy d).dynamic = false := by
  induction d with
  | zero => rfl
  | succ d ih => simp [nestTy, Ty.dynamic, Ty.anyDynamic, ih]

namespace Counted

theorem decOf_dyn (t : Ty) : (decOf t).dyn = t.dynamic := by
  rw [Decoder.dyn, (decOf_good t).isDyn]
  rfl

theorem wrap_static {t : Ty} (h : t.dynamic = false) : wrapDyn (ofTy t) = ofTy t := by
  unfold wrapDyn
  rw [ofTy_dec, decOf_dyn, h]
  rfl

theorem nest_call (d : Nat) (fl : Flags) {w : Bytes} (hw : w.length = 32) :
    ∃ v, (decOf (nestTy d)).call fl (Stream.init w) = .ok (v, { Stream.init w with pos := 32 }) := by
  induction d with
  | zero =>
    have hr : (decOf (.uint 256)).call fl (Stream.init w) =
        decodeFixed32 256 true uintDecoderFn neverNeg (Stream.init w) := rfl
    rw [nestTy, hr, decodeFixed32]
    rcases readFixed_spec (Stream.init w) with ⟨b, h1, h2, h3, h4⟩ | ⟨h1, _⟩
    · refine ⟨.int (bigEndianToInt b), ?_⟩
      rw [h4]
      simp [splitDataAndPadding, validatePadding, uintDecoderFn, neverNeg, Stream.init]
    · simp [bytesAt, Stream.init, hw] at h1
  | succ d ih =>
    obtain ⟨v, hv⟩ := ih
    refine ⟨.tuple [v], ?_⟩
    show tupleDecode fl [EthAbi.wrapDyn (decOf (nestTy d))] (Stream.init w) = _
    have hw' : EthAbi.wrapDyn (decOf (nestTy d)) = decOf (nestTy d) := by
      unfold EthAbi.wrapDyn
      rw [decOf_dyn, nest_static]
      rfl
    rw [hw']
    simp only [tupleDecode, tupleValidatePointers, tupleCheckLoop, (decOf_good (nestTy d)).notHT, hv,
      decodeEach, ok_bind, pure_eq_ok, Bool.false_eq_true, if_false]
    have : ({ Stream.init w with pos := 32 } : Stream).seek (Stream.init w).pos = .ok (Stream.init w) := rfl
    simp only [this, ok_bind, hv]

theorem nest_steps (d : Nat) (fl : Flags) {w : Bytes} (hw : w.length = 32) :
    2 ^ d ≤ (ofTy (nestTy d)).steps fl (Stream.init w) := by
  induction d with
  | zero => exact Nat.le_refl 1
  | succ d ih =>
    show 2 ^ (d + 1) ≤ tupleSteps fl [wrapDyn (ofTy (nestTy d))] (Stream.init w)
    rw [wrap_static (nest_static d)]
    obtain ⟨v, hv⟩ := nest_call d fl hw
    have hval : tupleValidatePointers fl ([ofTy (nestTy d)].map (·.dec)) (Stream.init w) =
        .ok (Stream.init w) := by
      simp only [List.map_cons, List.map_nil, ofTy_dec, tupleValidatePointers, tupleCheckLoop,
        (decOf_good (nestTy d)).notHT, hv, ok_bind, pure_eq_ok, Bool.false_eq_true, if_false]
      rfl
    unfold tupleSteps
    rw [hval]
    simp only [after, eachSteps, checkSteps, ofTy_dec, (decOf_good (nestTy d)).notHT,
      Bool.false_eq_true, if_false]
    rw [Nat.pow_succ]
    omega

/-- Decoding `((...(uint256)...))` takes `2^d` calls. -/
theorem nest_decodeSteps [Ext] (d : Nat) {w : Bytes} (hw : w.length = 32) (strict : Bool) :
    2 ^ d ≤ decodeSteps [nestStr d] w strict := by
  rw [decodeSteps_eq (.cons (nest_supported d) .nil)]
  have h := nest_steps d (fun _ => true) hw
  simp only [List.map_cons, List.map_nil]
  have hs : ((ofTy (nestTy d)).setStrict strict) = ofTy (nestTy d) := by
    simp only [Counted.setStrict, ofTy_dec, Decoder.setStrict, decOf_dyn, nest_static]
    rw [← ofTy_dec]
    rfl
  rw [hs, wrap_static (nest_static d)]
  unfold tupleSteps
  simp only [checkSteps, ofTy_dec, (decOf_good (nestTy d)).notHT, Bool.false_eq_true, if_false]
  omega

end Counted

/-! ## Offsets that meet -/

/-- `uint256[]...[]` with `d + 1` pairs of brackets. -/
def ampStr : Nat → TypeStr
  | 0 => t!"uint256" ++ t!"[]"
  | d + 1 => ampStr d ++ t!"[]"

/-- The type it names. -/
def ampTy : Nat → Ty
  | 0 => .dyn (.uint 256)
  | d + 1 => .dyn (ampTy d)

/-- An array of two elements whose offsets are the same, `d` deep. -/
def ampData : Nat → Bytes
  | 0 => be32 0
  | d + 1 => be32 2 ++ be32 64 ++ be32 64 ++ ampData d

/-- The value read from it. -/
def ampVal : Nat → Val
  | 0 => .seq []
  | d + 1 => .seq [ampVal d, ampVal d]

theorem ampStr_length (d : Nat) : (ampStr d).length = 9 + 2 * d := by
  induction d with
  | zero => rfl
  | succ d ih =>
    simp only [ampStr, List.length_append, ih]
    simp only [List.length_cons, List.length_nil]
    omega

theorem ampData_length (d : Nat) : (ampData d).length = 32 + 96 * d := by
  induction d with
  | zero => rfl
  | succ d ih =>
    simp only [ampData, List.length_append, ih, be32_length]
    omega

theorem amp_supported [Ext] (d : Nat) : Supported (ampStr d) (ampTy d) := by
  constructor
  · induction d with
    | zero => exact .dyn (.uint (n := 256) (by decide))
    | succ d ih => exact .dyn ih
  · intro h
    have := congrArg List.length h
    rw [ampStr_length] at this
    simp at this
    omega

theorem amp_reads (d : Nat) {D : Bytes} {p : Nat} (h : At D p (ampData d)) (strict : Bool) :
    Reads codeHead strict (ampTy d) D p (ampVal d) := by
  induction d generalizing p strict with
  | zero => exact ⟨by decide, h, trivial⟩
  | succ d ih =>
    simp only [ampData, at_append, be32_length, List.length_append] at h
    obtain ⟨⟨⟨h1, h2⟩, h3⟩, h4⟩ := h
    have hl := at_length h4 (by rw [ampData_length]; omega)
    rw [ampData_length] at hl
    have hdy : (ampTy d).dynamic = true := by cases d <;> rfl
    have hi : ∀ q, At D q (be32 64) →
        ReadsItem (ampTy d).dynamic (Reads codeHead true (ampTy d) D) D (p + 32) (p + 32 + 32 * 2) q
          (ampVal d) := by
      intro q hq
      rw [ReadsItem, hdy]
      exact ⟨64, by decide, hq, by omega, by omega, ih (by
        have : p + 32 + 64 = p + (32 + 32 + 32) := by omega
        rw [this]; exact h4) true⟩
    refine ⟨by simp, h1, hi _ h2, hi _ ?_, trivial⟩
    have : p + 32 + headStep (ampTy d) = p + (32 + 32) := by simp only [headStep, hdy, if_true, Nat.add_assoc]
    rw [this]; exact h3

theorem amp_count (d : Nat) : 2 ^ d ≤ valueCount (toPy (ampTy d) (ampVal d)) := by
  induction d with
  | zero => exact Nat.le_refl 1
  | succ d ih =>
    have : toPy (ampTy (d + 1)) (ampVal (d + 1)) =
        .tuple [toPy (ampTy d) (ampVal d), toPy (ampTy d) (ampVal d)] := rfl
    rw [this]
    simp only [valueCount, valueCounts]
    rw [Nat.pow_succ]
    omega

/-- Data of `64 + 96 * d` bytes decode to a value with `2^d` elements. -/
theorem amp_decode [Ext] (d : Nat) (hl : 64 + 96 * d ≤ ssizeMax) (strict : Bool) :
    ∃ v, decode [ampStr d] (.bytes (be32 32 ++ ampData d)) strict = .ok v ∧ 2 ^ d ≤ valueCount v := by
  refine ⟨.tuple (toPyAll [ampTy d] [ampVal d]), ?_, ?_⟩
  · refine (decode_iff (d := be32 32 ++ ampData d) rfl ?_).2
      ⟨[ampTy d], [ampVal d], .cons (amp_supported d) .nil, ?_, rfl⟩
    · rw [List.length_append, be32_length, ampData_length]; omega
    · have hdy : (ampTy d).dynamic = true := by cases d <;> rfl
      have ha : At (be32 32 ++ ampData d) 0 (be32 32 ++ ampData d) := by
        simp [At]
      rw [at_append] at ha
      refine ⟨?_, trivial⟩
      rw [ReadsItem, hdy]
      refine ⟨32, by decide, ha.1, ?_, ?_, amp_reads d (by simpa using ha.2) strict⟩
      · simp [codeHead, headWordsAll, headWords, hdy]
      · rw [List.length_append, be32_length, ampData_length]; omega
  · have := amp_count d
    simp only [toPyAll, valueCount, valueCounts]
    omega

/-! ## Powers of two outgrow polynomials -/

theorem exp_beats (c k : Nat) : ∃ d, c * (2 * d + 40) ^ k < 2 ^ d := by
  have hj : ∀ j : Nat, j + 1 ≤ 2 ^ j := fun j => Nat.lt_two_pow_self
  let j := 6 * k + c + 6
  have h1 : (j + 1) * (j + 1) ≤ 2 ^ (2 * j) := by
    rw [Nat.two_mul, Nat.pow_add]
    exact Nat.mul_le_mul (hj j) (hj j)
  have h2 : (2 * j + 6) * k + c < 2 ^ (2 * j) := by
    refine Nat.lt_of_lt_of_le ?_ h1
    have : (j + 1) * (j + 1) = (j + 1) * j + (j + 1) := by ring
    rw [this]
    have h3 : (2 * j + 6) * k + c ≤ (j + 1) * j := by
      show _ ≤ (j + 1) * (6 * k + c + 6)
      have e1 : (2 * j + 6) * k + c = 2 * (j * k) + 6 * k + c := by ring
      have e2 : (j + 1) * (6 * k + c + 6) = 6 * (j * k) + j * c + 6 * j + (6 * k + c + 6) := by ring
      rw [e1, e2]
      omega
    omega
  refine ⟨2 ^ (2 * j), ?_⟩
  generalize 2 * j = m at *
  have h3 : 2 * 2 ^ m + 40 ≤ 2 ^ (m + 6) := by
    have := Nat.pow_pos (n := m) (show 0 < 2 by omega)
    rw [Nat.pow_add]
    omega
  calc c * (2 * 2 ^ m + 40) ^ k ≤ c * (2 ^ (m + 6)) ^ k :=
        Nat.mul_le_mul_left _ (Nat.pow_le_pow_left h3 k)
    _ = c * 2 ^ ((m + 6) * k) := by rw [← Nat.pow_mul]
    _ ≤ 2 ^ c * 2 ^ ((m + 6) * k) := Nat.mul_le_mul_right _ (Nat.le_of_lt Nat.lt_two_pow_self)
    _ = 2 ^ ((m + 6) * k + c) := by rw [← Nat.pow_add, Nat.add_comm]
    _ < 2 ^ (2 ^ m) := Nat.pow_lt_pow_right (by omega) h2

end EthAbi
