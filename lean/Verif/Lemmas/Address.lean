import Verif.Lemmas.PyM
import Verif.Model.EthUtils
import Verif.Spec.Abi

/-! # Addresses: hexadecimal digits and bytes -/
namespace EthAbi
open Spec

theorem hexVal_lt {c : CodePoint} {n : Nat} (h : hexVal c = some n) : n < 16 := by
  unfold hexVal at h
  repeat' split at h
  all_goals simp at h
  all_goals omega

theorem hexVal_hexDigit (n : Nat) : hexVal (hexDigit n) = some (n % 16) := by
  have := Nat.mod_lt n (show 0 < 16 by omega)
  unfold hexDigit
  split
  · simp only [hexVal]; rw [if_pos (by omega)]; congr 1; omega
  · simp only [hexVal]; rw [if_neg (by omega), if_pos (by omega)]; congr 1; omega

theorem hexVal_lowerCP (c : CodePoint) : hexVal (lowerCP c) = hexVal c := by
  unfold lowerCP
  split
  · next h =>
    simp only [hexVal]
    by_cases h2 : c.val ≤ 70
    · rw [if_neg (by omega), if_pos (by omega), if_neg (by omega), if_neg (by omega),
        if_pos (by omega)]; congr 1
    · rw [if_neg (by omega), if_neg (by omega), if_neg (by omega), if_neg (by omega),
        if_neg (by omega), if_neg (by omega)]
  · rfl

theorem decodeHexDigits_lower : ∀ s : PyStr,
    decodeHexDigits (s.map lowerCP) = decodeHexDigits s
  | [] => rfl
  | [_] => rfl
  | c :: d :: rest => by
    simp only [List.map_cons, decodeHexDigits, hexVal_lowerCP, decodeHexDigits_lower rest]

theorem decodeHexDigits_encode (b : Bytes) : decodeHexDigits (encodeHexDigits b) = some b := by
  induction b with
  | nil => rfl
  | cons x b ih =>
    have hx := x.toNat_lt
    simp only [encodeHexDigits, List.flatMap_cons, List.cons_append, List.nil_append,
      decodeHexDigits, hexVal_hexDigit] at ih ⊢
    rw [ih]
    simp only [Option.bind_eq_bind, Option.bind_some, Option.pure_def, Option.some.injEq,
      List.cons.injEq, and_true]
    have : x.toNat / 16 % 16 * 16 + x.toNat % 16 % 16 = x.toNat := by omega
    rw [this]; simp

theorem encodeHexDigits_length (b : Bytes) : (encodeHexDigits b).length = 2 * b.length := by
  induction b with
  | nil => rfl
  | cons x b ih => simp only [encodeHexDigits, List.flatMap_cons, List.length_append] at ih ⊢
                   rw [ih]; simp; omega

theorem decodeHexDigits_isSome : ∀ (n : Nat) (s : PyStr), s.length = 2 * n →
    (s.all fun c => (hexVal c).isSome) = true → ∃ b, decodeHexDigits s = some b ∧ b.length = n
  | 0, [], _, _ => ⟨[], rfl, rfl⟩
  | n + 1, c :: d :: rest, hl, ha => by
    simp only [List.all_cons, Bool.and_eq_true, List.length_cons] at ha hl
    obtain ⟨b, hb, hbl⟩ := decodeHexDigits_isSome n rest (by omega) ha.2.2
    obtain ⟨x, hx⟩ := Option.isSome_iff_exists.1 ha.1
    obtain ⟨y, hy⟩ := Option.isSome_iff_exists.1 ha.2.1
    refine ⟨UInt8.ofNat (x * 16 + y) :: b, ?_, by simp [hbl]⟩
    simp [decodeHexDigits, hx, hy, hb]
  | 0, _ :: _, hl, _ => by simp at hl
  | n + 1, [], hl, _ => by simp at hl
  | n + 1, [_], hl, _ => by simp at hl; omega

theorem isHexAddress_decode {s : PyStr} (h : isHexAddress s = true) :
    ∃ b, decodeHexDigits (remove0x s) = some b ∧ b.length = 20 := by
  simp only [isHexAddress, Bool.and_eq_true, beq_iff_eq] at h
  exact decodeHexDigits_isSome 20 _ h.1 h.2

theorem remove0x_zeroX (s : PyStr) : remove0x (zeroX ++ s) = s := by
  rfl

theorem hexDigit_not_upper (n : Nat) : ¬(65 ≤ (hexDigit n).val ∧ (hexDigit n).val ≤ 90) := by
  have := Nat.mod_lt n (show 0 < 16 by omega)
  unfold hexDigit; split <;> simp only <;> omega

theorem mem_encodeHexDigits {b : Bytes} {c : CodePoint} (h : c ∈ encodeHexDigits b) :
    ∃ n, c = hexDigit n := by
  simp only [encodeHexDigits, List.mem_flatMap] at h
  obtain ⟨x, _, h⟩ := h
  simp at h
  rcases h with rfl | rfl
  · exact ⟨_, rfl⟩
  · exact ⟨_, rfl⟩

theorem isHexAddress_encode {b : Bytes} (h : b.length = 20) :
    isHexAddress (zeroX ++ encodeHexDigits b) = true := by
  simp only [isHexAddress, remove0x_zeroX, encodeHexDigits_length, h, Bool.and_eq_true,
    List.all_eq_true]
  refine ⟨rfl, fun c hc => ?_⟩
  obtain ⟨n, rfl⟩ := mem_encodeHexDigits hc
  rw [hexVal_hexDigit]; rfl

theorem isChecksumFormatted_encode (b : Bytes) :
    isChecksumFormatted (zeroX ++ encodeHexDigits b) = false := by
  simp only [isChecksumFormatted, remove0x_zeroX, Bool.and_eq_false_iff]
  right
  rw [List.any_eq_false]
  intro c hc
  obtain ⟨n, rfl⟩ := mem_encodeHexDigits hc
  simpa using hexDigit_not_upper n

theorem isAddress_encode [Ext] {b : Bytes} (h : b.length = 20) :
    isAddress (.str (zeroX ++ encodeHexDigits b)) = true := by
  simp [isAddress, asText?, isHexAddress_encode h, isChecksumFormatted_encode]

/-- The specified reading of an address argument is what the code's two steps (`is_address`,
`to_canonical_address`) compute. -/
theorem address_eq [Ext] (v : PyVal) :
    (∀ b, address? v = some b → isAddress v = true ∧ toCanonicalAddress v = .ok b ∧ b.length = 20) ∧
      (address? v = none → isAddress v = false) := by
  cases v with
  | str s =>
    simp only [address?]
    by_cases h : isAddress (.str s) = true
    · have h' : isHexAddress s = true := by
        refine Decidable.byContradiction fun hc => ?_
        simp [isAddress, asText?, hc] at h
      obtain ⟨b, hb, hl⟩ := isHexAddress_decode h'
      rw [if_pos h, hb]
      refine ⟨fun b' e => ?_, fun e => by simp at e⟩
      injection e with e; subst e
      refine ⟨h, ?_, hl⟩
      simp only [toCanonicalAddress, asText?, h', if_true, decodeHexDigits_lower, hb]
    · rw [if_neg h]
      exact ⟨fun _ e => by simp at e, fun _ => by simpa using h⟩
  | bytes b =>
    by_cases h : b.length = 20
    · refine ⟨fun b' e => ?_, fun e => by simp [address?, h] at e⟩
      simp [address?, h] at e; subst e
      simp [isAddress, asText?, asBytes?, toCanonicalAddress, h]
    · exact ⟨fun b' e => by simp [address?, h] at e, fun _ => by
        simp [isAddress, asText?, asBytes?, h]⟩
  | bytearray b =>
    by_cases h : b.length = 20
    · refine ⟨fun b' e => ?_, fun e => by simp [address?, h] at e⟩
      simp [address?, h] at e; subst e
      simp [isAddress, asText?, asBytes?, toCanonicalAddress, h]
    · exact ⟨fun b' e => by simp [address?, h] at e, fun _ => by
        simp [isAddress, asText?, asBytes?, h]⟩
  | _ => exact ⟨fun b' e => by simp [address?] at e, fun _ => rfl⟩

theorem address_toPy [Ext] {b : Bytes} (h : b.length = 20) :
    address? (.str (zeroX ++ encodeHexDigits b)) = some b := by
  simp only [address?, isAddress_encode h, if_true, remove0x_zeroX, decodeHexDigits_encode]

end EthAbi
