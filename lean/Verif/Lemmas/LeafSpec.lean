import Verif.Lemmas.Accept
import Verif.Spec.Leaves

/-! # The elementary values of the specification in terms of the model's functions -/
namespace EthAbi
open Spec

theorem beValue_eq (b : Bytes) : beValue b = bigEndianToInt b := by
  simp only [beValue, bigEndianToInt, Nat.mul_comm]

theorem beValue_wordOf (i : Int) : (beValue (wordOf i) : Int) = i % 2 ^ 256 := by
  have h0 : 0 ≤ i % 2 ^ 256 := Int.emod_nonneg _ (by norm_num)
  have h1 : i % 2 ^ 256 < 2 ^ 256 := Int.emod_lt_of_pos _ (by norm_num)
  rw [beValue_eq, wordOf, bigEndianToInt_be32 (by omega)]
  omega

theorem decValue_eq (x : Dec10) : decValue x = x.V := rfl

/-- An elementary argument that denotes a value: its encoding and what that decodes to. -/
theorem leaf_encode [Ext] {s : TypeStr} {t : Ty} (h : Supported s t) (hl : t.isLeaf = true) {v : PyVal}
    {x : Val} (hd : denote t v = some x) :
    encode [s] (.list [v]) = .ok (enc t x) ∧ (enc t x).length = 32 ∧
      ∀ strict, decode [s] (.bytes (enc t x)) strict = .ok (.tuple [toPy t x]) := by
  have hv := supported_valid h
  have hT : Names [s] [t] := .cons h .nil
  have hda : denoteAll [t] [v] = some [x] := denoteAll_cons.2 ⟨x, [], hd, rfl, rfl⟩
  have hof := denoteAll_of hda
  have hdyn : t.dynamic = false := by cases t <;> first | (cases hl; done) | rfl
  have he : encodeArgs [t] [x] = enc t x := by
    simp [encodeArgs, encAll, layout, heads, headSize, tails, hdyn]
  have hlen : (enc t x).length = 32 := by
    rw [(enc_length t hv x hof.1).2.2 hdyn]
    cases t <;> first | (cases hl; done) | rfl
  refine ⟨?_, hlen, fun strict => ?_⟩
  · rw [← he]
    exact encode_of hT (.list _) hda (by rw [he, hlen]; norm_num)
  · have hf : Fits (enc t x) := by simp [Fits, hlen, ssizeMax]
    refine (decode_reads hT (.bytes _) hf).2 ⟨[x], ?_, rfl⟩
    exact readsArgs_enc codeHead_ok (supportedAll_valid hT) strict hf hof
      (by rw [← he]; exact List.prefix_refl _)

/-! ## Addresses -/

theorem hexDigit_iff {c : CodePoint} {n : Nat} : HexDigit c n ↔ hexVal c = some n := by
  constructor
  · intro h
    cases h with
    | digit h1 h2 => rw [hexVal, if_pos ⟨h1, h2⟩]
    | lower h1 h2 => rw [hexVal, if_neg (by omega), if_pos ⟨h1, h2⟩]
    | upper h1 h2 => rw [hexVal, if_neg (by omega), if_neg (by omega), if_pos ⟨h1, h2⟩]
  · intro h
    unfold hexVal at h
    split at h
    · next h1 => cases h; exact .digit h1.1 h1.2
    · split at h
      · next h1 => cases h; exact .lower h1.1 h1.2
      · split at h
        · next h1 => cases h; exact .upper h1.1 h1.2
        · cases h

theorem hexText_iff : ∀ {s : PyStr} {b : Bytes}, HexText s b ↔ decodeHexDigits s = some b
  | [], b => by
    constructor
    · intro h; cases h; rfl
    · intro h; cases h; exact .nil
  | [_], b => by
    constructor
    · intro h; cases h
    · intro h; cases h
  | c :: d :: s, b => by
    constructor
    · intro h
      cases h with
      | cons h1 h2 h3 h4 =>
        rename_i h l x b
        have hh := hexVal_lt (hexDigit_iff.1 h1)
        have hl := hexVal_lt (hexDigit_iff.1 h2)
        simp only [decodeHexDigits, hexDigit_iff.1 h1, hexDigit_iff.1 h2, hexText_iff.1 h4]
        have : UInt8.ofNat (h * 16 + l) = x := by
          rw [show h * 16 + l = x.toNat by omega]; simp
        rw [← this]; rfl
    · intro h
      simp only [decodeHexDigits] at h
      cases h1 : hexVal c with
      | none => rw [h1] at h; cases h
      | some x =>
        cases h2 : hexVal d with
        | none => rw [h1, h2] at h; cases h
        | some y =>
          cases h3 : decodeHexDigits s with
          | none => rw [h1, h2, h3] at h; cases h
          | some bs =>
            rw [h1, h2, h3] at h
            have hx := hexVal_lt h1
            have hy := hexVal_lt h2
            injection h with h; subst h
            refine .cons (hexDigit_iff.2 h1) (hexDigit_iff.2 h2) ?_ (hexText_iff.2 h3)
            rw [UInt8.toNat_ofNat']; omega

theorem hexText_length {s : PyStr} {b : Bytes} (h : HexText s b) : s.length = 2 * b.length := by
  induction h with
  | nil => rfl
  | cons _ _ _ _ ih => simp [ih]; omega

theorem hexText_all {s : PyStr} {b : Bytes} (h : HexText s b) :
    (s.all fun c => (hexVal c).isSome) = true := by
  induction h with
  | nil => rfl
  | cons h1 h2 _ _ ih => simp [hexDigit_iff.1 h1, hexDigit_iff.1 h2, ih]

/-- Nothing is removed from a string of hexadecimal digits. -/
theorem remove0x_hex {s : PyStr} {b : Bytes} (h : HexText s b) : remove0x s = s := by
  cases h with
  | nil => rfl
  | cons h1 h2 h3 h4 =>
    rename_i c d h l s x b
    simp only [remove0x]
    rw [if_neg]
    rintro ⟨_, hd⟩
    cases h2 <;> omega

theorem spellsAddress_text {s : PyStr} {a : Bytes} (h : SpellsAddress (.str s) a) :
    a.length = 20 ∧ HexText (remove0x s) a := by
  cases h with
  | text h1 h2 => rw [remove0x_hex h2]; exact ⟨h1, h2⟩
  | text0x h1 h2 h3 h4 =>
    refine ⟨h3, ?_⟩
    simp only [remove0x]
    rw [if_pos ⟨h1, h2⟩]; exact h4

theorem spellsAddress_unique {v : PyVal} {a b : Bytes} (h : SpellsAddress v a)
    (h' : SpellsAddress v b) : a = b := by
  cases v with
  | str s =>
    have h1 := hexText_iff.1 (spellsAddress_text h).2
    have h2 := hexText_iff.1 (spellsAddress_text h').2
    rw [h1] at h2; injection h2
  | bytes s => cases h; cases h'; rfl
  | bytearray s => cases h; cases h'; rfl
  | _ => cases h

theorem isAddress_spells [Ext] {v : PyVal} {a : Bytes} (h : address? v = some a) :
    SpellsAddress v a := by
  cases v with
  | bytes b =>
    simp only [address?] at h
    split at h
    · cases h; exact .bytes (by assumption)
    · cases h
  | bytearray b =>
    simp only [address?] at h
    split at h
    · cases h; exact .bytearray (by assumption)
    · cases h
  | str s =>
    obtain ⟨h1, _, h3⟩ := (address_eq (.str s)).1 a h
    simp only [address?, h1, if_true] at h
    have ht := hexText_iff.2 h
    unfold remove0x at ht
    split at ht
    · next c d rest =>
      split at ht
      · next hp => exact .text0x hp.1 hp.2 h3 ht
      · exact .text h3 ht
    · exact .text h3 ht
  | _ => cases h

theorem spells_isAddress [Ext] {v : PyVal} {a : Bytes} (h : SpellsAddress v a)
    (hm : ∀ s, v = .str s → ¬ MixedCase (remove0x s)) : address? v = some a := by
  cases v with
  | bytes b => cases h; simp [address?]; assumption
  | bytearray b => cases h; simp [address?]; assumption
  | str s =>
    obtain ⟨h1, h2⟩ := spellsAddress_text h
    have hhex : isHexAddress s = true := by
      simp only [isHexAddress, hexText_all h2, hexText_length h2, h1, Bool.and_true]; rfl
    have hc : isChecksumFormatted s = false := by
      cases hc : isChecksumFormatted s with
      | false => rfl
      | true =>
        refine absurd ?_ (hm s rfl)
        simp only [isChecksumFormatted, Bool.and_eq_true, List.any_eq_true, decide_eq_true_eq] at hc
        obtain ⟨⟨c, hc1, hc2⟩, ⟨d, hd1, hd2⟩⟩ := hc
        exact ⟨⟨d, hd1, hd2⟩, ⟨c, hc1, hc2⟩⟩
    have : isAddress (.str s) = true := by simp [isAddress, asText?, hhex, hc]
    simp only [address?, this, if_true]
    exact hexText_iff.1 h2
  | _ => cases h

theorem hexText_encode (a : Bytes) : HexText (encodeHexDigits a) a :=
  hexText_iff.2 (decodeHexDigits_encode a)

theorem encodeHexDigits_lower (a : Bytes) : ∀ c ∈ encodeHexDigits a, IsLowerHex c := by
  intro c hc
  obtain ⟨n, rfl⟩ := mem_encodeHexDigits hc
  have := Nat.mod_lt n (show 0 < 16 by omega)
  unfold hexDigit IsLowerHex
  split
  · left; simp only; omega
  · right; simp only; omega

/-! ## Checksums -/

theorem hexDigit_lowerCP {c c' : CodePoint} {n : Nat} (h : HexDigit c n) (h' : HexDigit c' n)
    (hl : IsLowerHex c') : c' = lowerCP c := by
  unfold IsLowerHex at hl
  have e : lowerCP c = c' := by
    rw [lowerCP]
    generalize hn : n = m at h'
    cases h with
    | digit h1 h2 => rw [dif_neg (by omega)]; cases h' <;> exact Fin.ext (by omega)
    | lower h1 h2 => rw [dif_neg (by omega)]; cases h' <;> exact Fin.ext (by omega)
    | upper h1 h2 => rw [dif_pos (by omega)]; cases h' <;> exact Fin.ext (by simp only; omega)
  exact e.symm

theorem hexText_lower {digits low : PyStr} {a : Bytes} (h : HexText digits a) (h' : HexText low a)
    (hl : ∀ c ∈ low, IsLowerHex c) : low = digits.map lowerCP := by
  induction h generalizing low with
  | nil => cases h'; rfl
  | @cons c d h l s x b h1 h2 h3 _ ih =>
    cases h' with
    | @cons c' d' h' l' s' _ _ g1 g2 g3 g4 =>
      have hb : ∀ {c : CodePoint} {n : Nat}, HexDigit c n → n < 16 := by
        intro c n hc; cases hc <;> omega
      have := hb h1; have := hb h2; have := hb g1; have := hb g2
      have e1 : h' = h := by omega
      have e2 : l' = l := by omega
      subst e1 e2
      rw [List.map_cons, List.map_cons, ← ih g4 (fun c hc => hl c (by simp [hc])),
        ← hexDigit_lowerCP h1 g1 (hl _ (by simp)), ← hexDigit_lowerCP h2 g2 (hl _ (by simp))]

theorem checksummed_iff [Ext] {digits : PyStr} {a : Bytes} (h : HexText digits a) (low : PyStr) :
    Checksummed low digits ↔
      digits = checksumDigits (Ext.keccakDigit low) (digits.map lowerCP) := by
  have hx := hexText_all h
  rw [List.all_eq_true] at hx
  have hd : ∀ c ∈ digits, (48 ≤ c.val ∧ c.val ≤ 57) ∨ (97 ≤ c.val ∧ c.val ≤ 102) ∨ (65 ≤ c.val ∧ c.val ≤ 70) := by
    intro c hc
    have := hx c hc
    unfold hexVal at this
    by_cases h1 : 48 ≤ c.val ∧ c.val ≤ 57
    · exact .inl h1
    · rw [if_neg h1] at this
      by_cases h2 : 97 ≤ c.val ∧ c.val ≤ 102
      · exact .inr (.inl h2)
      · rw [if_neg h2] at this
        by_cases h3 : 65 ≤ c.val ∧ c.val ≤ 70
        · exact .inr (.inr h3)
        · rw [if_neg h3] at this; cases this
  have key : ∀ (c : CodePoint) (n : Nat), c ∈ digits →
      (((65 ≤ c.val ∧ c.val ≤ 90 → 8 ≤ n) ∧ (97 ≤ c.val ∧ c.val ≤ 122 → n < 8)) ↔
        c = if 7 < n then upperCP (lowerCP c) else lowerCP c) := by
    intro c n hc
    rcases hd c hc with h1 | h1 | h1
    · have e1 : lowerCP c = c := by unfold lowerCP; rw [dif_neg (by omega)]
      have e2 : upperCP c = c := by unfold upperCP; rw [dif_neg (by omega)]
      rw [e1, e2]
      simp only [ite_self, iff_true]
      omega
    · have e1 : lowerCP c = c := by unfold lowerCP; rw [dif_neg (by omega)]
      have e2 : upperCP c ≠ c := by
        unfold upperCP; rw [dif_pos (by omega)]
        intro he
        have := congrArg Fin.val he
        simp only at this
        omega
      rw [e1]
      by_cases hn : 7 < n
      · rw [if_pos hn]
        constructor
        · intro hh; omega
        · intro hh; exact absurd hh.symm e2
      · rw [if_neg hn]
        simp only [iff_true]
        omega
    · have hl : lowerCP c ≠ c := by
        unfold lowerCP; rw [dif_pos (by omega)]
        intro he
        have := congrArg Fin.val he
        simp only at this
        omega
      have hu : upperCP (lowerCP c) = c := by
        have : lowerCP c = ⟨c.val + 32, by omega⟩ := by unfold lowerCP; rw [dif_pos (by omega)]
        rw [this, upperCP, dif_pos (by simp only; omega)]
        exact Fin.ext (by simp)
      rw [hu]
      by_cases hn : 7 < n
      · rw [if_pos hn]
        simp only [iff_true]
        omega
      · rw [if_neg hn]
        constructor
        · intro hh; omega
        · intro hh; exact absurd hh.symm hl
  unfold Checksummed checksumDigits
  constructor
  · intro hc
    apply List.ext_getElem
    · simp
    · intro i h1 h2
      simp only [List.getElem_mapIdx, List.getElem_map]
      exact (key _ _ (List.getElem_mem h1)).1 (hc i _ (List.getElem?_eq_getElem h1))
  · intro he i c hi
    obtain ⟨hlt, rfl⟩ := List.getElem?_eq_some_iff.1 hi
    refine (key _ _ (List.getElem_mem hlt)).2 ?_
    have := List.getElem_of_eq he hlt
    simpa only [List.getElem_mapIdx, List.getElem_map] using this

theorem isAddress_mixed [Ext] {s digits low : PyStr} {a : Bytes} (hs : remove0x s = digits)
    (hl : a.length = 20) (h : HexText digits a) (h' : HexText low a) (hlow : ∀ c ∈ low, IsLowerHex c)
    (hm : MixedCase digits) :
    isAddress (.str s) = true ↔ s = zeroX ++ digits ∧ Checksummed low digits := by
  have hhex : isHexAddress s = true := by
    simp only [isHexAddress, hs, hexText_all h, hexText_length h, hl, Bool.and_true]; rfl
  have hc : isChecksumFormatted s = true := by
    obtain ⟨⟨c, hc1, hc2⟩, ⟨d, hd1, hd2⟩⟩ := hm
    simp only [isChecksumFormatted, hs, Bool.and_eq_true, List.any_eq_true, decide_eq_true_eq]
    exact ⟨⟨d, hd1, hd2⟩, ⟨c, hc1, hc2⟩⟩
  have hn : remove0x (normalizedHex s) = digits.map lowerCP := by
    rw [normalizedHex, remove0x_zeroX, hs]
  simp only [isAddress, asText?, hhex, hc, if_true, isChecksumAddress, Bool.true_and, beq_iff_eq,
    toChecksum, hn]
  rw [checksummed_iff h low, hexText_lower h h' hlow]
  generalize checksumDigits _ _ = x
  constructor
  · rintro rfl
    rw [remove0x_zeroX] at hs
    exact ⟨by rw [hs], hs.symm⟩
  · rintro ⟨rfl, h2⟩
    rw [← h2]

/-! ## Fixed-point numbers -/

theorem fixedValidate_bounds [Ext] {n : Nat} {L U : Dec10} {v : PyVal}
    (h : fixedValidate (.ok (L, U)) n v = .ok ()) :
    ∃ x, number? v = some x ∧ L.V ≤ x.V ∧ x.V ≤ U.V := by
  cases hx : number? v with
  | none =>
    have hx' : asDec10? v = none := by rw [asDec10_eq]; exact hx
    exfalso
    simp only [fixedValidate, hx'] at h
    obtain ⟨e, he, _⟩ := oddValidate_error (L, U) v
    rw [he] at h
    simp only [invalidate_eq, error_bind] at h
    split at h
    · cases h
    · cases h
  | some x =>
    refine ⟨x, rfl, ?_⟩
    rw [fixedValidate_number _ n hx, ok_bind] at h
    split at h
    · cases h
    · next hc =>
      simp only [Bool.or_eq_true, not_or, Bool.not_eq_true, decLt_eq_false_iff] at hc
      exact hc

/-- The bounds of a fixed-point type, as integers. -/
theorem fixed_bounds [Ext] {t : Ty} {n : Nat} {lo hi : Int} (hv : t.Valid)
    (ht : (∃ m, t = .ufixed m n ∧ lo = 0 ∧ hi = 2 ^ m - 1) ∨
      ∃ m, t = .fixed m n ∧ lo = -(2 ^ (m - 1)) ∧ hi = 2 ^ (m - 1) - 1) :
    ∃ L U : Dec10, (∀ v, (encOf false t).validateValue v = fixedValidate (.ok (L, U)) n v) ∧ n ≤ 80 ∧
      L.V = lo * (10 : ℚ) ^ (-(n : Int)) ∧ U.V = hi * (10 : ℚ) ^ (-(n : Int)) ∧
      -2 ^ 256 ≤ lo ∧ lo ≤ 0 ∧ 0 ≤ hi ∧ hi ≤ 2 ^ 256 := by
  rcases ht with ⟨m, rfl, rfl, rfl⟩ | ⟨m, rfl, rfl, rfl⟩
  · obtain ⟨⟨_, hm, _⟩, _, hn⟩ : validBits m ∧ 0 < n ∧ n ≤ 80 := hv
    have hpow2 : (2 : Int) ^ m ≤ 2 ^ 256 := pow_le_pow_right₀ (by norm_num) hm
    have hpos : (0 : Int) < 2 ^ m := by positivity
    refine ⟨(0, 0), (2 ^ m - 1, -(n : Int)), fun v => ?_, hn, by simp [V_zero], by simp [Dec10.V],
      by norm_num, le_rfl, by omega, by omega⟩
    show fixedValidate (computeUnsignedFixedBounds m n) n v = _
    rw [unsignedFixedBounds_eq hm hn]
  · obtain ⟨⟨_, hm, _⟩, _, hn⟩ : validBits m ∧ 0 < n ∧ n ≤ 80 := hv
    have hpow2 : (2 : Int) ^ (m - 1) ≤ 2 ^ 256 := pow_le_pow_right₀ (by norm_num) (by omega)
    have hpos : (0 : Int) < 2 ^ (m - 1) := by positivity
    refine ⟨(-2 ^ (m - 1), -(n : Int)), (2 ^ (m - 1) - 1, -(n : Int)), fun v => ?_, hn,
      by simp [Dec10.V], by simp [Dec10.V], by omega, by omega, by omega, by omega⟩
    show fixedValidate (computeSignedFixedBounds m n) n v = _
    rw [signedFixedBounds_eq hm hn]

theorem fracLt_iff {n : Int} {d : Nat} (hd : 0 < d) (x : Dec10) : fracLt n d x = true ↔ (n : ℚ) / d < x.V := by
  have hd' : (0 : ℚ) < d := by exact_mod_cast hd
  unfold fracLt Dec10.V
  split
  · next h =>
    rw [decide_eq_true_eq, div_lt_iff₀ hd']
    conv_rhs => rw [show x.2 = (x.2.toNat : Int) by omega, zpow_natCast]
    exact_mod_cast Iff.rfl
  · next h =>
    rw [decide_eq_true_eq, div_lt_iff₀ hd', show x.2 = -((-x.2).toNat : Int) by omega, zpow_neg, zpow_natCast]
    generalize (-x.2).toNat = k
    rw [neg_neg, Int.toNat_natCast, mul_right_comm, ← div_eq_mul_inv, lt_div_iff₀ (by positivity)]
    exact_mod_cast Iff.rfl

theorem fracGt_iff {n : Int} {d : Nat} (hd : 0 < d) (x : Dec10) : fracGt n d x = true ↔ x.V < (n : ℚ) / d := by
  have hd' : (0 : ℚ) < d := by exact_mod_cast hd
  unfold fracGt Dec10.V
  split
  · next h =>
    rw [decide_eq_true_eq, lt_div_iff₀ hd']
    conv_rhs => rw [show x.2 = (x.2.toNat : Int) by omega, zpow_natCast]
    exact_mod_cast Iff.rfl
  · next h =>
    rw [decide_eq_true_eq, lt_div_iff₀ hd', show x.2 = -((-x.2).toNat : Int) by omega, zpow_neg, zpow_natCast]
    generalize (-x.2).toNat = k
    rw [neg_neg, Int.toNat_natCast, mul_right_comm, ← div_eq_mul_inv, div_lt_iff₀ (by positivity)]
    exact_mod_cast Iff.rfl

/-- What becomes of a `Fraction` given for a fixed-point type. -/
theorem fixed_fraction [Ext] {s : TypeStr} {t : Ty} {n : Nat} {lo hi : Int} (h : Supported s t)
    (ht : (∃ m, t = .ufixed m n ∧ lo = 0 ∧ hi = 2 ^ m - 1) ∨
      ∃ m, t = .fixed m n ∧ lo = -(2 ^ (m - 1)) ∧ hi = 2 ^ (m - 1) - 1) {a : Int} {d : Nat} (hd : 0 < d)
    (hp : Printable (.fraction a d)) :
    ((a : ℚ) / d < lo * 10 ^ (-(n : Int)) ∨ (hi : ℚ) * 10 ^ (-(n : Int)) < a / d →
      isEncodable s (.fraction a d) = .ok false ∧ encode [s] (.list [.fraction a d]) = .error .valueOutOfBounds) ∧
    (¬ ((a : ℚ) / d < lo * 10 ^ (-(n : Int)) ∨ (hi : ℚ) * 10 ^ (-(n : Int)) < a / d) →
      isEncodable s (.fraction a d) = .error .typeError ∧ encode [s] (.list [.fraction a d]) = .error .typeError) := by
  obtain ⟨L, U, hval, _, hL, hU, _⟩ := fixed_bounds (supported_valid h) ht
  have hv := hval (.fraction a d)
  rw [← hL, ← hU, ← fracLt_iff hd, ← fracGt_iff hd, ← Bool.or_eq_true]
  have hodd : fixedValidate (.ok (L, U)) n (.fraction a d) = oddValidate (.ok (L, U)) (.fraction a d) := rfl
  rw [hodd] at hv
  simp only [oddValidate, ok_bind, invalidate_eq, shown_of hp] at hv
  have key : ∀ e, (encOf false t).validateValue (.fraction a d) = .error e →
      encode [s] (.list [.fraction a d]) = .error e := by
    intro e he
    refine (encode_one false h _).trans ?_
    rw [he]
    rfl
  constructor
  · intro hc
    rw [if_pos hc] at hv
    refine ⟨?_, key _ hv⟩
    rcases isEncodable_supported false h (.fraction a d) with ⟨h1, _⟩ | ⟨e, _, _, h1⟩ | ⟨h1, _⟩ | ⟨h1, _⟩
    · rw [hv] at h1; cases h1
    · exact h1
    · rw [hv] at h1; cases h1
    · rw [hv] at h1; cases h1
  · intro hc
    rw [if_neg hc] at hv
    refine ⟨?_, key _ hv⟩
    rcases isEncodable_supported false h (.fraction a d) with ⟨h1, _⟩ | ⟨e, h1, h2, _⟩ | ⟨h1, _⟩ | ⟨_, _, h1⟩
    · rw [hv] at h1; cases h1
    · rw [hv] at h1; cases h1; cases h2
    · rw [hv] at h1; cases h1
    · exact h1

theorem fixed_accepted [Ext] {s : TypeStr} {t : Ty} {n : Nat} {lo hi : Int} (h : Supported s t)
    (ht : (∃ m, t = .ufixed m n ∧ lo = 0 ∧ hi = 2 ^ m - 1) ∨
      ∃ m, t = .fixed m n ∧ lo = -(2 ^ (m - 1)) ∧ hi = 2 ^ (m - 1) - 1) {v : PyVal} {b : Bytes}
    (he : encode [s] (.list [v]) = .ok b) :
    ∃ x, number? v = some x ∧ (lo : ℚ) * 10 ^ (-(n : Int)) ≤ decValue x ∧
      decValue x ≤ hi * 10 ^ (-(n : Int)) ∧
      (0 ≤ x.1 → -1000997 ≤ x.2 → ∃ k : Int, decValue x = k * 10 ^ (-(n : Int)) ∧ lo ≤ k ∧ k ≤ hi) := by
  obtain ⟨L, U, hval, hn, hL, hU, h1, h2, h3, h4⟩ := fixed_bounds (supported_valid h) ht
  have he' : encode [s] (.list [v]) = _ := encode_one false h v
  rw [he, eq_comm, bind_eq_ok] at he'
  obtain ⟨u, hv, _⟩ := he'
  rw [hval] at hv
  obtain ⟨x, hx, hl, hu⟩ := fixedValidate_bounds hv
  refine ⟨x, hx, by rw [← hL]; exact hl, by rw [← hU]; exact hu, fun h0 hti => ?_⟩
  obtain ⟨_, hs2, _, _, hs5, _⟩ := fixedValidate_spec hn hL hU h1 h2 h3 h4 v
  cases hg : onGrid? n x with
  | none => exact absurd hv (hs5 x hx hg h0 hti)
  | some k =>
    refine ⟨k, onGrid_some_iff.1 hg, ?_⟩
    by_contra hc
    rw [hs2 x k hx hg (by omega)] at hv
    cases hv

theorem fixed_negative [Ext] {s : TypeStr} {m n : Nat} (h : Supported s (.fixed m n)) {v : PyVal}
    {x : Dec10} (hx : number? v = some x) (h0 : decValue x < 0)
    (h1 : ((-(2 ^ (m - 1)) : Int) : ℚ) * 10 ^ (-(n : Int)) ≤ decValue x) :
    ∃ b, encode [s] (.list [v]) = .ok b := by
  obtain ⟨L, U, hval, hn, hL, hU, a1, a2, a3, a4⟩ :=
    fixed_bounds (supported_valid h) (.inr ⟨m, rfl, rfl, rfl⟩)
  have hx0 : x.1 < 0 := by
    by_contra hc
    exact absurd ((V_nonneg_iff x).2 (not_lt.1 hc)) (not_le.2 h0)
  have hv := (fixedValidate_spec hn hL hU a1 a2 a3 a4 v).2.2.2.2.2 x hx hx0 h1
  rw [← hval] at hv
  have hns : NoSurrogates v := by cases v <;> first | trivial | cases hx
  have hw : 128 * weight v < 2 ^ 256 := by cases v <;> first | (simp [weight]; done) | cases hx
  obtain ⟨b, hb⟩ := call_accepts (pk := false) (supported_valid h) hv hns hw
  have he : encode [s] (.list [v]) = _ := encode_one false h v
  rw [he, hv, hb]
  exact ⟨_, rfl⟩

theorem roundHalfEven_one {k : Nat} (h : 0 < k) : roundHalfEven 1 k = 0 := by
  have h10 : 10 ≤ 10 ^ k := by
    calc 10 = 10 ^ 1 := rfl
      _ ≤ 10 ^ k := Nat.pow_le_pow_right (by omega) h
  simp only [roundHalfEven, Int.natAbs_one]
  rw [Nat.div_eq_of_lt (by omega), Nat.mod_eq_of_lt (by omega), if_neg (by omega), if_neg (by omega)]
  rfl

theorem ctxFinal_tiny {e : Int} (h : e < decEtiny) : ctxFinal (1, e) = .ok (0, decEtiny) := by
  have he : max (max e (e + ((ndigits (1 : Int).natAbs : Int) - abiDecimalPrec))) decEtiny = decEtiny := by
    have : (ndigits (1 : Int).natAbs : Int) = 1 := rfl
    rw [this]
    simp only [abiDecimalPrec, decEtiny] at *
    omega
  have hk : 0 < (decEtiny - e).toNat := by omega
  simp only [ctxFinal, he]
  have hk' : ¬ (decEtiny - e).toNat = 0 := by omega
  rw [if_neg (by norm_num), roundHalfEven_one hk]
  simp only [if_neg hk']
  have h2 : ¬ (Int.natAbs 0 = 10 ^ abiDecimalPrec) := by
    have : 0 < 10 ^ abiDecimalPrec := by positivity
    omega
  simp only [if_neg h2]
  rfl

/-- The remainder of a tiny positive decimal is lost to underflow. -/
theorem decRem_tiny {n : Nat} (hn : n ≤ 80) {e : Int} (h : e < decEtiny) :
    decRem (1, e) (tenPowNeg n) = .ok (0, decEtiny) := by
  have hle : e ≤ -(n : Int) := by simp only [decEtiny] at h; omega
  have hd : decRem (1, e) (tenPowNeg n) =
      if 10 ^ abiDecimalPrec ≤ ((1 * 10 ^ (e - min e (-(n : Int))).toNat : Int).tdiv
        (1 * 10 ^ (-(n : Int) - min e (-(n : Int))).toNat)).natAbs then
        .error .decimalInvalidOperation
      else ctxFinal ((1 * 10 ^ (e - min e (-(n : Int))).toNat : Int).tmod
        (1 * 10 ^ (-(n : Int) - min e (-(n : Int))).toNat), min e (-(n : Int))) := rfl
  rw [hd, min_eq_left hle]
  have h0 : (e - e).toNat = 0 := by omega
  obtain ⟨k, hk⟩ : ∃ k, (-(n : Int) - e).toNat = k + 1 := ⟨(-(n : Int) - e).toNat - 1, by
    simp only [decEtiny] at h; omega⟩
  have hp : (1 : Int) < 1 * 10 ^ (k + 1) := by
    have : (0 : Int) < 10 ^ k := by positivity
    rw [pow_succ]; linarith
  rw [h0, hk]
  generalize (1 * 10 ^ (k + 1) : Int) = Y at hp
  rw [pow_zero, mul_one, Int.tdiv_eq_zero_of_lt (by norm_num) hp, Int.tmod_eq_of_lt (by norm_num) hp,
    if_neg, ctxFinal_tiny h]
  have : 0 < 10 ^ abiDecimalPrec := by positivity
  simp only [Int.natAbs_zero]
  omega

theorem ufixed_tiny [Ext] {s : TypeStr} {m n : Nat} (h : Supported s (.ufixed m n)) {e : Int}
    (ht : e < -1000997) : ∃ b, encode [s] (.list [.dec (.fin 1 e)]) = .ok b := by
  have hv := supported_valid h
  obtain ⟨⟨hm8, hm, _⟩, hn0, hn⟩ : validBits m ∧ 0 < n ∧ n ≤ 80 := hv
  have he : encode [s] (.list [.dec (.fin 1 e)]) = _ := encode_one false h _
  have hval : (encOf false (.ufixed m n)).validateValue (.dec (.fin 1 e)) = .ok () := by
    have h1 : decLt (1, e) (0, 0) = false := by
      rw [decLt_eq_false_iff, V_zero, V_nonneg_iff]; norm_num
    have h2 : decLt (2 ^ m - 1, -(n : Int)) (1, e) = false := by
      rw [decLt_eq_false_iff]
      have ha : (1 : Int) ≤ 2 ^ m - 1 := by
        have : (2 : Int) ^ 1 ≤ 2 ^ m := pow_le_pow_right₀ (by norm_num) (by omega)
        omega
      have hb : (1 : ℚ) ≤ ((2 ^ m - 1 : Int) : ℚ) := by exact_mod_cast ha
      have hc : (10 : ℚ) ^ e ≤ 10 ^ (-(n : Int)) := zpow_le_zpow_right₀ (by norm_num) (by omega)
      have hpos := ten_zpow_pos (-(n : Int))
      simp only [Dec10.V, Int.cast_one, one_mul]
      nlinarith
    rw [show (encOf false (.ufixed m n)).validateValue (.dec (.fin 1 e)) =
      fixedValidate (computeUnsignedFixedBounds m n) n (.dec (.fin 1 e)) from rfl,
      unsignedFixedBounds_eq hm hn]
    simp only [fixedValidate, asDec10?, ok_bind, h1, h2, decRem_tiny hn ht]
    rfl
  obtain ⟨b, hb⟩ := call_accepts (pk := false) (supported_valid h) hval trivial (by simp [weight])
  rw [he, hval, hb]
  exact ⟨_, rfl⟩

theorem tiny_not_grid {n : Nat} {e : Int} (h : e < -(n : Int)) {k : Int} :
    ¬ decValue (1, e) = k * 10 ^ (-(n : Int)) := by
  intro hk
  have h1 : (0 : ℚ) < 10 ^ e := ten_zpow_pos e
  have h2 : (10 : ℚ) ^ e < 10 ^ (-(n : Int)) := zpow_lt_zpow_right₀ (by norm_num) h
  have h3 := ten_zpow_pos (-(n : Int))
  simp only [decValue, Int.cast_one, one_mul] at hk
  rw [hk] at h1 h2
  have h4 : (0 : ℚ) < k := (mul_pos_iff_of_pos_right h3).1 h1
  have h5 : (k : ℚ) < 1 := by
    by_contra hc
    have := mul_le_mul_of_nonneg_right (not_lt.1 hc) h3.le
    linarith
  have h6 : 0 < k := by exact_mod_cast h4
  have h7 : k < 1 := by exact_mod_cast h5
  omega

end EthAbi
