import Verif.Lemmas.PyM
import Verif.Model.EthUtils

/-! # UTF-8: decoding inverts encoding and the other way round -/
namespace EthAbi

theorem mkCP_val (c : CodePoint) : mkCP c.val = some c := by
  simp [mkCP, c.isLt]

theorem toNat_ofNat_lt {n : Nat} (h : n < 256) : (UInt8.ofNat n).toNat = n := by
  simp [UInt8.toNat_ofNat']; omega

theorem utf8Char_ne_nil {c : CodePoint} {b : Bytes} (h : utf8Char c = some b) : b ≠ [] := by
  unfold utf8Char at h
  simp only at h
  repeat' split at h
  all_goals simp at h
  all_goals subst h; simp

theorem isCont_iff {b : UInt8} : isCont b = true ↔ 0x80 ≤ b.toNat ∧ b.toNat < 0xC0 := by
  simp [isCont]

theorem utf8Step_char {c : CodePoint} {b : Bytes} (h : utf8Char c = some b) (rest : Bytes) :
    utf8Step (b ++ rest) = some (c, rest) := by
  have hc := c.isLt
  have hm := mkCP_val c
  unfold utf8Char at h
  simp only at h
  split at h
  · next h1 =>
    injection h with h; subst h
    simp only [List.cons_append, List.nil_append, utf8Step]
    rw [toNat_ofNat_lt (by omega), if_pos h1, hm]; rfl
  · split at h
    · next h1 h2 =>
      injection h with h; subst h
      simp only [List.cons_append, List.nil_append, utf8Step]
      rw [toNat_ofNat_lt (n := 0xC0 + c.val / 64) (by omega),
        toNat_ofNat_lt (n := 0x80 + c.val % 64) (by omega)]
      rw [if_neg (by omega), if_pos (by omega), if_pos (isCont_iff.2 (by rw [toNat_ofNat_lt (by omega)]; omega))]
      have e : (0xC0 + c.val / 64 - 0xC0) * 64 + (0x80 + c.val % 64 - 0x80) = c.val := by omega
      rw [e, hm]; rfl
    · split at h
      · simp at h
      · split at h
        · next h1 h2 h3 h4 =>
          injection h with h; subst h
          simp only [List.cons_append, List.nil_append, utf8Step]
          rw [toNat_ofNat_lt (n := 0xE0 + c.val / 4096) (by omega),
            toNat_ofNat_lt (n := 0x80 + c.val / 64 % 64) (by omega),
            toNat_ofNat_lt (n := 0x80 + c.val % 64) (by omega)]
          have e : (0xE0 + c.val / 4096 - 0xE0) * 4096 + (0x80 + c.val / 64 % 64 - 0x80) * 64 +
              (0x80 + c.val % 64 - 0x80) = c.val := by omega
          rw [if_neg (by omega), if_neg (by omega), if_pos (by omega), e, hm]
          rw [if_pos]; rfl
          simp [isCont]
          repeat rw [toNat_ofNat_lt (by omega)]
          omega
        · next h1 h2 h3 h4 =>
          injection h with h; subst h
          simp only [List.cons_append, List.nil_append, utf8Step]
          rw [toNat_ofNat_lt (n := 0xF0 + c.val / 262144) (by omega),
            toNat_ofNat_lt (n := 0x80 + c.val / 4096 % 64) (by omega),
            toNat_ofNat_lt (n := 0x80 + c.val / 64 % 64) (by omega),
            toNat_ofNat_lt (n := 0x80 + c.val % 64) (by omega)]
          have e : (0xF0 + c.val / 262144 - 0xF0) * 262144 + (0x80 + c.val / 4096 % 64 - 0x80) * 4096
              + (0x80 + c.val / 64 % 64 - 0x80) * 64 + (0x80 + c.val % 64 - 0x80) = c.val := by omega
          rw [if_neg (by omega), if_neg (by omega), if_neg (by omega), if_pos (by omega), e, hm]
          rw [if_pos]; rfl
          simp [isCont]
          repeat rw [toNat_ofNat_lt (by omega)]
          omega

theorem utf8DecodeAux_encode {s : PyStr} {b : Bytes} (h : utf8Encode? s = some b) (fuel : Nat)
    (hf : b.length ≤ fuel) : utf8DecodeAux fuel b = some s := by
  induction s generalizing b fuel with
  | nil =>
    simp [utf8Encode?] at h; subst h
    cases fuel <;> rfl
  | cons c cs ih =>
    simp only [utf8Encode?, Option.bind_eq_bind, Option.bind_eq_some_iff, Option.pure_def,
      Option.some.injEq] at h
    obtain ⟨b0, h0, bs, hs, rfl⟩ := h
    have hne := utf8Char_ne_nil h0
    have hl : 0 < b0.length := List.length_pos_iff.2 hne
    obtain ⟨x, xs, hx⟩ := List.exists_cons_of_ne_nil (l := b0 ++ bs) (by simp [hne])
    rw [List.length_append] at hf
    cases fuel with
    | zero => omega
    | succ fuel =>
      rw [hx, utf8DecodeAux, ← hx, utf8Step_char h0 bs]
      · simp only [Option.bind_eq_bind, Option.bind_some]
        rw [ih hs fuel (by omega)]; rfl
      · simp

theorem utf8Decode_encode {s : PyStr} {b : Bytes} (h : utf8Encode? s = some b) :
    utf8Decode b = .ok s := by
  rw [utf8Decode, utf8DecodeAux_encode h _ (Nat.le_refl _)]

theorem ofNat_toNat_eq {n : Nat} {b : UInt8} (h : n = b.toNat) : UInt8.ofNat n = b := by
  subst h; simp

theorem mkCP_some {n : Nat} {c : CodePoint} (h : mkCP n = some c) : c.val = n := by
  unfold mkCP at h
  split at h
  · simp at h; subst h; rfl
  · simp at h

theorem utf8Step_sound {b rest : Bytes} {c : CodePoint} (h : utf8Step b = some (c, rest)) :
    ∃ p, utf8Char c = some p ∧ b = p ++ rest := by
  cases b with
  | nil => simp [utf8Step] at h
  | cons b0 t =>
    have l0 := b0.toNat_lt
    simp only [utf8Step] at h
    split at h
    · next h1 =>
      simp only [Option.map_eq_some_iff, Prod.mk.injEq] at h
      obtain ⟨c', hc, rfl, rfl⟩ := h
      have hv := mkCP_some hc
      refine ⟨[b0], ?_, rfl⟩
      simp only [utf8Char, hv, if_pos h1]
      rw [ofNat_toNat_eq rfl]
    · split at h
      · next h1 h2 =>
        split at h
        · next b1 r =>
          have l1 := b1.toNat_lt
          split at h
          · next h3 =>
            simp only [Option.map_eq_some_iff, Prod.mk.injEq] at h
            obtain ⟨c', hc, rfl, rfl⟩ := h
            have hv := mkCP_some hc
            simp [isCont] at h3
            refine ⟨[b0, b1], ?_, rfl⟩
            unfold utf8Char
            simp only [hv]
            rw [if_neg (by omega), if_pos (by omega)]
            simp only [Option.some.injEq, List.cons.injEq, and_true]
            exact ⟨ofNat_toNat_eq (by omega), ofNat_toNat_eq (by omega)⟩
          · simp at h
        · simp at h
      · split at h
        · next h1 h2 h3 =>
          split at h
          · next b1 b2 r =>
            have l1 := b1.toNat_lt
            have l2 := b2.toNat_lt
            split at h
            · next h4 =>
              simp only [Option.map_eq_some_iff, Prod.mk.injEq] at h
              obtain ⟨c', hc, rfl, rfl⟩ := h
              have hv := mkCP_some hc
              simp [isCont] at h4
              refine ⟨[b0, b1, b2], ?_, rfl⟩
              unfold utf8Char
              simp only [hv]
              rw [if_neg (by omega), if_neg (by omega), if_neg (by omega), if_pos (by omega)]
              simp only [Option.some.injEq, List.cons.injEq, and_true]
              exact ⟨ofNat_toNat_eq (by omega), ofNat_toNat_eq (by omega), ofNat_toNat_eq (by omega)⟩
            · simp at h
          · simp at h
        · split at h
          · next h1 h2 h3 h4 =>
            split at h
            · next b1 b2 b3 r =>
              have l1 := b1.toNat_lt
              have l2 := b2.toNat_lt
              have l3 := b3.toNat_lt
              split at h
              · next h5 =>
                simp only [Option.map_eq_some_iff, Prod.mk.injEq] at h
                obtain ⟨c', hc, rfl, rfl⟩ := h
                have hv := mkCP_some hc
                simp [isCont] at h5
                refine ⟨[b0, b1, b2, b3], ?_, rfl⟩
                unfold utf8Char
                simp only [hv]
                rw [if_neg (by omega), if_neg (by omega), if_neg (by omega), if_neg (by omega)]
                simp only [Option.some.injEq, List.cons.injEq, and_true]
                exact ⟨ofNat_toNat_eq (by omega), ofNat_toNat_eq (by omega),
                  ofNat_toNat_eq (by omega), ofNat_toNat_eq (by omega)⟩
              · simp at h
            · simp at h
          · simp at h

theorem utf8DecodeAux_sound {fuel : Nat} {b : Bytes} {s : PyStr}
    (h : utf8DecodeAux fuel b = some s) : utf8Encode? s = some b := by
  induction fuel generalizing b s with
  | zero =>
    cases b with
    | nil => simp [utf8DecodeAux] at h; subst h; rfl
    | cons x xs => simp [utf8DecodeAux] at h
  | succ fuel ih =>
    cases b with
    | nil => simp [utf8DecodeAux] at h; subst h; rfl
    | cons x xs =>
      rw [utf8DecodeAux] at h
      · simp only [Option.bind_eq_bind, Option.bind_eq_some_iff, Option.pure_def,
          Option.some.injEq, Prod.exists] at h
        obtain ⟨c, rest, h1, cs, h2, rfl⟩ := h
        obtain ⟨p, hp, e⟩ := utf8Step_sound h1
        rw [utf8Encode?, hp, ih h2, e]; rfl
      · simp

theorem utf8Decode_sound {b : Bytes} {s : PyStr} (h : utf8Decode b = .ok s) :
    utf8Encode? s = some b := by
  unfold utf8Decode at h
  split at h
  · next s' hs => cases h; exact utf8DecodeAux_sound hs
  · cases h

theorem utf8Decode_ok_iff {b : Bytes} {s : PyStr} :
    utf8Decode b = .ok s ↔ utf8Encode? s = some b :=
  ⟨utf8Decode_sound, utf8Decode_encode⟩

theorem utf8Decode_error {b : Bytes} {e : Exc} (h : utf8Decode b = .error e) :
    e = .unicodeDecodeError := by
  unfold utf8Decode at h
  split at h
  · cases h
  · cases h; rfl

end EthAbi
