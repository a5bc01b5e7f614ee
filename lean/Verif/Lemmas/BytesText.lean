import Verif.Model.Messages
import Verif.Spec.BytesText

/-!
# How Python shows bytes
-/
namespace EthAbi
open Spec

theorem hexDigits_hexChar : ∀ i < 16, hexDigits[i]? = some (hexChar i) := by decide

theorem hexDigits_some {i : Nat} {h : Char} (hi : hexDigits[i]? = some h) : i < 16 ∧ h = hexChar i := by
  have hl : i < 16 := (List.getElem?_eq_some_iff.1 hi).1
  refine ⟨hl, ?_⟩
  rw [hexDigits_hexChar i hl] at hi
  exact (Option.some.inj hi).symm

theorem byteRepr_text {q : Char} (hq : q = '\'' ∨ q = '"') (x : UInt8) : ByteText q x (byteRepr q x) := by
  have hx : x = UInt8.ofNat x.toNat := by simp
  have hlt : x.toNat < 256 := x.toNat_lt
  have hc : ∀ n < 256, (Char.ofNat n).toNat = n := by decide +kernel
  unfold byteRepr
  split
  · rename_i h
    rcases h with h | h
    · have : Char.ofNat x.toNat = q := by rw [h]; exact Char.ofNat_toNat q
      rw [this]
      have hx' : x = UInt8.ofNat q.toNat := by rw [← h]; exact hx
      rw [hx']
      exact .quote
    · have hx' : x = 92 := UInt8.toNat_inj.1 h
      subst hx'
      exact .backslash
  · rename_i h0
    split
    · rename_i h
      have hx' : x = 9 := UInt8.toNat_inj.1 h
      subst hx'; exact .tab
    · rename_i h9
      split
      · rename_i h
        have hx' : x = 10 := UInt8.toNat_inj.1 h
        subst hx'; exact .newline
      · rename_i h10
        split
        · rename_i h
          have hx' : x = 13 := UInt8.toNat_inj.1 h
          subst hx'; exact .carriageReturn
        · rename_i h13
          split
          · rename_i h
            exact .hex (i := x.toNat / 16) (j := x.toNat % 16) (by omega) (fun e => h9 (by rw [e]; rfl))
              (fun e => h10 (by rw [e]; rfl)) (fun e => h13 (by rw [e]; rfl)) (hexDigits_hexChar _ (by omega))
              (hexDigits_hexChar _ (by omega)) (by omega)
          · rename_i h
            have hn := hc x.toNat hlt
            conv => arg 2; rw [hx, ← hn]
            exact .plain (by omega) (by omega) (fun e => h0 (.inl (by rw [← e, hn]))) (fun e => h0 (.inr (by
              have := congrArg Char.toNat e
              rw [hn] at this
              exact this)))

theorem byteText_repr {q : Char} (hq : q = '\'' ∨ q = '"') {x : UInt8} {w : List Char} (h : ByteText q x w) :
    w = byteRepr q x := by
  cases h with
  | @plain c h1 h2 h3 h4 =>
    have hn : (UInt8.ofNat c.toNat).toNat = c.toNat := by simp; omega
    have h3' : ¬ c.toNat = q.toNat := fun e => h3 (Char.toNat_inj.1 e)
    have h4' : ¬ c.toNat = 92 := fun e => h4 (Char.toNat_inj.1 e)
    simp only [byteRepr, hn]
    rw [if_neg (by omega), if_neg (by omega), if_neg (by omega), if_neg (by omega), if_neg (by omega), Char.ofNat_toNat]
  | quote => rcases hq with rfl | rfl <;> rfl
  | backslash => rcases hq with rfl | rfl <;> rfl
  | tab => rcases hq with rfl | rfl <;> rfl
  | newline => rcases hq with rfl | rfl <;> rfl
  | carriageReturn => rcases hq with rfl | rfl <;> rfl
  | @hex _ i j _ _ h1 h2 h3 h4 h5 h6 h7 =>
    obtain ⟨hi, rfl⟩ := hexDigits_some h5
    obtain ⟨hj, rfl⟩ := hexDigits_some h6
    have h2' : ¬ x.toNat = 9 := fun e => h2 (UInt8.toNat_inj.1 e)
    have h3' : ¬ x.toNat = 10 := fun e => h3 (UInt8.toNat_inj.1 e)
    have h4' : ¬ x.toNat = 13 := fun e => h4 (UInt8.toNat_inj.1 e)
    have hqn : q.toNat = 39 ∨ q.toNat = 34 := by rcases hq with rfl | rfl <;> decide
    unfold byteRepr
    rw [if_neg (by omega), if_neg h2', if_neg h3', if_neg h4', if_pos (by omega),
      show x.toNat / 16 = i by omega, show x.toNat % 16 = j by omega]

theorem byteTexts_iff {q : Char} (hq : q = '\'' ∨ q = '"') : ∀ (b : Bytes) (w : List Char),
    ByteTexts q b w ↔ w = b.flatMap (byteRepr q)
  | [], w => by
    constructor
    · intro h; cases h; rfl
    · rintro rfl; exact .nil
  | x :: b, w => by
    constructor
    · intro h
      cases h with
      | cons h1 h2 => rw [byteText_repr hq h1, (byteTexts_iff hq b _).1 h2]; rfl
    · rintro rfl
      exact .cons (byteRepr_text hq x) ((byteTexts_iff hq b _).2 rfl)

/-- The model's `repr` is the specification's. -/
theorem bytesText_iff {b : Bytes} {w : List Char} : BytesText b w ↔ w = bytesRepr b := by
  unfold bytesRepr reprQuote
  by_cases h : 39 ∈ b ∧ 34 ∉ b
  · rw [if_pos h]
    constructor
    · intro hb
      cases hb with
      | single h1 _ =>
        rcases h1 with h1 | h1
        · exact absurd h.1 h1
        · exact absurd h1 h.2
      | double _ _ h1 => rw [(byteTexts_iff (.inr rfl) _ _).1 h1]; rfl
    · rintro rfl
      exact .double h.1 h.2 ((byteTexts_iff (.inr rfl) _ _).2 rfl)
  · rw [if_neg h]
    constructor
    · intro hb
      cases hb with
      | single _ h1 => rw [(byteTexts_iff (.inl rfl) _ _).1 h1]; rfl
      | double h1 h2 _ => exact absurd ⟨h1, h2⟩ h
    · rintro rfl
      refine .single ?_ ((byteTexts_iff (.inl rfl) _ _).2 rfl)
      by_cases h1 : 39 ∈ b
      · exact .inr (Classical.not_not.1 fun h2 => h ⟨h1, h2⟩)
      · exact .inl h1

end EthAbi
