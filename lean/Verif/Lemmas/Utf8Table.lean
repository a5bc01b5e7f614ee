import Verif.Lemmas.Utf8
import Verif.Spec.Utf8

/-! # UTF-8 and its table -/
namespace EthAbi
open Spec

theorem utf8Char_table {c : CodePoint} {b : Bytes} (h : utf8Char c = some b) : Utf8Char c.val (b.map UInt8.toNat) := by
  obtain ⟨n, hn⟩ := c
  unfold utf8Char at h
  simp only at h ⊢
  split at h
  · next h1 =>
    cases h
    simp only [List.map_cons, List.map_nil]
    rw [toNat_ofNat_lt (by omega)]
    exact .one (by omega)
  split at h
  · next h1 h2 =>
    cases h
    simp only [List.map_cons, List.map_nil]
    rw [toNat_ofNat_lt (by omega), toNat_ofNat_lt (by omega)]
    have := Utf8Char.two (x := n / 64) (y := n % 64) (by omega) (by omega) (by omega)
    rwa [show n / 64 * 2 ^ 6 + n % 64 = n by omega] at this
  split at h
  · cases h
  split at h
  · next h1 h2 h3 h4 =>
    cases h
    simp only [List.map_cons, List.map_nil]
    rw [toNat_ofNat_lt (by omega), toNat_ofNat_lt (by omega), toNat_ofNat_lt (by omega)]
    have := Utf8Char.three (x := n / 4096) (y := n / 64 % 64) (z := n % 64) (by omega) (by omega) (by omega) (by omega)
      (by omega)
    rwa [show n / 4096 * 2 ^ 12 + n / 64 % 64 * 2 ^ 6 + n % 64 = n by omega] at this
  · next h1 h2 h3 h4 =>
    cases h
    simp only [List.map_cons, List.map_nil]
    rw [toNat_ofNat_lt (by omega), toNat_ofNat_lt (by omega), toNat_ofNat_lt (by omega), toNat_ofNat_lt (by omega)]
    have := Utf8Char.four (w := n / 262144) (x := n / 4096 % 64) (y := n / 64 % 64) (z := n % 64) (by omega) (by omega)
      (by omega) (by omega) (by omega) (by omega)
    rwa [show n / 262144 * 2 ^ 18 + n / 4096 % 64 * 2 ^ 12 + n / 64 % 64 * 2 ^ 6 + n % 64 = n by omega] at this

theorem utf8Char_none {c : CodePoint} : utf8Char c = none ↔ Surrogate c := by
  obtain ⟨n, hn⟩ := c
  unfold utf8Char Surrogate
  simp only
  split
  · simp; omega
  split
  · simp; omega
  split
  · next h => simpa using h
  split <;> simp <;> omega

theorem toNat_inj {b b' : Bytes} (h : b.map UInt8.toNat = b'.map UInt8.toNat) : b = b' :=
  List.map_inj_right (fun _ _ h => UInt8.toNat_inj.1 h) |>.1 h

theorem utf8_table_unique {n : Nat} {x y : List Nat} (hx : Utf8Char n x) (hy : Utf8Char n y) : x = y := by
  cases hx with
  | one h1 =>
    generalize hn : n = m at hy
    cases hy <;> first | omega | rfl
  | two h1 h2 h3 =>
    rename_i a b
    generalize hn : a * 2 ^ 6 + b = m at hy
    cases hy with
    | one _ => omega
    | two g1 g2 g3 => simp only [List.cons.injEq, and_true]; omega
    | three => omega
    | four => omega
  | three h1 h2 h3 h4 h5 =>
    rename_i a b c
    generalize hn : a * 2 ^ 12 + b * 2 ^ 6 + c = m at hy
    cases hy with
    | one _ => omega
    | two g1 g2 g3 => omega
    | three => simp only [List.cons.injEq, and_true]; omega
    | four => omega
  | four h1 h2 h3 h4 h5 h6 =>
    rename_i a b c d
    generalize hn : a * 2 ^ 18 + b * 2 ^ 12 + c * 2 ^ 6 + d = m at hy
    cases hy with
    | one _ => omega
    | two g1 g2 g3 => omega
    | three => omega
    | four => simp only [List.cons.injEq, and_true]; omega

theorem table_not_surrogate {c : CodePoint} {x : List Nat} (h : Utf8Char c.val x) : ¬ Surrogate c := by
  unfold Surrogate
  generalize c.val = n at h
  cases h <;> omega

theorem utf8Char_iff {c : CodePoint} {b : Bytes} : utf8Char c = some b ↔ Utf8Char c.val (b.map UInt8.toNat) := by
  refine ⟨utf8Char_table, fun h => ?_⟩
  cases h1 : utf8Char c with
  | none => exact absurd (utf8Char_none.1 h1) (table_not_surrogate h)
  | some b' => rw [toNat_inj (utf8_table_unique (utf8Char_table h1) h)]

theorem utf8_iff {s : PyStr} {b : Bytes} : utf8Encode? s = some b ↔ Utf8 s b := by
  constructor
  · intro h
    induction s generalizing b with
    | nil => cases h; exact .nil
    | cons c cs ih =>
      simp only [utf8Encode?, Option.bind_eq_bind, Option.bind_eq_some_iff] at h
      obtain ⟨b1, h1, b2, h2, h3⟩ := h
      cases h3
      exact .cons (utf8Char_iff.1 h1) (ih h2)
  · intro h
    induction h with
    | nil => rfl
    | cons h1 _ ih => simp [utf8Encode?, utf8Char_iff.2 h1, ih]

theorem utf8_some {s : PyStr} : (∃ b, Utf8 s b) ↔ ∀ c ∈ s, ¬ Surrogate c := by
  constructor
  · rintro ⟨b, h⟩
    induction h with
    | nil => intro c hc; cases hc
    | cons h1 _ ih =>
      intro d hd
      rcases List.mem_cons.1 hd with rfl | hd
      · exact table_not_surrogate h1
      · exact ih d hd
  · intro h
    induction s with
    | nil => exact ⟨[], .nil⟩
    | cons c cs ih =>
      obtain ⟨b, hb⟩ := ih fun d hd => h d (by simp [hd])
      cases h1 : utf8Char c with
      | none => exact absurd (utf8Char_none.1 h1) (h c (by simp))
      | some b1 => exact ⟨_, .cons (utf8Char_iff.1 h1) hb⟩

theorem utf8_length {s : PyStr} {b : Bytes} (h : Utf8 s b) : s.length ≤ b.length ∧ b.length ≤ 4 * s.length := by
  induction h with
  | nil => simp
  | @cons c cs b bs h1 _ ih =>
    have : 1 ≤ b.length ∧ b.length ≤ 4 := by
      rw [← List.length_map (f := UInt8.toNat)]
      generalize b.map UInt8.toNat = x at h1
      generalize c.val = n at h1
      cases h1 <;> simp
    simp only [List.length_cons, List.length_append]
    omega

end EthAbi
