import Verif.Spec.Grammar
import Mathlib.Data.List.Induction

/-! # Decimal numerals -/
namespace EthAbi
open Spec

theorem char_le_iff (a b : Char) : a ≤ b ↔ a.toNat ≤ b.toNat := by
  rw [Char.le_def, UInt32.le_iff_toNat_le]; rfl

theorem isDig_iff {c : Char} : isDig c = true ↔ '0' ≤ c ∧ c ≤ '9' := by
  simp only [isDig, decide_eq_true_eq, char_le_iff]; rfl

theorem isDig19_iff {c : Char} : isDig19 c = true ↔ '1' ≤ c ∧ c ≤ '9' := by
  simp only [isDig19, decide_eq_true_eq, char_le_iff]; rfl

theorem isAlph_iff {c : Char} : isAlph c = true ↔ IsLetter c := by
  simp only [isAlph, decide_eq_true_eq, IsLetter, char_le_iff]; rfl

theorem isDig_of_isDig19 {c : Char} (h : isDig19 c = true) : isDig c = true := by
  simp only [isDig, isDig19, decide_eq_true_eq] at *; omega

/-- The digit character. -/
def digitChar (n : Nat) : Char := Char.ofNat (48 + n % 10)

theorem digitChar_toNat (n : Nat) : (digitChar n).toNat = 48 + n % 10 := by
  have h := Nat.mod_lt n (show 0 < 10 by omega)
  generalize hm : n % 10 = m at h
  rw [digitChar, hm]
  have : m = 0 ∨ m = 1 ∨ m = 2 ∨ m = 3 ∨ m = 4 ∨ m = 5 ∨ m = 6 ∨ m = 7 ∨ m = 8 ∨ m = 9 := by omega
  rcases this with rfl | rfl | rfl | rfl | rfl | rfl | rfl | rfl | rfl | rfl <;> rfl

theorem char_ext {a b : Char} (h : a.toNat = b.toNat) : a = b := by
  apply Char.ext
  exact UInt32.toNat_inj.1 h

theorem digitChar_of {c : Char} (h : isDig c = true) : digitChar (c.toNat - 48) = c := by
  simp only [isDig, decide_eq_true_eq] at h
  apply char_ext
  rw [digitChar_toNat]
  omega

theorem natDigitsAux_succ (fuel n : Nat) (acc : List Char) :
    natDigitsAux (fuel + 1) n acc =
      if n < 10 then digitChar n :: acc else natDigitsAux fuel (n / 10) (digitChar n :: acc) := rfl

theorem natDigitsAux_acc : ∀ (fuel n : Nat) (acc : List Char),
    natDigitsAux fuel n acc = natDigitsAux fuel n [] ++ acc
  | 0, _, _ => rfl
  | fuel + 1, n, acc => by
    rw [natDigitsAux_succ, natDigitsAux_succ]
    split
    · rfl
    · rw [natDigitsAux_acc fuel _ (digitChar n :: acc), natDigitsAux_acc fuel _ [digitChar n],
        List.append_assoc]
      rfl

theorem natDigitsAux_fuel : ∀ (f g n : Nat), n < f → n < g →
    natDigitsAux f n [] = natDigitsAux g n []
  | 0, _, _, h, _ => absurd h (by omega)
  | _, 0, _, _, h => absurd h (by omega)
  | f + 1, g + 1, n, hf, hg => by
    rw [natDigitsAux_succ, natDigitsAux_succ]
    split
    · rfl
    · rw [natDigitsAux_acc f, natDigitsAux_acc g, natDigitsAux_fuel f g (n / 10) (by omega) (by omega)]

/-- `str(n)`, digit by digit. -/
theorem natDigits_eq (n : Nat) :
    natDigits n = if n < 10 then [digitChar n] else natDigits (n / 10) ++ [digitChar n] := by
  rw [natDigits, natDigitsAux_succ]
  split
  · rfl
  · rw [natDigitsAux_acc, natDigits, natDigitsAux_fuel n (n / 10 + 1) (n / 10) (by omega) (by omega)]

theorem natDigits_small {n : Nat} (h : n < 10) : natDigits n = [digitChar n] := by
  rw [natDigits_eq, if_pos h]

theorem natDigits_big {n : Nat} (h : 10 ≤ n) : natDigits n = natDigits (n / 10) ++ [digitChar n] := by
  rw [natDigits_eq, if_neg (by omega)]

theorem digitChar_isDig (n : Nat) : isDig (digitChar n) = true := by
  have := Nat.mod_lt n (show 0 < 10 by omega)
  simp only [isDig, digitChar_toNat, decide_eq_true_eq]; omega

theorem numeral_natDigits : ∀ n : Nat, 0 < n → Numeral n (natDigits n) := by
  intro n
  induction n using Nat.strongRecOn with
  | _ n ih =>
    intro hn
    by_cases h : n < 10
    · rw [natDigits_small h]
      have h1 : isDig19 (digitChar n) = true := by
        simp only [isDig19, digitChar_toNat, decide_eq_true_eq]; omega
      have h2 := Numeral.one (isDig19_iff.1 h1).1 (isDig19_iff.1 h1).2
      have e : (digitChar n).toNat - '0'.toNat = n := by
        rw [digitChar_toNat]; show 48 + n % 10 - 48 = n; omega
      rw [e] at h2; exact h2
    · rw [natDigits_big (by omega)]
      have h1 := ih (n / 10) (by omega) (by omega)
      have h3 := isDig_iff.1 (digitChar_isDig n)
      have h2 := Numeral.snoc h1 h3.1 h3.2
      have e : 10 * (n / 10) + ((digitChar n).toNat - '0'.toNat) = n := by
        rw [digitChar_toNat]; show 10 * (n / 10) + (48 + n % 10 - 48) = n; omega
      rw [e] at h2; exact h2

theorem numeral_iff {n : Nat} {s : List Char} : Numeral n s ↔ 0 < n ∧ s = natDigits n := by
  constructor
  · intro h
    induction h with
    | @one c h1 h2 =>
      have h3 := isDig19_iff.2 ⟨h1, h2⟩
      have h4 := digitChar_of (isDig_of_isDig19 h3)
      simp only [isDig19, decide_eq_true_eq] at h3
      have e : c.toNat - '0'.toNat = c.toNat - 48 := rfl
      rw [e]
      exact ⟨by omega, by rw [natDigits_small (by omega), h4]⟩
    | @snoc n s c _ h1 h2 ih =>
      have h3 := isDig_iff.2 ⟨h1, h2⟩
      have h4 := digitChar_of h3
      simp only [isDig, decide_eq_true_eq] at h3
      have e : c.toNat - '0'.toNat = c.toNat - 48 := rfl
      rw [e]
      obtain ⟨hn, rfl⟩ := ih
      refine ⟨by omega, ?_⟩
      rw [natDigits_big (n := 10 * n + (c.toNat - 48)) (by omega)]
      have e1 : (10 * n + (c.toNat - 48)) / 10 = n := by omega
      rw [e1]
      congr 2
      rw [← h4]
      apply char_ext
      rw [digitChar_toNat, digitChar_toNat]
      omega
  · rintro ⟨hn, rfl⟩
    exact numeral_natDigits n hn

theorem natOfDigits_snoc (s : List Char) (c : Char) :
    natOfDigits (s ++ [c]) = natOfDigits s * 10 + (c.toNat - 48) := by
  simp [natOfDigits]

theorem numeral_value {n : Nat} {s : List Char} (h : Numeral n s) :
    natOfDigits s = n ∧ (∀ c ∈ s, isDig c = true) ∧ ∃ c cs, s = c :: cs ∧ isDig19 c = true := by
  induction h with
  | @one c h1 h2 =>
    have h3 := isDig19_iff.2 ⟨h1, h2⟩
    refine ⟨?_, ?_, c, [], rfl, h3⟩
    · show 0 * 10 + _ = _
      rw [Nat.zero_mul, Nat.zero_add]; rfl
    · intro d hd
      rw [List.mem_singleton] at hd
      subst hd
      exact isDig_of_isDig19 h3
  | @snoc n s c _ h1 h2 ih =>
    obtain ⟨ih1, ih2, d, ds, rfl, ih3⟩ := ih
    refine ⟨?_, ?_, d, ds ++ [c], rfl, ih3⟩
    · rw [natOfDigits_snoc, ih1, Nat.mul_comm]; rfl
    · intro e he
      rcases List.mem_append.1 he with he | he
      · exact ih2 e he
      · rw [List.mem_singleton] at he
        subst he
        exact isDig_iff.2 ⟨h1, h2⟩

theorem numeral_of_digits {c : Char} {cs : List Char} (h : isDig19 c = true)
    (hs : ∀ d ∈ cs, isDig d = true) : Numeral (natOfDigits (c :: cs)) (c :: cs) := by
  induction cs using List.reverseRecOn with
  | nil =>
    have h1 := Numeral.one (isDig19_iff.1 h).1 (isDig19_iff.1 h).2
    have e : natOfDigits [c] = c.toNat - '0'.toNat := by
      show 0 * 10 + _ = _
      rw [Nat.zero_mul, Nat.zero_add]; rfl
    rw [e]; exact h1
  | append_singleton cs d ih =>
    have ih := ih (fun e he => hs e (by simp [he]))
    have hd := isDig_iff.1 (hs d (by simp))
    have := Numeral.snoc ih hd.1 hd.2
    rw [← List.cons_append, natOfDigits_snoc, Nat.mul_comm]
    exact this

/-- The string does not go on with a character satisfying `f`. -/
def Stops (f : Char → Bool) (s : List Char) : Prop := ∀ c ∈ s.head?, f c = false

theorem takeWhile_append_stop {f : Char → Bool} {w rest : List Char} (hw : ∀ c ∈ w, f c = true)
    (hr : Stops f rest) : (w ++ rest).takeWhile f = w ∧ (w ++ rest).dropWhile f = rest := by
  induction w with
  | nil =>
    cases rest with
    | nil => exact ⟨rfl, rfl⟩
    | cons c cs =>
      have : f c = false := hr c rfl
      simp [this]
  | cons c cs ih =>
    have := ih (fun d hd => hw d (by simp [hd]))
    simp [hw c (by simp), this]

theorem takeWhile_split (f : Char → Bool) (s : List Char) :
    s = s.takeWhile f ++ s.dropWhile f ∧ (∀ c ∈ s.takeWhile f, f c = true) ∧
      Stops f (s.dropWhile f) := by
  induction s with
  | nil => exact ⟨rfl, by simp, by simp [Stops]⟩
  | cons c cs ih =>
    cases h : f c with
    | true =>
      simp only [List.takeWhile_cons, List.dropWhile_cons, h, if_true]
      refine ⟨by rw [List.cons_append, ← ih.1], ?_, ih.2.2⟩
      intro d hd
      rcases List.mem_cons.1 hd with rfl | hd
      · exact h
      · exact ih.2.1 d hd
    | false =>
      simp only [List.takeWhile_cons, List.dropWhile_cons, h]
      refine ⟨rfl, by simp, ?_⟩
      intro d hd
      cases hd
      exact h

end EthAbi
