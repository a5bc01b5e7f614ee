import Verif.Spec.Strings
import Verif.Lemmas.Codec
import Mathlib.Data.List.Infix

/-!
# Runs of digits, replaced words, and lookups of normalised strings
-/
namespace EthAbi
open Spec

/-! ## Runs of digits -/

theorem isDigit_iff {c : Char} : isDig c = true ↔ IsDigit c := isDig_iff

/-- Runs of at most `k` digits. -/
def RunsLe (k : Nat) (s : List Char) : Prop := ∀ w, w <:+: s → (∀ c ∈ w, IsDigit c) → w.length ≤ k

theorem runsLe_sep {k : Nat} {u v : List Char} {c : Char} (hc : ¬ IsDigit c) :
    RunsLe k (u ++ c :: v) ↔ RunsLe k u ∧ RunsLe k v := by
  constructor
  · intro h
    refine ⟨fun w hw hd => h w (hw.trans ?_) hd, fun w hw hd => h w (hw.trans ?_) hd⟩
    · exact ⟨[], c :: v, by simp⟩
    · exact ⟨u ++ [c], [], by simp⟩
  · rintro ⟨hu, hv⟩ w ⟨p, q, e⟩ hd
    rw [List.append_assoc, List.append_eq_append_iff] at e
    rcases e with ⟨a, h1, h2⟩ | ⟨a, h1, h2⟩
    · -- u = p ++ a, w ++ q = a ++ c :: v
      rw [List.append_eq_append_iff] at h2
      rcases h2 with ⟨b, h3, h4⟩ | ⟨b, h3, h4⟩
      · exact hu w ⟨p, b, by rw [h1, h3, List.append_assoc]⟩ hd
      · cases b with
        | nil => exact hu w ⟨p, [], by rw [h1, h3]; simp⟩ hd
        | cons x b =>
          rw [List.cons_append, List.cons.injEq] at h4
          exact absurd (hd c (by rw [h3, h4.1]; simp)) hc
    · -- p = u ++ a, c :: v = a ++ (w ++ q)
      cases a with
      | nil =>
        cases w with
        | nil => simp
        | cons x w =>
          rw [List.nil_append, List.cons_append, List.cons.injEq] at h2
          exact absurd (hd c (by rw [h2.1]; simp)) hc
      | cons x a =>
        rw [List.cons_append, List.cons.injEq] at h2
        exact hv w ⟨a, q, by rw [h2.2, List.append_assoc]⟩ hd

theorem runsLe_nil (k : Nat) : RunsLe k [] := by
  intro w hw _
  rw [List.infix_nil.1 hw]; simp

theorem runsLe_digits {k : Nat} {s : List Char} (h : ∀ c ∈ s, IsDigit c) : RunsLe k s ↔ s.length ≤ k :=
  ⟨fun h' => h' s (List.infix_refl s) h, fun h' _ hw _ => hw.length_le.trans h'⟩

theorem runsLe_letters {k : Nat} {b s : List Char} (h : ∀ c ∈ b, IsLetter c) :
    RunsLe k (b ++ s) ↔ RunsLe k s := by
  induction b with
  | nil => rfl
  | cons c b ih =>
    have hc : ¬ IsDigit c := by
      rw [← isDigit_iff]
      have := isAlph_iff.2 (h c (by simp))
      simp only [isAlph, isDig, decide_eq_true_eq] at this ⊢
      omega
    have := runsLe_sep (k := k) (u := []) (v := b ++ s) hc
    rw [List.nil_append] at this
    rw [List.cons_append, this, ih fun d hd => h d (by simp [hd])]
    exact ⟨fun h => h.2, fun h => ⟨runsLe_nil k, h⟩⟩

theorem not_digit {c : Char} (h : ¬ (48 ≤ c.toNat ∧ c.toNat ≤ 57)) : ¬ IsDigit c := by
  rw [← isDigit_iff]; simpa [isDig] using h

theorem numeral_runs {k n : Nat} {w : List Char} (h : Numeral n w) :
    RunsLe k w ↔ (natDigits n).length ≤ k := by
  rw [runsLe_digits fun c hc => isDigit_iff.1 ((numeral_value h).2.1 c hc), (numeral_iff.1 h).2]

theorem sub_runs {k : Nat} [Ext] (hk : Ext.maxStrDigits = some k) {sub : Sub} {w : List Char}
    (h : DerivesSub sub w) : RunsLe k w ↔ sub.numsOk = true := by
  have num : ∀ n, numOk n = true ↔ (natDigits n).length ≤ k := fun n => by simp [numOk, hk]
  cases h with
  | none => exact ⟨fun _ => rfl, fun _ => runsLe_nil k⟩
  | one h => rw [numeral_runs h, Sub.numsOk, num]
  | @two m n s t h1 h2 =>
    have hx : ¬ IsDigit 'x' := not_digit (by decide)
    have e : s ++ t!"x" ++ t = s ++ 'x' :: t := by simp
    rw [e, runsLe_sep hx, numeral_runs h1, numeral_runs h2, Sub.numsOk, Bool.and_eq_true, num, num]

/-- `w` is empty or starts with a bracket, and so on. -/
theorem dims_runs {k : Nat} [Ext] (hk : Ext.maxStrDigits = some k) {ds : List (Option Nat)}
    {w : List Char} (h : DerivesDims ds w) (u : List Char) :
    RunsLe k (u ++ w) ↔ RunsLe k u ∧ arrNumsOk ds = true := by
  have num : ∀ n, numOk n = true ↔ (natDigits n).length ≤ k := fun n => by simp [numOk, hk]
  have h1 : ¬ IsDigit '[' := not_digit (by decide)
  have h2 : ¬ IsDigit ']' := not_digit (by decide)
  have hc : ∀ d (ds : List (Option Nat)), arrNumsOk (d :: ds) = (arrNumsOk [d] && arrNumsOk ds) := by
    intro d ds; simp [arrNumsOk]
  induction h generalizing u with
  | nil => rw [List.append_nil]; exact ⟨fun h => ⟨h, rfl⟩, fun h => h.1⟩
  | @dynamic ds s _ ih =>
    have e : u ++ (t!"[]" ++ s) = u ++ '[' :: ([] ++ ']' :: s) := by simp
    have this : RunsLe k s ↔ RunsLe k [] ∧ arrNumsOk ds = true := ih []
    rw [e, runsLe_sep h1, runsLe_sep h2, this, hc]
    simp [arrNumsOk, runsLe_nil]
  | @sized ds n s t hn _ ih =>
    have e : u ++ (t!"[" ++ t ++ t!"]" ++ s) = u ++ '[' :: (t ++ ']' :: s) := by simp
    have this : RunsLe k s ↔ RunsLe k [] ∧ arrNumsOk ds = true := ih []
    rw [e, runsLe_sep h1, runsLe_sep h2, this, hc, numeral_runs hn, ← num]
    simp [arrNumsOk, runsLe_nil]

theorem derives_runs {k : Nat} [Ext] (hk : Ext.maxStrDigits = some k) {t : ABIType} {s : List Char}
    (h : Derives t s) : RunsLe k s ↔ t.numsOk = true := by
  have p1 : ¬ IsDigit '(' := not_digit (by decide)
  have p2 : ¬ IsDigit ')' := not_digit (by decide)
  have p3 : ¬ IsDigit ',' := not_digit (by decide)
  refine Derives.rec (motive_1 := fun t s _ => RunsLe k s ↔ t.numsOk = true)
    (motive_2 := fun ts s _ => RunsLe k s ↔ ABIType.allNumsOk ts = true) ?_ ?_ ?_ ?_ h
  · intro base s1 s2 sub arr _ hl h1 h2
    rw [dims_runs hk h2, runsLe_letters hl, sub_runs hk h1, ABIType.numsOk, Bool.and_eq_true]
  · intro comps s1 s2 arr _ h2 ih
    have e : t!"(" ++ s1 ++ t!")" = [] ++ '(' :: (s1 ++ ')' :: []) := by simp
    rw [dims_runs hk h2, e, runsLe_sep p1, runsLe_sep p2, ih, ABIType.numsOk, Bool.and_eq_true]
    simp [runsLe_nil]
  · intro t s _ ih
    rw [ih]; simp [ABIType.allNumsOk]
  · intro t ts s s' _ _ ih ih'
    have e : s ++ t!"," ++ s' = s ++ ',' :: s' := by simp
    rw [e, runsLe_sep p3, ih, ih', ABIType.allNumsOk, Bool.and_eq_true]

theorem numsOk_iff [Ext] {t : ABIType} {s : List Char} (h : Derives t s) :
    t.numsOk = true ↔ DigitRunsFit s := by
  cases hk : Ext.maxStrDigits with
  | some k =>
    rw [← derives_runs hk h]
    exact ⟨fun h k' hk' => by rw [hk] at hk'; cases hk'; exact h, fun h => h k hk⟩
  | none =>
    have num : ∀ n, numOk n = true := fun n => by simp [numOk, hk]
    have hs : ∀ sub : Sub, sub.numsOk = true := by
      intro sub; cases sub <;> simp [Sub.numsOk, num]
    have ha : ∀ a : List (Option Nat), arrNumsOk a = true := by
      intro a; simp only [arrNumsOk, List.all_eq_true]
      intro d _; cases d <;> simp [num]
    refine ⟨fun _ k hk' => (by rw [hk] at hk'; cases hk'), fun _ => ?_⟩
    clear h
    induction t using ABIType.ind with
    | basic b s a => simp [ABIType.numsOk, hs, ha]
    | tuple cs a ih =>
      simp only [ABIType.numsOk, ha, Bool.and_true, allNumsOk_eq, List.all_eq_true]
      exact ih

theorem hasEmptyParens_iff {s : List Char} : hasEmptyParens s = true ↔ t!"()" <:+: s := by
  have hnil : ¬ (t!"()" <:+: []) := by rw [List.infix_nil]; simp
  induction s with
  | nil => exact ⟨fun h => (by cases h), fun h => (hnil h).elim⟩
  | cons c s ih =>
    rw [List.infix_cons_iff]
    by_cases hc : ∃ r, c = '(' ∧ s = ')' :: r
    · obtain ⟨r, rfl, rfl⟩ := hc
      exact ⟨fun _ => Or.inl ⟨r, rfl⟩, fun _ => rfl⟩
    · have e : hasEmptyParens (c :: s) = hasEmptyParens s := by
        rw [hasEmptyParens]
        intro r h1 h2; exact hc ⟨r, h1, h2⟩
      rw [e]
      refine Iff.trans ih ⟨Or.inr, ?_⟩
      rintro (⟨r, h⟩ | h)
      · refine absurd ⟨r, ?_⟩ hc
        simp only [List.cons_append, List.nil_append, List.cons.injEq] at h
        exact ⟨h.1.symm, h.2.symm⟩
      · exact h

/-! ## Replaced words -/

theorem isWord_iff [Ext] {c : Char} : isWord c = true ↔ IsWordChar c := by
  simp only [isWord, IsWordChar, Bool.or_eq_true, Bool.and_eq_true, decide_eq_true_eq, beq_iff_eq,
    isAlph_iff, isDigit_iff, or_assoc]

theorem isWord_false [Ext] {c : Char} : isWord c = false ↔ ¬ IsWordChar c := by
  rw [← isWord_iff]; simp

theorem alias_iff {w r : List Char} : Alias w r ↔ (w, r) ∈ typeAliases := by
  constructor
  · intro h; cases h <;> simp [typeAliases]
  · intro h
    simp only [typeAliases, List.mem_cons, Prod.mk.injEq, List.not_mem_nil, or_false] at h
    rcases h with ⟨rfl, rfl⟩ | ⟨rfl, rfl⟩ | ⟨rfl, rfl⟩ | ⟨rfl, rfl⟩ | ⟨rfl, rfl⟩ | ⟨rfl, rfl⟩
    · exact .int
    · exact .uint
    · exact .fixed
    · exact .ufixed
    · exact .function
    · exact .byte

theorem substWord_alias {w r : List Char} (h : Alias w r) : substWord w = r := by cases h <;> rfl

theorem substWord_other {w : List Char} (h : ∀ r, ¬ Alias w r) : substWord w = w := by
  rcases substWord_cases w with h' | h'
  · exact h'
  · exact absurd (alias_iff.2 h') (h _)

theorem replaced_normalize [Ext] {s s' : List Char} (h : Replaced s s') : s' = normalize s := by
  have hst : ∀ {s}, WordEnds s → Stops isWord s := fun h c hc => isWord_false.2 (h c hc)
  induction h with
  | nil => rfl
  | other hc _ ih => rw [normalize_nonword (isWord_false.2 hc), ← ih]
  | @«alias» w r s s' ha he _ ih =>
    rw [normalize_word (fun c hc => isWord_alph ((alias_words (alias_iff.1 ha)).1 c hc)) (hst he),
      substWord_alias ha, ← ih]
  | word _ hw hn he _ ih =>
    rw [normalize_word (fun c hc => isWord_iff.2 (hw c hc)) (hst he), substWord_other hn, ← ih]

theorem replaced_self [Ext] (n : Nat) : ∀ s : List Char, s.length ≤ n → Replaced s (normalize s) := by
  induction n with
  | zero =>
    intro s h
    rw [List.length_eq_zero_iff.1 (Nat.le_zero.1 h)]
    exact .nil
  | succ n ih =>
    intro s h
    cases s with
    | nil => exact .nil
    | cons c cs =>
      by_cases hc : isWord c = true
      · obtain ⟨e, hw, hst⟩ := takeWhile_split isWord (c :: cs)
        have hne : (c :: cs).takeWhile isWord ≠ [] := by simp [hc]
        generalize (c :: cs).takeWhile isWord = w at *
        generalize (c :: cs).dropWhile isWord = r at *
        have hlen : r.length ≤ n := by
          have := congrArg List.length e
          have := List.length_pos_iff.2 hne
          simp at *; omega
        have hend : WordEnds r := fun c hc => isWord_false.1 (hst c hc)
        rw [e, normalize_word hw hst]
        by_cases ha : ∃ r', Alias w r'
        · obtain ⟨r', ha⟩ := ha
          rw [substWord_alias ha]
          exact Replaced.alias ha hend (ih r hlen)
        · have ha : ∀ r', ¬ Alias w r' := fun r' h => ha ⟨r', h⟩
          rw [substWord_other ha]
          exact .word hne (fun c hc => isWord_iff.1 (hw c hc)) ha hend (ih r hlen)
      · rw [Bool.not_eq_true] at hc
        rw [normalize_nonword hc]
        exact .other (isWord_false.1 hc) (ih cs (by simpa using h))

/-! ## Exceptions of `parse` after the replacement -/

theorem emptyParens_word {w rest : List Char} (h : '(' ∉ w) :
    hasEmptyParens (w ++ rest) = hasEmptyParens rest := by
  induction w with
  | nil => rfl
  | cons c w ih =>
    rw [List.cons_append, hasEmptyParens, ih (fun h' => h (by simp [h']))]
    intro r h1 _
    exact h (by simp [h1])

theorem emptyParens_normalize [Ext] (n : Nat) : ∀ s : List Char, s.length ≤ n →
    hasEmptyParens (normalize s) = hasEmptyParens s := by
  have hp : isWord '(' = false := punct_nonword (by simp [IsPunct])
  have hp' : isWord ')' = false := punct_nonword (by simp [IsPunct])
  have hw : ∀ {w : List Char}, (∀ c ∈ w, isWord c = true) → '(' ∉ w := by
    intro w h h'
    rw [h _ h'] at hp; cases hp
  induction n with
  | zero => intro s h; rw [List.length_eq_zero_iff.1 (Nat.le_zero.1 h)]; rfl
  | succ n ih =>
    intro s h
    cases s with
    | nil => rfl
    | cons c cs =>
      by_cases hc : isWord c = true
      · obtain ⟨e, hw', hst⟩ := takeWhile_split isWord (c :: cs)
        have hne : (c :: cs).takeWhile isWord ≠ [] := by simp [hc]
        generalize (c :: cs).takeWhile isWord = w at *
        generalize (c :: cs).dropWhile isWord = r at *
        have hlen : r.length ≤ n := by
          have := congrArg List.length e
          have := List.length_pos_iff.2 hne
          simp at *; omega
        rw [e, normalize_word hw' hst, emptyParens_word (hw (substWord_word hw')),
          emptyParens_word (hw hw'), ih r hlen]
      · rw [Bool.not_eq_true] at hc
        rw [normalize_nonword hc]
        have hcs := ih cs (by simpa using h)
        rw [Bool.eq_iff_iff, hasEmptyParens_iff, hasEmptyParens_iff, List.infix_cons_iff,
          List.infix_cons_iff, ← hasEmptyParens_iff (s := cs), ← hasEmptyParens_iff (s := normalize cs), hcs]
        refine or_congr_left ?_
        constructor
        · rintro ⟨r, h⟩
          simp only [List.cons_append, List.nil_append, List.cons.injEq] at h
          obtain ⟨r', h1, _⟩ := normalize_punct_inv hp' h.2.symm
          exact ⟨r', by rw [h1, ← h.1]; rfl⟩
        · rintro ⟨r, h⟩
          simp only [List.cons_append, List.nil_append, List.cons.injEq] at h
          rw [← h.2, normalize_nonword hp']
          exact ⟨normalize r, by rw [← h.1]; rfl⟩

/-- `parse` on the replaced string: the replaced parse, or the same exception. -/
theorem parse_normalize [Ext] (s : TypeStr) :
    parse (normalize s) = match parse s with
      | .ok a => .ok (normTy a)
      | .error e => .error e := by
  cases hp : parse s with
  | ok a =>
    obtain ⟨hd, hn⟩ := parse_ok_iff.1 hp
    exact parse_ok_iff.2 ⟨normalize_type hd, (normTy_numsOk a).trans hn⟩
  | error e =>
    simp only
    rcases parse_error hp with ⟨h1, a, hd, hn⟩ | ⟨h1, h2⟩
    · subst h1
      cases hp' : parse (normalize s) with
      | ok b =>
        obtain ⟨hd', hn'⟩ := parse_ok_iff.1 hp'
        cases derives_unique hd' (normalize_type hd)
        rw [normTy_numsOk, hn] at hn'; cases hn'
      | error e' =>
        rcases parse_error hp' with ⟨h1, _⟩ | ⟨h1, h2⟩
        · rw [h1]
        · exact absurd (normalize_type hd) (h1 _)
    · cases hp' : parse (normalize s) with
      | ok b =>
        obtain ⟨hd', hn'⟩ := parse_ok_iff.1 hp'
        obtain ⟨t, ht⟩ := normalize_derives_iff.1 ⟨_, hd'⟩
        exact absurd ht (h1 t)
      | error e' =>
        rcases parse_error hp' with ⟨_, a, hd, _⟩ | ⟨h1', h2'⟩
        · obtain ⟨t, ht⟩ := normalize_derives_iff.1 ⟨_, hd⟩
          exact absurd ht (h1 t)
        · rw [h2, h2', emptyParens_normalize s.length s le_rfl]

end EthAbi
