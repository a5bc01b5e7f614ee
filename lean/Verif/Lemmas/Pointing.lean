import Verif.Lemmas.Grammar
import Verif.Model.Pointing
import Verif.Spec.Pointing

/-!
# Where a `ParseError` points

An automaton that reads a type string from left to right and stops where it goes wrong.  Its state is the number of open
parentheses and what is being read.
-/
namespace EthAbi
open Spec

/-- What is being read. -/
inductive Reading where
  | start | base | num | times | num2 | opened | count | closed
  deriving DecidableEq

/-- A type may end here. -/
def Reading.done : Reading → Bool
  | .base | .num | .num2 | .closed => true
  | _ => false

/-- One character after a type. -/
def afterType (n : Nat) (c : Char) : Option (Nat × Reading) :=
  if c = '[' then some (n, .opened)
  else if n = 0 then none
  else if c = ',' then some (n, .start)
  else if c = ')' then some (n - 1, .closed)
  else none

/-- One character. -/
def readChar : Nat × Reading → Char → Option (Nat × Reading)
  | (n, .start), c => if c = '(' then some (n + 1, .start) else if isAlph c then some (n, .base) else none
  | (n, .base), c =>
    if isAlph c then some (n, .base) else if isDig19 c then some (n, .num) else afterType n c
  | (n, .num), c => if isDig c then some (n, .num) else if c = 'x' then some (n, .times) else afterType n c
  | (n, .times), c => if isDig19 c then some (n, .num2) else none
  | (n, .num2), c => if isDig c then some (n, .num2) else afterType n c
  | (n, .opened), c => if isDig19 c then some (n, .count) else if c = ']' then some (n, .closed) else none
  | (n, .count), c => if isDig c then some (n, .count) else if c = ']' then some (n, .closed) else none
  | (n, .closed), c => afterType n c

/-- Reads as far as it goes; the state and what is left. -/
def readOn (st : Nat × Reading) : List Char → (Nat × Reading) × List Char
  | [] => (st, [])
  | c :: cs =>
    match readChar st c with
    | some st' => readOn st' cs
    | none => (st, c :: cs)

theorem readOn_cons {st st' : Nat × Reading} {c : Char} {cs : List Char} (h : readChar st c = some st') :
    readOn st (c :: cs) = readOn st' cs := by
  simp only [readOn, h]

theorem readOn_stop {st : Nat × Reading} {c : Char} {cs : List Char} (h : readChar st c = none) :
    readOn st (c :: cs) = (st, c :: cs) := by
  simp only [readOn, h]

theorem readOn_append {w : List Char} : ∀ {st st' : Nat × Reading} (r : List Char), readOn st w = (st', []) →
    readOn st (w ++ r) = readOn st' r := by
  induction w with
  | nil => intro st st' r h; cases h; rfl
  | cons c cs ih =>
    intro st st' r h
    simp only [List.cons_append]
    simp only [readOn] at h ⊢
    split
    · next s1 h1 => rw [h1] at h; exact ih r h
    · next h1 => rw [h1] at h; cases h

/-- It stops at the end, or at a character that it cannot read. -/
theorem readOn_split (s : List Char) : ∀ (st : Nat × Reading), ∃ w, s = w ++ (readOn st s).2 ∧
    readOn st w = ((readOn st s).1, []) ∧ ∀ c, (readOn st s).2.head? = some c → readChar (readOn st s).1 c = none := by
  induction s with
  | nil => intro st; exact ⟨[], rfl, rfl, fun c hc => nomatch hc⟩
  | cons c cs ih =>
    intro st
    cases h : readChar st c with
    | none =>
      rw [readOn_stop h]
      refine ⟨[], rfl, rfl, fun d hd => ?_⟩
      cases hd
      exact h
    | some st' =>
      rw [readOn_cons h]
      obtain ⟨w, h1, h2, h3⟩ := ih st'
      refine ⟨c :: w, by rw [List.cons_append, ← h1], ?_, h3⟩
      rw [readOn_cons h, h2]

theorem readOn_same {st : Nat × Reading} {s : List Char} (h : (readOn st s).2 = s) : (readOn st s).1 = st := by
  cases s with
  | nil => rfl
  | cons c cs =>
    cases h1 : readChar st c with
    | none => rw [readOn_stop h1]
    | some st' =>
      exfalso
      rw [readOn_cons h1] at h
      obtain ⟨w, e, _⟩ := readOn_split cs st'
      rw [h] at e
      have := congrArg List.length e
      simp at this
      omega

theorem readOn_while {st : Nat × Reading} {p : Char → Bool} (hp : ∀ c, p c = true → readChar st c = some st)
    (s : List Char) : readOn st s = readOn st (s.dropWhile p) := by
  induction s with
  | nil => rfl
  | cons c cs ih =>
    cases h : p c with
    | true => rw [readOn_cons (hp c h), List.dropWhile_cons_of_pos h, ih]
    | false => rw [List.dropWhile_cons_of_neg (by simp [h])]

theorem stops_dropWhile (p : Char → Bool) (s : List Char) : Stops p (s.dropWhile p) := (takeWhile_split p s).2.2

theorem pDigits_some {s r : List Char} {m : Nat} (h : pDigits s = some (m, r)) :
    ∃ c cs, s = c :: cs ∧ isDig19 c = true ∧ r = cs.dropWhile isDig := by
  cases s with
  | nil => simp [pDigits] at h
  | cons c cs =>
    simp only [pDigits] at h
    split at h
    · next hc => cases h; exact ⟨c, cs, rfl, hc, rfl⟩
    · cases h

theorem pDigits_stops {s r : List Char} {m : Nat} (h : pDigits s = some (m, r)) : Stops isDig r := by
  obtain ⟨c, cs, _, _, rfl⟩ := pDigits_some h
  exact stops_dropWhile _ _

theorem pDigits_length {s r : List Char} {m : Nat} (h : pDigits s = some (m, r)) : r.length < s.length := by
  obtain ⟨c, cs, rfl, _, rfl⟩ := pDigits_some h
  have := (List.dropWhile_suffix (l := cs) isDig).length_le
  simp only [List.length_cons]
  omega

theorem pDigits_head {c : Char} {cs : List Char} (h : pDigits (c :: cs) = none) : isDig19 c = false := by
  simp only [pDigits] at h
  split at h
  · cases h
  · next hc => simpa using hc

/-- Digits are read. -/
theorem readOn_digits {n : Nat} {a b : Reading} (h1 : ∀ c, isDig19 c = true → readChar (n, a) c = some (n, b))
    (h2 : ∀ c, isDig c = true → readChar (n, b) c = some (n, b)) {s r : List Char} {m : Nat}
    (h : pDigits s = some (m, r)) : readOn (n, a) s = readOn (n, b) r := by
  obtain ⟨c, cs, rfl, hc, rfl⟩ := pDigits_some h
  rw [readOn_cons (h1 c hc)]
  exact readOn_while h2 cs

theorem dig19_not_alph {c : Char} (h : isDig19 c = true) : isAlph c = false := by
  simp only [isDig19, isAlph, decide_eq_true_eq, decide_eq_false_iff_not] at h ⊢
  omega

theorem alph_not_paren {c : Char} (h : isAlph c = true) : c ≠ '(' := by
  rintro rfl
  revert h
  decide

theorem read_base_dig (n : Nat) (c : Char) (h : isDig19 c = true) : readChar (n, .base) c = some (n, .num) := by
  simp [readChar, dig19_not_alph h, h]

theorem read_num_dig (n : Nat) (c : Char) (h : isDig c = true) : readChar (n, .num) c = some (n, .num) := by
  simp [readChar, h]

theorem read_times_dig (n : Nat) (c : Char) (h : isDig19 c = true) : readChar (n, .times) c = some (n, .num2) := by
  simp [readChar, h]

theorem read_num2_dig (n : Nat) (c : Char) (h : isDig c = true) : readChar (n, .num2) c = some (n, .num2) := by
  simp [readChar, h]

theorem read_opened_dig (n : Nat) (c : Char) (h : isDig19 c = true) : readChar (n, .opened) c = some (n, .count) := by
  simp [readChar, h]

theorem read_count_dig (n : Nat) (c : Char) (h : isDig c = true) : readChar (n, .count) c = some (n, .count) := by
  simp [readChar, h]

theorem read_bracket (n : Nat) {a : Reading} (h : a.done = true) : readChar (n, a) '[' = some (n, .opened) := by
  cases a <;> first | rfl | (exact absurd h (by decide))

theorem read_comma (n : Nat) {a : Reading} (h : a.done = true) : readChar (n + 1, a) ',' = some (n + 1, .start) := by
  cases a <;> first | rfl | (exact absurd h (by decide))

theorem read_paren (n : Nat) {a : Reading} (h : a.done = true) : readChar (n + 1, a) ')' = some (n, .closed) := by
  cases a <;> first | rfl | (exact absurd h (by decide))

/-! ## What the parser does, seen from the automaton -/

/-- The part of a type that was read cannot go on with `r`, apart from an array suffix. -/
def SubEnds : Reading → List Char → Prop
  | .base, r => Stops isAlph r ∧ pDigits r = none
  | .num, r => Stops isDig r ∧ ∀ r', r = 'x' :: r' → pDigits r' = none
  | .num2, r => Stops isDig r
  | _, _ => True

/-- A type that was read cannot go on with `r`. -/
def TypeEnds (a : Reading) (r : List Char) : Prop := SubEnds a r ∧ pDim r = none

/-- How many characters are left where the second number of a size was looked for. -/
def leftSub (a : Reading) (r : List Char) : Nat :=
  match a, r with
  | .num, 'x' :: r' => r'.length
  | _, r => r.length

/-- How many characters are left where the number of an array was looked for. -/
def leftDim (r : List Char) : Nat :=
  match r with
  | '[' :: r' => if (pDigits r').isSome then r'.length + 1 else r'.length
  | r => r.length

/-- How many characters are left at the last failure behind a type. -/
def leftEnd (a : Reading) (r : List Char) : Nat := min (leftSub a r) (leftDim r)

theorem leftSub_le (a : Reading) (r : List Char) : leftSub a r ≤ r.length := by
  unfold leftSub
  split <;> simp

theorem leftSub_ge (a : Reading) (r : List Char) : r.length ≤ leftSub a r + 1 := by
  unfold leftSub
  split <;> simp

theorem leftDim_le (r : List Char) : leftDim r ≤ r.length := by
  unfold leftDim
  split
  · split <;> simp
  · exact Nat.le_refl _

theorem leftEnd_le (a : Reading) (r : List Char) : leftEnd a r ≤ r.length :=
  Nat.le_trans (Nat.min_le_left _ _) (leftSub_le a r)

/-- `k` characters are left at the rule that failed furthest to the right. -/
def Furthest (L : List Failure) (k : Nat) : Prop :=
  (∃ f ∈ L, f.named = true ∧ f.rest.length = k) ∧ ∀ f ∈ L, f.named = true → k ≤ f.rest.length

theorem Furthest.append_left {L L' : List Failure} {k : Nat} (h : Furthest L k)
    (h' : ∀ f ∈ L', f.named = true → k ≤ f.rest.length) : Furthest (L ++ L') k := by
  obtain ⟨⟨f, h1, h2⟩, h3⟩ := h
  refine ⟨⟨f, List.mem_append_left _ h1, h2⟩, fun g hg hn => ?_⟩
  rcases List.mem_append.1 hg with hg | hg
  · exact h3 g hg hn
  · exact h' g hg hn

theorem Furthest.append_right {L L' : List Failure} {k : Nat} (h : Furthest L' k)
    (h' : ∀ f ∈ L, f.named = true → k ≤ f.rest.length) : Furthest (L ++ L') k := by
  obtain ⟨⟨f, h1, h2⟩, h3⟩ := h
  refine ⟨⟨f, List.mem_append_right _ h1, h2⟩, fun g hg hn => ?_⟩
  rcases List.mem_append.1 hg with hg | hg
  · exact h' g hg hn
  · exact h3 g hg hn

/-- Nothing is tried by a repetition with `r` left. -/
def Silent [Ext] (r : List Char) : Prop := r = [] ∧ Ext.triesAtEnd = false

theorem repeated_loud [Ext] {r : List Char} (h : ¬ Silent r) (L : List Failure) : repeated r L = L := if_neg h

theorem repeated_silent [Ext] {r : List Char} (h : Silent r) (L : List Failure) : repeated r L = [] := if_pos h

theorem mem_repeated [Ext] {r : List Char} {L : List Failure} {f : Failure} (h : f ∈ repeated r L) : f ∈ L := by
  unfold repeated at h
  split at h
  · cases h
  · exact h

theorem pAlphas_read {s base r : List Char} (h : pAlphas s = some (base, r)) (n : Nat) :
    readOn (n, .start) s = readOn (n, .base) r ∧ Stops isAlph r ∧ r.length < s.length := by
  unfold pAlphas at h
  split at h
  · cases h
  · next hne =>
    cases h
    cases s with
    | nil => exact absurd rfl hne
    | cons c cs =>
      have hc : isAlph c = true := by
        by_contra hc
        exact hne (List.takeWhile_cons_of_neg hc)
      refine ⟨?_, stops_dropWhile _ _, ?_⟩
      · rw [List.dropWhile_cons_of_pos hc, readOn_cons (st' := (n, .base)) (by simp [readChar, alph_not_paren hc, hc])]
        exact readOn_while (fun d hd => by simp [readChar, hd]) cs
      · rw [List.dropWhile_cons_of_pos hc]
        have := (List.dropWhile_suffix (l := cs) isAlph).length_le
        simp only [List.length_cons]
        omega

theorem pSub_read [Ext] {r : List Char} (hr : Stops isAlph r) :
    ∃ a, a.done = true ∧ SubEnds a (pSub r).2 ∧ (∀ n, readOn (n, .base) r = readOn (n, a) (pSub r).2) ∧
      (pSub r).2.length ≤ r.length ∧
      (∀ f ∈ tSub r, f.named = true → leftSub a (pSub r).2 ≤ f.rest.length) ∧
      (leftSub a (pSub r).2 < (pSub r).2.length →
        ∃ f ∈ tSub r, f.named = true ∧ f.rest.length = leftSub a (pSub r).2) := by
  by_cases hsil : Silent r
  · obtain ⟨rfl, hs⟩ := hsil
    exact ⟨.base, rfl, ⟨hr, rfl⟩, fun n => rfl, Nat.le_refl _, fun f _ _ => Nat.zero_le _, fun h => absurd h (by decide)⟩
  unfold pSub tSub
  rw [repeated_loud hsil]
  cases h1 : pDigits r with
  | none =>
    have h2 : pTwoSize r = none := by simp [pTwoSize, h1]
    simp only [h2]
    refine ⟨.base, rfl, ⟨hr, h1⟩, fun n => rfl, Nat.le_refl _, ?_, ?_⟩
    · intro f hf _
      simp [tTwoSize, tDigits, h1, Failure.rule] at hf
      subst hf
      exact leftSub_le _ _
    · intro h; exact absurd h (by simp [leftSub])
  | some p =>
    obtain ⟨m, r1⟩ := p
    have e1 : ∀ n, readOn (n, .base) r = readOn (n, .num) r1 := fun n =>
      readOn_digits (read_base_dig n) (read_num_dig n) h1
    have l1 := pDigits_length h1
    by_cases hx : ∃ r2, r1 = 'x' :: r2
    · obtain ⟨r2, rfl⟩ := hx
      simp only [List.length_cons] at l1
      have e2 : ∀ n, readOn (n, .base) r = readOn (n, .times) r2 := fun n => by
        rw [e1 n]; exact readOn_cons rfl
      cases h2 : pDigits r2 with
      | none =>
        have h3 : pTwoSize r = none := by simp [pTwoSize, h1, h2]
        simp only [h3]
        refine ⟨.num, rfl, ⟨pDigits_stops h1, ?_⟩, e1, by simp; omega, ?_, ?_⟩
        · rintro _ ⟨⟩; exact h2
        · intro f hf _
          simp [tTwoSize, tDigits, h1, h2, Failure.rule] at hf
          rcases hf with rfl | rfl
          · simp [leftSub]
          · simp [leftSub]; omega
        · intro _
          exact ⟨.rule r2, by simp [tTwoSize, tDigits, h1, h2], rfl, by simp [leftSub, Failure.rule]⟩
      | some q =>
        obtain ⟨m2, r3⟩ := q
        have h3 : pTwoSize r = some (.two m m2, r3) := by simp [pTwoSize, h1, h2]
        have l2 := pDigits_length h2
        simp only [h3]
        refine ⟨.num2, rfl, pDigits_stops h2, fun n => ?_, by omega, (fun f hf => nomatch hf), ?_⟩
        · rw [e2 n]; exact readOn_digits (read_times_dig n) (read_num2_dig n) h2
        · intro h; exact absurd h (by simp [leftSub])
    · have h3 : pTwoSize r = none := by
        unfold pTwoSize
        rw [h1]
        split
        · next heq => cases heq; exact absurd ⟨_, rfl⟩ hx
        · rfl
      have h4 : tTwoSize r = [.part r1, .rule r] := by
        unfold tTwoSize
        rw [h1]
        split
        · next heq => cases heq; exact absurd ⟨_, rfl⟩ hx
        · next heq => cases heq; rfl
        · next heq => cases heq
      have h5 : leftSub .num r1 = r1.length := by
        unfold leftSub
        split
        · exact absurd ⟨_, rfl⟩ hx
        · rfl
      simp only [h3, h4]
      refine ⟨.num, rfl, ⟨pDigits_stops h1, fun r' hr' => absurd ⟨r', hr'⟩ hx⟩, e1, by omega, ?_, ?_⟩
      · intro f hf hn
        simp only [List.mem_cons, List.not_mem_nil, or_false] at hf
        rcases hf with rfl | rfl
        · cases hn
        · rw [h5]; simp [Failure.rule]; omega
      · rw [h5]; intro h; omega

theorem pDim_read {r r' : List Char} {d : Option Nat} (h : pDim r = some (d, r')) {a : Reading} (ha : a.done = true)
    (n : Nat) : readOn (n, a) r = readOn (n, .closed) r' ∧ r'.length < r.length ∧
      ∀ f ∈ tDim r, f.named = true → r'.length ≤ f.rest.length := by
  unfold tDim
  rw [h]
  simp only
  cases r with
  | nil => simp [pDim] at h
  | cons c cs =>
    by_cases hc : c = '['
    · subst hc
      rw [readOn_cons (read_bracket n ha)]
      cases h1 : pDigits cs with
      | none =>
        have : ∃ q, cs = ']' :: q := by
          simp only [pDim, h1] at h
          split at h
          · exact ⟨_, rfl⟩
          · cases h
        obtain ⟨q, rfl⟩ := this
        simp only [pDim, h1] at h
        cases h
        refine ⟨readOn_cons rfl, by simp; omega, ?_⟩
        intro f hf _
        simp only [tConstArr, h1, tDigits, List.mem_append, List.mem_cons, List.not_mem_nil, or_false] at hf
        rcases hf with rfl | rfl <;> simp [Failure.rule] <;> omega
      | some p =>
        obtain ⟨m, q⟩ := p
        have l1 := pDigits_length h1
        rw [readOn_digits (read_opened_dig n) (read_count_dig n) h1]
        by_cases hq : ∃ q', q = ']' :: q'
        · obtain ⟨q', rfl⟩ := hq
          simp only [pDim, h1] at h
          cases h
          simp only [List.length_cons] at l1
          refine ⟨readOn_cons rfl, by simp; omega, ?_⟩
          intro f hf _
          simp [tConstArr, h1] at hf
        · exfalso
          obtain ⟨c2, cs2, rfl, hc2, _⟩ := pDigits_some h1
          simp only [pDim, h1] at h
          split at h
          · next heq => cases heq; exact hq ⟨_, rfl⟩
          · split at h
            · next heq => cases heq; exact absurd hc2 (by decide)
            · cases h
    · exfalso
      simp only [pDim] at h
      split at h
      · next heq => cases heq; exact hc rfl
      · cases h

/-- What fails where no array suffix follows. -/
theorem tDim_none {r : List Char} (h : pDim r = none) : Furthest (tDim r) (leftDim r) := by
  unfold tDim
  rw [h]
  simp only
  by_cases hc : ∃ cs, r = '[' :: cs
  · obtain ⟨cs, rfl⟩ := hc
    cases h1 : pDigits cs with
    | none =>
      have e : leftDim ('[' :: cs) = cs.length := by simp [leftDim, h1]
      rw [e]
      refine ⟨⟨.rule cs, by simp [tConstArr, tDigits, h1], rfl, rfl⟩, ?_⟩
      intro f hf _
      simp only [tConstArr, h1, tDigits, List.mem_append, List.mem_cons, List.not_mem_nil, or_false] at hf
      rcases hf with (rfl | rfl) | rfl | rfl <;> simp [Failure.rule, Failure.part]
    | some p =>
      obtain ⟨m, q⟩ := p
      have e : leftDim ('[' :: cs) = cs.length + 1 := by simp [leftDim, h1]
      rw [e]
      refine ⟨⟨.rule ('[' :: cs), by simp, rfl, rfl⟩, ?_⟩
      intro f hf hn
      have : f = .part q ∨ f = .rule ('[' :: cs) ∨ f = .part ('[' :: cs) := by
        simp only [tConstArr, h1] at hf
        split at hf
        · simp at hf; rcases hf with rfl | rfl <;> simp
        · next heq => cases heq; simp at hf; rcases hf with rfl | rfl | rfl | rfl <;> simp
        · next heq => cases heq
      rcases this with rfl | rfl | rfl
      · cases hn
      · simp [Failure.rule]
      · cases hn
  · have e : leftDim r = r.length := by
      unfold leftDim
      split
      · exact absurd ⟨_, rfl⟩ hc
      · rfl
    have e2 : tConstArr r = [.part r, .rule r] := by
      unfold tConstArr
      split
      · exact absurd ⟨_, rfl⟩ hc
      · rfl
    rw [e, e2]
    refine ⟨⟨.rule r, by simp, rfl, rfl⟩, ?_⟩
    intro f hf _
    simp at hf
    rcases hf with rfl | rfl | rfl | rfl <;> simp [Failure.rule, Failure.part]

theorem pDims_read [Ext] : ∀ (fuel : Nat) (r : List Char), r.length < fuel → ∀ {a : Reading}, a.done = true → SubEnds a r →
    ∃ b, b.done = true ∧ TypeEnds b (pArr fuel r).2 ∧ (∀ n, readOn (n, a) r = readOn (n, b) (pArr fuel r).2) ∧
      (pArr fuel r).2.length ≤ r.length ∧
      (¬ Silent (pArr fuel r).2 → Furthest (tDims fuel r) (leftDim (pArr fuel r).2)) ∧
      ((b = a ∧ (pArr fuel r).2 = r) ∨ (b = .closed ∧ (pArr fuel r).2.length < r.length)) := by
  intro fuel
  induction fuel with
  | zero => intro r h; omega
  | succ fuel ih =>
    intro r hf a ha hs
    simp only [pArr, tDims]
    cases h : pDim r with
    | none =>
      exact ⟨a, ha, ⟨hs, h⟩, fun n => rfl, Nat.le_refl _, fun hl => by rw [repeated_loud hl]; exact tDim_none h,
        Or.inl ⟨rfl, rfl⟩⟩
    | some p =>
      obtain ⟨d, r'⟩ := p
      have l := (pDim_read h ha 0).2.1
      obtain ⟨b, h1, h2, h3, h4, h5, h6⟩ := ih r' (by omega) (a := .closed) rfl trivial
      refine ⟨b, h1, h2, fun n => ?_, by simp only; omega, ?_, ?_⟩
      · rw [(pDim_read h ha n).1, h3 n]
      · intro hl
        rw [repeated_loud (by rintro ⟨rfl, _⟩; simp [pDim] at h)]
        refine Furthest.append_right (h5 hl) fun f hf hn => ?_
        have := (pDim_read h ha 0).2.2 f hf hn
        have := leftDim_le (pArr fuel r').2
        show leftDim (pArr fuel r').2 ≤ _
        omega
      · right
        rcases h6 with ⟨rfl, e⟩ | ⟨rfl, e⟩
        · exact ⟨rfl, by simp only [e]; exact l⟩
        · exact ⟨rfl, by simp only; omega⟩

theorem pArr_read [Ext] (fuel : Nat) (r : List Char) (hf : r.length < fuel) {a : Reading} (ha : a.done = true)
    (hs : SubEnds a r) :
    ∃ b, b.done = true ∧ TypeEnds b (pArr fuel r).2 ∧ (∀ n, readOn (n, a) r = readOn (n, b) (pArr fuel r).2) ∧
      (pArr fuel r).2.length ≤ r.length ∧
      (¬ Silent (pArr fuel r).2 → Furthest (tArr fuel r) (leftDim (pArr fuel r).2)) ∧
      ((b = a ∧ (pArr fuel r).2 = r) ∨ (b = .closed ∧ (pArr fuel r).2.length < r.length)) := by
  obtain ⟨b, h1, h2, h3, h4, h5, h6⟩ := pDims_read fuel r hf ha hs
  refine ⟨b, h1, h2, h3, h4, fun hl => ?_, h6⟩
  unfold tArr
  rw [repeated_loud (by
    rintro ⟨rfl, he⟩
    cases fuel with
    | zero => exact hl ⟨rfl, he⟩
    | succ _ => exact hl ⟨rfl, he⟩)]
  split
  · exact h5 hl
  · refine (h5 hl).append_left fun f hf _ => ?_
    simp at hf
    subst hf
    have := leftDim_le (pArr fuel r).2
    simp [Failure.rule]
    omega

theorem leftSub_closed (r : List Char) : leftSub .closed r = r.length := rfl

/-- What comes after `x` is no array suffix. -/
theorem leftEnd_of_sub {a : Reading} {r : List Char} (h : leftSub a r < r.length) : leftEnd a r = leftSub a r := by
  unfold leftEnd
  unfold leftSub at h ⊢
  split at h
  · next r' => simp [leftDim]
  · omega

theorem leftEnd_of_not {a : Reading} {r : List Char} (h : ¬ leftSub a r < r.length) : leftEnd a r = leftDim r := by
  unfold leftEnd
  have := leftSub_le a r
  have := leftDim_le r
  omega

/-- `basic_type`. -/
theorem pBasic_read [Ext] {fuel : Nat} {s : List Char} (hf : s.length ≤ fuel) {t : ABIType} {rest : List Char}
    (h : pBasic fuel s = some (t, rest)) :
    rest.length < s.length ∧ ∃ b, b.done = true ∧ TypeEnds b rest ∧ (∀ n, readOn (n, .start) s = readOn (n, b) rest) ∧
      (¬ Silent rest → Furthest (tBasic fuel s) (leftEnd b rest)) := by
  unfold pBasic at h
  unfold tBasic
  cases h1 : pAlphas s with
  | none => rw [h1] at h; cases h
  | some p =>
    obtain ⟨base, r⟩ := p
    rw [h1] at h
    simp only [Option.some.injEq, Prod.mk.injEq] at h
    obtain ⟨rfl, rfl⟩ := h
    obtain ⟨_, g2, g3⟩ := pAlphas_read h1 0
    obtain ⟨a, a1, a2, a3, a4, a5, a6⟩ := pSub_read g2
    obtain ⟨b, b1, b2, b3, b4, b5, b6⟩ := pArr_read fuel (pSub r).2 (by omega) a1 a2
    refine ⟨by omega, b, b1, b2, fun n => by rw [(pAlphas_read h1 n).1, a3, b3], fun hl => ?_⟩
    replace b5 := b5 hl
    simp only
    rcases b6 with ⟨rfl, e⟩ | ⟨rfl, e⟩
    · rw [e] at b5 ⊢
      by_cases hl : leftSub b (pSub r).2 < (pSub r).2.length
      · obtain ⟨f, f1, f2, f3⟩ := a6 hl
        refine Furthest.append_left ⟨⟨f, f1, f2, by rw [f3, leftEnd_of_sub hl]⟩, ?_⟩ ?_
        · intro g g1 g2
          rw [leftEnd_of_sub hl]
          exact a5 g g1 g2
        · intro g g1 g2
          have := b5.2 g g1 g2
          unfold leftEnd
          omega
      · rw [leftEnd_of_not hl]
        refine b5.append_right fun g g1 g2 => ?_
        have := a5 g g1 g2
        have := leftDim_le (pSub r).2
        have := leftSub_le b (pSub r).2
        omega
    · have hn : ¬ leftSub .closed (pArr fuel (pSub r).2).2 < (pArr fuel (pSub r).2).2.length := by
        rw [leftSub_closed]; omega
      rw [leftEnd_of_not hn]
      refine b5.append_right fun g g1 g2 => ?_
      have h7 := a5 g g1 g2
      have h8 := leftDim_le (pArr fuel (pSub r).2).2
      have := leftSub_ge a (pSub r).2
      omega

/-! ### Strings that end too early, where nothing is tried at the end -/

/-- `k` characters are left at the last place where something else could have followed, whatever stands before `s`. -/
def Tried (s : List Char) (k : Nat) : Prop := k ≤ s.length ∧ ∀ p, LastTry (p ++ s) ((p ++ s).length - k)

/-- The same if `s` is the beginning of a component. -/
def TriedIn (s : List Char) (k : Nat) : Prop := k ≤ s.length ∧ ∀ p, Begins p → LastTry (p ++ s) ((p ++ s).length - k)

theorem Tried.prepend {s : List Char} {k : Nat} (h : Tried s k) (p : List Char) : Tried (p ++ s) k := by
  refine ⟨by simp; exact Nat.le_trans h.1 (Nat.le_add_left _ _), fun q => ?_⟩
  rw [← List.append_assoc]
  exact h.2 (q ++ p)

theorem Tried.inside {s : List Char} {k : Nat} (h : Tried s k) : TriedIn s k := ⟨h.1, fun p _ => h.2 p⟩

theorem TriedIn.prepend {s : List Char} {k : Nat} (h : TriedIn s k) {p : List Char} (hp : ∀ q, Begins (q ++ p)) :
    Tried (p ++ s) k := by
  refine ⟨by simp; exact Nat.le_trans h.1 (Nat.le_add_left _ _), fun q => ?_⟩
  rw [← List.append_assoc]
  exact h.2 (q ++ p) (hp q)

theorem begins_open (q : List Char) : Begins (q ++ ['(']) := ⟨q, Or.inl rfl⟩

theorem begins_comma (q : List Char) : Begins (q ++ [',']) := ⟨q, Or.inr rfl⟩

theorem tried_paren {z : List Char} (hz : Sizes z) : Tried (')' :: z) (z.length + 1) := by
  refine ⟨by simp, fun p => ?_⟩
  have := LastTry.paren (p := p) hz
  rwa [show p.length = (p ++ ')' :: z).length - (z.length + 1) by simp] at this

theorem tried_dynamic {z : List Char} (hz : Sizes z) (u : List Char) : Tried (u ++ '[' :: ']' :: z) (z.length + 1) := by
  refine ⟨by simp; omega, fun p => ?_⟩
  rw [← List.append_assoc]
  have := LastTry.dynamic (p := p ++ u) hz
  rwa [show (p ++ u).length + 1 = (p ++ u ++ '[' :: ']' :: z).length - (z.length + 1) by simp; omega] at this

/-- What is recorded in an array suffix that goes to the end of the string. -/
theorem tDims_end [Ext] (he : Ext.triesAtEnd = false) : ∀ (fuel : Nat) (r : List Char), r.length < fuel →
    (pArr fuel r).2 = [] →
    (Sizes r ∧ tDims fuel r = []) ∨
      ∃ u z, r = u ++ '[' :: ']' :: z ∧ Sizes z ∧ Furthest (tDims fuel r) (z.length + 1) := by
  intro fuel
  induction fuel with
  | zero => intro r h; omega
  | succ fuel ih =>
    intro r hf hr
    simp only [pArr] at hr
    simp only [tDims]
    cases h : pDim r with
    | none =>
      rw [h] at hr
      simp only at hr
      subst hr
      exact Or.inl ⟨.nil, repeated_silent ⟨rfl, he⟩ _⟩
    | some p =>
      obtain ⟨d, r'⟩ := p
      rw [h] at hr
      simp only at hr
      have l := (pDim_read h (a := .base) rfl 0).2.1
      rw [repeated_loud (by rintro ⟨rfl, _⟩; simp [pDim] at h)]
      simp only
      have shape : (∃ e n, Numeral n e ∧ r = '[' :: (e ++ ']' :: r') ∧ tDim r = []) ∨
          (r = '[' :: ']' :: r' ∧ Furthest (tDim r) (r'.length + 1)) := by
        unfold tDim
        rw [h]
        simp only
        cases r with
        | nil => simp [pDim] at h
        | cons c cs =>
          by_cases hc : c = '['
          · subst hc
            cases h1 : pDigits cs with
            | none =>
              right
              have : cs = ']' :: r' := by
                simp only [pDim, h1] at h
                split at h
                · cases h; rfl
                · cases h
              subst this
              refine ⟨rfl, ⟨.rule (']' :: r'), by simp [tConstArr, tDigits, h1], rfl, rfl⟩, fun f hf _ => ?_⟩
              simp only [tConstArr, h1, tDigits, List.mem_append, List.mem_cons, List.not_mem_nil, or_false] at hf
              rcases hf with rfl | rfl <;> simp [Failure.rule]
            | some q =>
              left
              obtain ⟨m, q⟩ := q
              obtain ⟨w, rfl, hw⟩ := pDigits_sound h1
              by_cases hq : ∃ q', q = ']' :: q'
              · obtain ⟨q', rfl⟩ := hq
                simp only [pDim, h1] at h
                cases h
                exact ⟨w, m, hw, rfl, by simp [tConstArr, h1]⟩
              · exfalso
                obtain ⟨c2, cs2, e2, hc2, _⟩ := pDigits_some h1
                simp only [pDim, h1] at h
                split at h
                · next heq => cases heq; exact hq ⟨_, rfl⟩
                · split at h
                  · next heq => rw [heq] at e2; cases e2; exact absurd hc2 (by decide)
                  · cases h
          · exfalso
            simp only [pDim] at h
            split at h
            · next heq => cases heq; exact hc rfl
            · cases h
      rcases ih r' (by omega) hr with ⟨i1, i2⟩ | ⟨u, z, i1, i2, i3⟩ <;>
        rcases shape with ⟨e, n, s1, s2, s3⟩ | ⟨s2, s3⟩
      · left; rw [s3, i2, s2]; exact ⟨.cons s1 i1, rfl⟩
      · right; exact ⟨[], r', s2, i1, by rw [i2, List.append_nil]; exact s3⟩
      · right; exact ⟨'[' :: (e ++ ']' :: u), z, by rw [s2, i1]; simp, i2, by rw [s3]; exact i3⟩
      · right
        refine ⟨'[' :: ']' :: u, z, by rw [s2, i1]; rfl, i2, i3.append_right fun f hf hn => ?_⟩
        have := s3.2 f hf hn
        have e := congrArg List.length i1
        simp at e
        omega

theorem tArr_end [Ext] (he : Ext.triesAtEnd = false) {fuel : Nat} {r : List Char} (hf : r.length < fuel)
    (hr : (pArr fuel r).2 = []) :
    (Sizes r ∧ tArr fuel r = []) ∨
      ∃ u z, r = u ++ '[' :: ']' :: z ∧ Sizes z ∧ Furthest (tArr fuel r) (z.length + 1) := by
  cases r with
  | nil => exact Or.inl ⟨.nil, repeated_silent ⟨rfl, he⟩ _⟩
  | cons c cs =>
    have e : tArr fuel (c :: cs) = tDims fuel (c :: cs) := by
      unfold tArr
      rw [repeated_loud (by rintro ⟨h, _⟩; cases h)]
      split
      · rfl
      · next h =>
        obtain ⟨n, rfl⟩ : ∃ n, fuel = n + 1 := ⟨fuel - 1, by omega⟩
        simp only [pArr, h] at hr
        cases hr
    rw [e]
    exact tDims_end he fuel _ hf hr

theorem isName_of {s base r : List Char} (h : pAlphas s = some (base, r)) : s = base ++ r ∧ IsName base := by
  obtain ⟨h1, h2, h3⟩ := pAlphas_sound h
  exact ⟨h1, h2, h3⟩

/-- What is recorded in a basic type that goes to the end of the string. -/
theorem tBasic_end [Ext] (he : Ext.triesAtEnd = false) {fuel : Nat} {s : List Char} (hf : s.length ≤ fuel) {t : ABIType}
    (h : pBasic fuel s = some (t, [])) :
    ∃ k, Furthest ([.part s, .rule s, .rule s] ++ tBasic fuel s) k ∧ TriedIn s k := by
  unfold pBasic at h
  unfold tBasic
  cases h1 : pAlphas s with
  | none => rw [h1] at h; cases h
  | some p =>
    obtain ⟨base, r⟩ := p
    rw [h1] at h
    simp only [Option.some.injEq, Prod.mk.injEq] at h
    obtain ⟨_, hr⟩ := h
    obtain ⟨rfl, hb⟩ := isName_of h1
    obtain ⟨_, g2, g3⟩ := pAlphas_read h1 0
    simp only
    have near : ∀ {k : Nat} {L : List Failure}, k ≤ (base ++ r).length → Furthest L k →
        Furthest ([.part (base ++ r), .rule (base ++ r), .rule (base ++ r)] ++ L) k := by
      intro k L hk hL
      refine hL.append_right fun f hf _ => ?_
      simp at hf
      rcases hf with rfl | rfl <;> simpa [Failure.rule, Failure.part] using hk
    have alone : Furthest ([.part (base ++ r), .rule (base ++ r), .rule (base ++ r)] ++ ([] : List Failure))
        (base ++ r).length := by
      refine ⟨⟨.rule (base ++ r), by simp, rfl, rfl⟩, fun f hf _ => ?_⟩
      simp at hf
      rcases hf with rfl | rfl <;> simp [Failure.rule, Failure.part]
    have dyn : ∀ {u z : List Char} {L : List Failure}, (pSub r).2 = u ++ '[' :: ']' :: z → Sizes z →
        (∃ w, r = w ++ (pSub r).2) → Furthest L (z.length + 1) → (∀ f ∈ tSub r, f.named = true → (pSub r).2.length ≤ f.rest.length) →
        ∃ k, Furthest ([.part (base ++ r), .rule (base ++ r), .rule (base ++ r)] ++ (tSub r ++ L)) k ∧
          TriedIn (base ++ r) k := by
      rintro u z L e1 hz ⟨w, hw⟩ hL hS
      have e2 := congrArg List.length e1
      simp at e2
      have e3 := congrArg List.length hw
      simp at e3
      refine ⟨z.length + 1, near (by simp; omega) (hL.append_right fun f hf hn => ?_), ?_⟩
      · have := hS f hf hn
        omega
      · have := (tried_dynamic hz (base ++ (w ++ u))).inside
        rwa [show base ++ (w ++ u) ++ '[' :: ']' :: z = base ++ r by rw [hw, e1]; simp] at this
    by_cases hr0 : r = []
    · subst hr0
      have e1 : tSub ([] : List Char) = [] := repeated_silent ⟨rfl, he⟩ _
      have e2 : tArr fuel (pSub []).2 = [] := repeated_silent ⟨rfl, he⟩ _
      rw [e1, e2]
      refine ⟨_, alone, Nat.le_refl _, fun p hp => ?_⟩
      have := LastTry.name hp hb
      rw [List.append_nil]
      rwa [show p.length = (p ++ base).length - base.length by simp] at this
    · have loud : ¬ Silent r := fun h => hr0 h.1
      obtain ⟨w, hw⟩ : ∃ w, r = w ++ (pSub r).2 := by
        obtain ⟨w, hw, _⟩ := pSub_sound (sub := (pSub r).1) (rest := (pSub r).2) (s := r) rfl
        exact ⟨w, hw⟩
      have lw := congrArg List.length hw
      simp only [List.length_append] at lw
      have lb : 0 < base.length := List.length_pos_iff.2 hb.1
      simp only [List.length_append] at hf
      cases h2 : pDigits r with
      | none =>
        have h3 : pTwoSize r = none := by simp [pTwoSize, h2]
        have e1 : (pSub r).2 = r := by simp [pSub, h3, h2]
        have e2 : Furthest (tSub r) r.length := by
          unfold tSub
          rw [repeated_loud loud]
          simp only [h3, h2]
          refine ⟨⟨.rule r, by simp, rfl, rfl⟩, fun f hf _ => ?_⟩
          simp [tTwoSize, tDigits, h2] at hf
          subst hf
          simp [Failure.rule]
        rcases tArr_end he (r := (pSub r).2) (by omega) hr with ⟨i1, i2⟩ | ⟨u, z, i1, i2, i3⟩
        · rw [i2, List.append_nil]
          refine ⟨r.length, near (by simp) e2, by simp, fun p hp => ?_⟩
          rw [e1] at i1
          cases i1 with
          | nil => exact absurd rfl hr0
          | cons d1 d2 =>
            have := LastTry.size hp hb d1 d2
            refine (congrArg (LastTry _) ?_).mp this
            simp
            omega
        · exact dyn i1 i2 ⟨w, hw⟩ i3 fun f hf hn => by rw [e1]; exact e2.2 f hf hn
      | some q =>
        obtain ⟨m, r1⟩ := q
        obtain ⟨d, hd, hd'⟩ := pDigits_sound h2
        have l1 := pDigits_length h2
        cases h3 : pTwoSize r with
        | some q =>
          obtain ⟨sub, r3⟩ := q
          have e1 : (pSub r).2 = r3 := by simp [pSub, h3]
          have e2 : tSub r = [] := by
            unfold tSub
            rw [repeated_loud loud]
            simp only [h3]
          obtain ⟨r2, n, rfl, h4⟩ : ∃ r2 n, r1 = 'x' :: r2 ∧ pDigits r2 = some (n, r3) := by
            unfold pTwoSize at h3
            rw [h2] at h3
            split at h3
            · next heq =>
              cases heq
              split at h3
              · next heq2 => cases h3; exact ⟨_, _, rfl, heq2⟩
              · cases h3
            · cases h3
          obtain ⟨e, hE, hE'⟩ := pDigits_sound h4
          rcases tArr_end he (r := (pSub r).2) (by omega) hr with ⟨i1, i2⟩ | ⟨u, z, i1, i2, i3⟩
          · rw [e2, i2, List.append_nil]
            refine ⟨_, alone, Nat.le_refl _, fun p hp => ?_⟩
            rw [e1] at i1
            have := LastTry.two hp hb hd' hE' i1
            rw [hd, hE]
            refine (congrArg (LastTry _) ?_).mp this
            simp
          · exact dyn i1 i2 ⟨w, hw⟩ i3 fun f hf => by rw [e2] at hf; cases hf
        | none =>
          have e1 : (pSub r).2 = r1 := by simp [pSub, h3, h2]
          have hx : ¬ ∃ r2, r1 = 'x' :: r2 := by
            rintro ⟨r2, rfl⟩
            rw [e1] at hr
            obtain ⟨n, rfl⟩ : ∃ n, fuel = n + 1 := ⟨fuel - 1, by omega⟩
            simp [pArr, pDim] at hr
          have h4 : tTwoSize r = [.part r1, .rule r] := by
            unfold tTwoSize
            rw [h2]
            split
            · next heq => cases heq; exact absurd ⟨_, rfl⟩ hx
            · next heq => cases heq; rfl
            · next heq => cases heq
          have e2 : Furthest (tSub r) r.length := by
            unfold tSub
            rw [repeated_loud loud]
            simp only [h3, h2, h4]
            refine ⟨⟨.rule r, by simp, rfl, rfl⟩, fun f hf hn => ?_⟩
            simp at hf
            rcases hf with rfl | rfl
            · cases hn
            · simp [Failure.rule]
          rcases tArr_end he (r := (pSub r).2) (by omega) hr with ⟨i1, i2⟩ | ⟨u, z, i1, i2, i3⟩
          · rw [i2, List.append_nil]
            refine ⟨r.length, near (by simp) e2, by simp, fun p hp => ?_⟩
            rw [e1] at i1
            have := LastTry.number hp hb hd' i1
            rw [← hd] at this
            refine (congrArg (LastTry _) ?_).mp this
            simp
            omega
          · refine dyn i1 i2 ⟨w, hw⟩ i3 fun f hf hn => ?_
            have := e2.2 f hf hn
            omega

/-- How far it is from where the reading stops to where the error is said to be. -/
def FallsBack [Ext] (a : Reading) (s stop : List Char) (k : Nat) : Prop :=
  (a ≠ .count ∧ ¬ (Silent stop ∧ a.done = true) ∧ k = stop.length) ∨
    (a = .count ∧ ∃ u d m, Numeral m d ∧ s = u ++ '[' :: (d ++ stop) ∧ k = d.length + 1 + stop.length) ∨
    (a.done = true ∧ Silent stop ∧ Tried s k)

theorem FallsBack.prepend [Ext] {a : Reading} {s stop : List Char} {k : Nat} (h : FallsBack a s stop k) (p : List Char) :
    FallsBack a (p ++ s) stop k := by
  rcases h with h | ⟨h, u, d, m, h1, rfl, h3⟩ | ⟨h1, h2, h3⟩
  · exact Or.inl h
  · exact Or.inr (Or.inl ⟨h, p ++ u, d, m, h1, by simp, h3⟩)
  · exact Or.inr (Or.inr ⟨h1, h2, h3.prepend p⟩)

/-- What is left behind a type that is not followed by `,` or `)`, or that is not in parentheses. -/
inductive Blocked (a : Reading) (r : List Char) : Reading → List Char → Prop where
  | here : leftEnd a r = r.length → Blocked a r a r
  | times {stop : List Char} : r = 'x' :: stop → leftEnd a r = stop.length → Blocked a r .times stop
  | opened {stop : List Char} : r = '[' :: stop → leftEnd a r = stop.length → Blocked a r .opened stop
  | count {d stop : List Char} {m : Nat} : Numeral m d → r = '[' :: (d ++ stop) → leftEnd a r = r.length →
      Blocked a r .count stop

theorem Blocked.backs [Ext] {a b : Reading} {r stop : List Char} (h : Blocked a r b stop) (ha : a.done = true)
    (hl : ¬ Silent r) : FallsBack b r stop (leftEnd a r) := by
  cases h with
  | here h => exact Or.inl ⟨by rintro rfl; exact absurd ha (by decide), fun h => hl h.1, h⟩
  | times h h' => exact Or.inl ⟨by decide, fun h => absurd h.2 (by decide), h'⟩
  | opened h h' => exact Or.inl ⟨by decide, fun h => absurd h.2 (by decide), h'⟩
  | count h h' h'' =>
    rename_i d m
    refine Or.inr (Or.inl ⟨rfl, [], d, m, h, h', ?_⟩)
    rw [h'', h']
    simp
    omega

theorem leftEnd_plain {a : Reading} {c : Char} {cs : List Char} (h1 : c ≠ 'x' ∨ a ≠ .num) (h2 : c ≠ '[') :
    leftEnd a (c :: cs) = (c :: cs).length := by
  have e1 : leftSub a (c :: cs) = (c :: cs).length := by
    unfold leftSub
    split
    · next heq => cases heq; simp at h1
    · rfl
  have e2 : leftDim (c :: cs) = (c :: cs).length := by
    unfold leftDim
    split
    · next heq => cases heq; exact absurd rfl h2
    · rfl
  unfold leftEnd
  omega

theorem readOn_blocked {a : Reading} {r : List Char} (ha : a.done = true) (hr : TypeEnds a r) :
    ∃ b stop, Blocked a r b stop ∧ ∀ n, (n = 0 ∨ ∀ c, r.head? = some c → c ≠ ',' ∧ c ≠ ')') →
      readOn (n, a) r = ((n, b), stop) := by
  cases r with
  | nil =>
    refine ⟨a, [], .here ?_, fun n _ => rfl⟩
    cases a <;> simp [leftEnd, leftSub, leftDim]
  | cons c cs =>
    by_cases hb : c = '['
    · subst hb
      have e : ∀ n, readOn (n, a) ('[' :: cs) = readOn (n, .opened) cs := fun n => readOn_cons (read_bracket n ha)
      have hs : leftSub a ('[' :: cs) = cs.length + 1 := by
        unfold leftSub
        split
        · next heq => cases heq
        · rfl
      cases h1 : pDigits cs with
      | none =>
        have hl : leftEnd a ('[' :: cs) = cs.length := by simp [leftEnd, hs, leftDim, h1]
        cases cs with
        | nil => exact ⟨.opened, [], .opened rfl hl, fun n _ => e n⟩
        | cons d ds =>
          refine ⟨.opened, d :: ds, .opened rfl hl, fun n _ => ?_⟩
          rw [e]
          refine readOn_stop ?_
          have h2 : isDig19 d = false := pDigits_head h1
          have h3 : d ≠ ']' := by
            rintro rfl
            have := hr.2
            simp [pDim, h1] at this
          simp [readChar, h2, h3]
      | some p =>
        obtain ⟨m, q⟩ := p
        have hl : leftEnd a ('[' :: cs) = ('[' :: cs).length := by simp [leftEnd, hs, leftDim, h1]
        obtain ⟨w, rfl, hw⟩ := pDigits_sound h1
        refine ⟨.count, q, .count hw rfl hl, fun n _ => ?_⟩
        rw [e, readOn_digits (read_opened_dig n) (read_count_dig n) h1]
        cases q with
        | nil => rfl
        | cons d ds =>
          refine readOn_stop ?_
          have h2 : isDig d = false := pDigits_stops h1 d rfl
          have h3 : d ≠ ']' := by
            rintro rfl
            have := hr.2
            simp [pDim, h1] at this
          simp [readChar, h2, h3]
    · by_cases hx : c = 'x' ∧ a = .num
      · obtain ⟨rfl, rfl⟩ := hx
        have h1 : pDigits cs = none := hr.1.2 cs rfl
        refine ⟨.times, cs, .times rfl (by simp [leftEnd, leftSub, leftDim]), fun n _ => ?_⟩
        rw [readOn_cons (st' := (n, .times)) rfl]
        cases cs with
        | nil => rfl
        | cons d ds => exact readOn_stop (by simp [readChar, pDigits_head h1])
      · have hx' : c ≠ 'x' ∨ a ≠ .num := by
          by_contra hc
          simp only [not_or, not_not] at hc
          exact hx hc
        refine ⟨a, c :: cs, .here (leftEnd_plain hx' hb), fun n hn => readOn_stop ?_⟩
        have hafter : afterType n c = none := by
          unfold afterType
          rw [if_neg hb]
          rcases hn with rfl | hn
          · simp
          · have := hn c rfl
            simp [this]
        cases a with
        | base =>
          have h1 := hr.1.1 c rfl
          have h2 := pDigits_head hr.1.2
          simp [readChar, h1, h2, hafter]
        | num =>
          have h1 := hr.1.1 c rfl
          have h2 : c ≠ 'x' := by simpa using hx'
          simp [readChar, h1, h2, hafter]
        | num2 =>
          have h1 := hr.1 c rfl
          simp [readChar, h1, hafter]
        | closed => simp [readChar, hafter]
        | _ => exact absurd ha (by decide)

theorem pBasic_none [Ext] {fuel : Nat} {s : List Char} (h : pBasic fuel s = none) :
    tBasic fuel s = [.rule s, .rule s] ∧ ∀ c, s.head? = some c → isAlph c = false := by
  unfold pBasic at h
  unfold tBasic
  cases h1 : pAlphas s with
  | some p => rw [h1] at h; cases h
  | none =>
    refine ⟨rfl, fun c hc => ?_⟩
    cases s with
    | nil => cases hc
    | cons d ds =>
      cases hc
      unfold pAlphas at h1
      split at h1
      · next h2 =>
        cases h3 : isAlph c with
        | false => rfl
        | true => rw [List.takeWhile_cons_of_pos h3] at h2; cases h2
      · cases h1

theorem pBasic_paren (fuel : Nat) (r : List Char) : pBasic fuel ('(' :: r) = none := by
  have : pAlphas ('(' :: r) = none := by
    unfold pAlphas
    rw [List.takeWhile_cons_of_neg (by decide)]
    simp
  simp [pBasic, this]

/-- `type` and `next_type*`, seen from the automaton. -/
theorem pType_pNexts_read [Ext] : ∀ fuel : Nat,
    (∀ s : List Char, s.length < fuel →
      (∀ t rest, pType fuel s = some (t, rest) → rest.length < s.length ∧
        ∃ b, b.done = true ∧ TypeEnds b rest ∧ (∀ n, readOn (n, .start) s = readOn (n, b) rest) ∧
          ∃ k, Furthest (tType fuel s) k ∧ (¬ Silent rest → k = leftEnd b rest) ∧ (Silent rest → TriedIn s k)) ∧
      (pType fuel s = none → ∃ m b stop k, (∀ n, readOn (n, .start) s = ((n + m, b), stop)) ∧ (0 < m ∨ b = .start) ∧
        FallsBack b s stop k ∧ k ≤ s.length ∧ Furthest (tType fuel s) k)) ∧
    (∀ r : List Char, r.length < fuel → ∀ a : Reading, a.done = true → TypeEnds a r → ∀ (L : List Failure) (k0 : Nat),
      Furthest L k0 → (¬ Silent r → k0 = leftEnd a r) → ∀ ts r', pNexts fuel r = (ts, r') →
      (r'.length ≤ r.length ∧ (∀ c, r'.head? = some c → c ≠ ',') ∧
        ∃ b, b.done = true ∧ TypeEnds b r' ∧ (∀ n, readOn (n + 1, a) r = readOn (n + 1, b) r') ∧
          ∃ k, Furthest (L ++ tNexts fuel r) k ∧ (¬ Silent r' → k = leftEnd b r') ∧
            (Silent r' → (r = [] ∧ k = k0) ∨ Tried r k)) ∨
      ((∃ q, r' = ',' :: q) ∧ ∃ m b stop k, (∀ n, readOn (n + 1, a) r = ((n + 1 + m, b), stop)) ∧
        FallsBack b r stop k ∧ k ≤ r.length ∧ Furthest (L ++ tNexts fuel r) k)) := by
  intro fuel
  induction fuel with
  | zero => exact ⟨fun s h => by omega, fun r h => by omega⟩
  | succ fuel ih =>
    obtain ⟨ihT, ihN⟩ := ih
    constructor
    · intro s hf
      by_cases hp : ∃ r, s = '(' :: r
      · obtain ⟨r, rfl⟩ := hp
        simp only [List.length_cons] at hf
        obtain ⟨iT1, iT2⟩ := ihT r (by omega)
        have e0 : ∀ n, readOn (n, .start) ('(' :: r) = readOn (n + 1, .start) r := fun n => readOn_cons rfl
        have hb := pBasic_none (pBasic_paren fuel r)
        cases h1 : pType fuel r with
        | none =>
          have hT : pType (fuel + 1) ('(' :: r) = none := by simp only [pType, h1, pBasic_paren]
          have hL : tType (fuel + 1) ('(' :: r) = tType fuel r ++
              [.rule ('(' :: r), .rule ('(' :: r)] ++ tBasic fuel ('(' :: r) ++ [.rule ('(' :: r)] := by
            simp only [tType, h1]
          refine ⟨(fun t rest h => by rw [hT] at h; cases h), fun _ => ?_⟩
          obtain ⟨m, b, stop, k, g1, g2, g3, g4, g5⟩ := iT2 h1
          refine ⟨m + 1, b, stop, k, fun n => by rw [e0, g1]; congr 2; omega, Or.inl (by omega),
            g3.prepend ['('], by simp; omega, ?_⟩
          rw [hL, hb.1, List.append_assoc, List.append_assoc]
          refine g5.append_left fun f hf _ => ?_
          simp at hf
          subst hf
          simp [Failure.rule]
          omega
        | some p =>
          obtain ⟨t1, r1⟩ := p
          obtain ⟨l1, a, a1, a2, a3, k0, a4, a5, a6⟩ := iT1 t1 r1 h1
          cases h2 : pNexts fuel r1 with
          | mk ts r2 =>
            have key := ihN r1 (by omega) a a1 a2 (tType fuel r) k0 a4 a5 ts r2 h2
            by_cases hc : ∃ q, r2 = ')' :: q
            · obtain ⟨q, rfl⟩ := hc
              rcases key with ⟨k1, k2, b, b1, b2, b3, kb, b4, b5, _⟩ | ⟨⟨q', hq'⟩, _⟩
              · simp only [List.length_cons] at k1
                have hT : pType (fuel + 1) ('(' :: r) =
                    some (.tuple (t1 :: ts) (pArr fuel q).1, (pArr fuel q).2) := by
                  simp only [pType, h1, h2]
                have hL : tType (fuel + 1) ('(' :: r) = tType fuel r ++ tNexts fuel r1 ++ tArr fuel q := by
                  simp only [tType, h1, h2]
                refine ⟨fun t rest h => ?_, fun h => by rw [hT] at h; cases h⟩
                rw [hT] at h
                simp only [Option.some.injEq, Prod.mk.injEq] at h
                obtain ⟨rfl, rfl⟩ := h
                obtain ⟨c, c1, c2, c3, c4, c5, c6⟩ := pArr_read fuel q (by omega) (a := .closed) rfl trivial
                have hc : c = .closed := by rcases c6 with ⟨rfl, _⟩ | ⟨rfl, _⟩ <;> rfl
                subst hc
                have g3 : kb = q.length + 1 := by
                  rw [b5 (by rintro ⟨h, _⟩; cases h)]
                  exact leftEnd_plain (Or.inl (by decide)) (by decide)
                subst g3
                obtain ⟨w1, hw1⟩ : ∃ w1, r = w1 ++ r1 := by
                  obtain ⟨w, hw, _⟩ := (pType_pNexts_sound fuel).1 _ _ _ h1
                  exact ⟨w, hw⟩
                obtain ⟨w2, hw2⟩ : ∃ w2, r1 = w2 ++ ')' :: q := by
                  rcases (pType_pNexts_sound fuel).2 _ _ _ h2 with ⟨_, hw⟩ | ⟨w, hw, _⟩
                  · exact ⟨[], hw.symm⟩
                  · exact ⟨_, hw⟩
                refine ⟨by simp only [List.length_cons]; omega, .closed, rfl, c2, fun n => ?_, ?_⟩
                · rw [e0, a3, b3, readOn_cons (read_paren n b1), c3]
                · rw [hL]
                  by_cases hsil : Silent (pArr fuel q).2
                  · have whole : '(' :: r = ('(' :: (w1 ++ w2)) ++ ')' :: q := by rw [hw1, hw2]; simp
                    rcases tArr_end hsil.2 (r := q) (by omega) hsil.1 with ⟨i1, i2⟩ | ⟨u, z, i1, i2, i3⟩
                    · rw [i2, List.append_nil]
                      refine ⟨_, b4, fun h => absurd hsil h, fun _ => ?_⟩
                      rw [whole]
                      exact ((tried_paren i1).prepend _).inside
                    · have li := congrArg List.length i1
                      simp only [List.length_append, List.length_cons] at li
                      refine ⟨_, i3.append_right fun f hf hn => ?_, fun h => absurd hsil h, fun _ => ?_⟩
                      · have := b4.2 f hf hn
                        omega
                      · have := (tried_dynamic i2 ('(' :: (w1 ++ w2) ++ ')' :: u)).inside
                        rwa [show '(' :: (w1 ++ w2) ++ ')' :: u ++ '[' :: ']' :: z = '(' :: r by
                          rw [whole, i1]; simp] at this
                  · have hn : ¬ leftSub .closed (pArr fuel q).2 < (pArr fuel q).2.length := by
                      rw [leftSub_closed]; omega
                    refine ⟨_, (c5 hsil).append_right fun f hf hn => ?_, fun _ => (leftEnd_of_not hn).symm,
                      fun h => absurd h hsil⟩
                    have g1 := b4.2 f hf hn
                    have g2 := leftDim_le (pArr fuel q).2
                    omega
              · cases hq'
            · have hT : pType (fuel + 1) ('(' :: r) = none := by
                simp only [pType, h1, h2, pBasic_paren]
                split
                · next heq => cases heq; exact absurd ⟨_, rfl⟩ hc
                · rfl
              have hL : tType (fuel + 1) ('(' :: r) = tType fuel r ++ tNexts fuel r1 ++
                  [.part r2, .rule ('(' :: r), .rule ('(' :: r)] ++ tBasic fuel ('(' :: r) ++ [.rule ('(' :: r)] := by
                simp only [tType, h1, h2]
                split
                · next heq => cases heq; exact absurd ⟨_, rfl⟩ hc
                · next heq => cases heq; rfl
              refine ⟨(fun t rest h => by rw [hT] at h; cases h), fun _ => ?_⟩
              obtain ⟨w1, hw1⟩ : ∃ w1, r = w1 ++ r1 := by
                obtain ⟨w, hw, _⟩ := (pType_pNexts_sound fuel).1 _ _ _ h1
                exact ⟨w, hw⟩
              have last : ∀ k, k ≤ r.length → ∀ f ∈ [Failure.part r2, .rule ('(' :: r), .rule ('(' :: r)] ++
                  (tBasic fuel ('(' :: r) ++ [.rule ('(' :: r)]), f.named = true → k ≤ f.rest.length := by
                intro k hk f hf hn
                rw [hb.1] at hf
                simp at hf
                rcases hf with rfl | rfl
                · cases hn
                · simp [Failure.rule]; omega
              rcases key with ⟨k1, k2, b, b1, b2, b3, kb, b4, b5, b6⟩ | ⟨_, m, b, stop, k, b1, b2, b3, b4⟩
              · by_cases hsil : Silent r2
                · have htried : Tried ('(' :: r) kb := by
                    rcases b6 hsil with ⟨rfl, rfl⟩ | h6
                    · exact (a6 ⟨rfl, hsil.2⟩).prepend (p := ['(']) begins_open
                    · have := h6.prepend ('(' :: w1)
                      rwa [List.cons_append, ← hw1] at this
                  have hlen : kb ≤ r.length := by
                    rcases b6 hsil with ⟨rfl, rfl⟩ | h6
                    · exact (a6 ⟨rfl, hsil.2⟩).1
                    · have := h6.1
                      omega
                  refine ⟨1, b, r2, kb, fun n => by rw [e0, a3, b3, hsil.1]; rfl, Or.inl (by omega),
                    Or.inr (Or.inr ⟨b1, hsil, htried⟩), htried.1, ?_⟩
                  rw [hL, List.append_assoc, List.append_assoc]
                  exact b4.append_left (last _ hlen)
                replace b5 := b5 hsil
                subst b5
                obtain ⟨b', stop, h4, h3⟩ := readOn_blocked b1 b2
                have hcond : ∀ c, r2.head? = some c → c ≠ ',' ∧ c ≠ ')' := by
                  intro c hc'
                  refine ⟨k2 c hc', ?_⟩
                  rintro rfl
                  cases r2 with
                  | nil => cases hc'
                  | cons d ds => cases hc'; exact hc ⟨ds, rfl⟩
                obtain ⟨w2, hw2⟩ : ∃ w2, r1 = w2 ++ r2 := by
                  rcases (pType_pNexts_sound fuel).2 _ _ _ h2 with ⟨_, hw⟩ | ⟨w, hw, _⟩
                  · exact ⟨[], hw.symm⟩
                  · exact ⟨_, hw⟩
                have hl := leftEnd_le b r2
                refine ⟨1, b', stop, leftEnd b r2, fun n => by rw [e0, a3, b3, h3 (n + 1) (Or.inr hcond)],
                  Or.inl (by omega), ?_, by simp only [List.length_cons]; omega, ?_⟩
                · have := (h4.backs b1 hsil).prepend ('(' :: (w1 ++ w2))
                  rw [List.cons_append, List.append_assoc, ← hw2, ← hw1] at this
                  exact this
                · rw [hL, List.append_assoc, List.append_assoc]
                  exact b4.append_left (last _ (by omega))
              · refine ⟨m + 1, b, stop, k, fun n => by rw [e0, a3, b1]; congr 2; omega, Or.inl (by omega), ?_,
                  by simp only [List.length_cons]; omega, ?_⟩
                · have := b2.prepend ('(' :: w1)
                  rw [List.cons_append, ← hw1] at this
                  exact this
                · rw [hL, List.append_assoc, List.append_assoc]
                  exact b4.append_left (last k (by omega))
      · have hT : pType (fuel + 1) s = pBasic fuel s := by
          simp only [pType]
          split
          · exact absurd ⟨_, rfl⟩ hp
          · rfl
        cases h1 : pBasic fuel s with
        | none =>
          have hL : tType (fuel + 1) s = [.part s, .rule s, .rule s] ++ tBasic fuel s ++ [.rule s] := by
            simp only [tType]
            split
            · exact absurd ⟨_, rfl⟩ hp
            · simp only [h1]
          have hb := pBasic_none h1
          refine ⟨(fun t rest h => by rw [hT, h1] at h; cases h), fun _ => ?_⟩
          refine ⟨0, .start, s, s.length, fun n => ?_, Or.inr rfl,
            Or.inl ⟨by decide, fun h => absurd h.2 (by decide), rfl⟩, Nat.le_refl _, ?_⟩
          · cases s with
            | nil => rfl
            | cons c cs =>
              have h2 : c ≠ '(' := by rintro rfl; exact hp ⟨cs, rfl⟩
              exact readOn_stop (by simp [readChar, h2, hb.2 c rfl])
          · rw [hL, hb.1]
            refine ⟨⟨.rule s, by simp, rfl, rfl⟩, fun f hf _ => ?_⟩
            simp at hf
            rcases hf with rfl | rfl <;> simp [Failure.rule, Failure.part]
        | some p =>
          obtain ⟨t0, r0⟩ := p
          have hL : tType (fuel + 1) s = [.part s, .rule s, .rule s] ++ tBasic fuel s := by
            simp only [tType]
            split
            · exact absurd ⟨_, rfl⟩ hp
            · simp only [h1]
          refine ⟨fun t rest h => ?_, fun h => by rw [hT, h1] at h; cases h⟩
          rw [hT, h1] at h
          cases h
          obtain ⟨l, b, b1, b2, b3, b4⟩ := pBasic_read (by omega) h1
          refine ⟨l, b, b1, b2, b3, ?_⟩
          rw [hL]
          by_cases hsil : Silent r0
          · rw [hsil.1] at h1
            obtain ⟨k, e1, e2⟩ := tBasic_end hsil.2 (by omega) h1
            exact ⟨k, e1, fun h => absurd hsil h, fun _ => e2⟩
          refine ⟨_, (b4 hsil).append_right fun f hf _ => ?_, fun _ => rfl, fun h => absurd h hsil⟩
          have := leftEnd_le b r0
          simp at hf
          rcases hf with rfl | rfl <;> simp [Failure.rule, Failure.part] <;> omega
    · intro r hf a ha hr L k0 hL hk0 ts r' h
      by_cases hp : ∃ q, r = ',' :: q
      · obtain ⟨q, rfl⟩ := hp
        simp only [List.length_cons] at hf
        have e0 : ∀ n, readOn (n + 1, a) (',' :: q) = readOn (n + 1, .start) q := fun n => readOn_cons (read_comma n ha)
        obtain ⟨iT1, iT2⟩ := ihT q (by omega)
        have hfar : leftEnd a (',' :: q) = q.length + 1 := leftEnd_plain (Or.inl (by decide)) (by decide)
        rw [hk0 (by rintro ⟨h, _⟩; cases h), hfar] at hL
        cases h1 : pType fuel q with
        | none =>
          simp only [pNexts, h1] at h
          cases h
          have hT : tNexts (fuel + 1) (',' :: q) = tType fuel q ++ [.rule (',' :: q)] := by simp only [tNexts, h1]
          obtain ⟨m, b, stop, k, g1, g2, g3, g4, g5⟩ := iT2 h1
          right
          refine ⟨⟨q, rfl⟩, m, b, stop, k, fun n => by rw [e0, g1], g3.prepend [','], by simp; omega, ?_⟩
          rw [hT]
          refine Furthest.append_right (g5.append_left fun f hf _ => ?_) fun f hf hn => ?_
          · simp at hf
            subst hf
            simp [Failure.rule]
            omega
          · have := hL.2 f hf hn
            omega
        | some p =>
          obtain ⟨t1, r1⟩ := p
          obtain ⟨l1, c, c1, c2, c3, kc, c4, c5, c6⟩ := iT1 t1 r1 h1
          obtain ⟨w1, hw1⟩ : ∃ w1, q = w1 ++ r1 := by
            obtain ⟨w, hw, _⟩ := (pType_pNexts_sound fuel).1 _ _ _ h1
            exact ⟨w, hw⟩
          have hkc : kc ≤ q.length := by
            by_cases hsil : Silent r1
            · exact (c6 hsil).1
            · rw [c5 hsil]
              have := leftEnd_le c r1
              omega
          have hL' : Furthest (L ++ tType fuel q) kc := by
            refine c4.append_right fun f hf hn => ?_
            have := hL.2 f hf hn
            omega
          cases h2 : pNexts fuel r1 with
          | mk ts2 r2 =>
            have hT : tNexts (fuel + 1) (',' :: q) = tType fuel q ++ tNexts fuel r1 := by simp only [tNexts, h1]
            simp only [pNexts, h1, h2] at h
            cases h
            rw [hT, ← List.append_assoc]
            rcases ihN r1 (by omega) c c1 c2 _ kc hL' c5 ts2 r' h2 with
              ⟨k1, k2, b, b1, b2, b3, kb, b4, b5, b6⟩ | ⟨k1, m, b, stop, k, b1, b2, b3, b4⟩
            · left
              refine ⟨by simp only [List.length_cons]; omega, k2, b, b1, b2, fun n => by rw [e0, c3, b3], kb, b4, b5,
                fun hsil => Or.inr ?_⟩
              rcases b6 hsil with ⟨rfl, rfl⟩ | h6
              · exact (c6 ⟨rfl, hsil.2⟩).prepend (p := [',']) begins_comma
              · have := h6.prepend (',' :: w1)
                rwa [List.cons_append, ← hw1] at this
            · right
              refine ⟨k1, m, b, stop, k, fun n => by rw [e0, c3, b1], ?_, by simp only [List.length_cons]; omega, b4⟩
              have := b2.prepend (',' :: w1)
              rw [List.cons_append, ← hw1] at this
              exact this
      · have hN : pNexts (fuel + 1) r = ([], r) := by
          simp only [pNexts]
          split
          · exact absurd ⟨_, rfl⟩ hp
          · rfl
        have hT : tNexts (fuel + 1) r = repeated r [.part r, .rule r] := by
          simp only [tNexts]
          split
          · exact absurd ⟨_, rfl⟩ hp
          · rfl
        rw [hN] at h
        cases h
        left
        refine ⟨Nat.le_refl _, ?_, a, ha, hr, fun n => rfl, ?_⟩
        · rintro c hc rfl
          cases r with
          | nil => cases hc
          | cons d ds => cases hc; exact hp ⟨ds, rfl⟩
        · rw [hT]
          by_cases hsil : Silent r
          · rw [repeated_silent hsil, List.append_nil]
            exact ⟨k0, hL, fun h => absurd hsil h, fun _ => Or.inl ⟨hsil.1, rfl⟩⟩
          rw [repeated_loud hsil]
          refine ⟨k0, hL.append_left fun f hf _ => ?_, hk0, fun h => absurd h hsil⟩
          rw [hk0 hsil]
          have := leftEnd_le a r
          simp at hf
          rcases hf with rfl | rfl <;> simp [Failure.rule, Failure.part] <;> omega

/-! ## Type strings and their beginnings -/

/-- Some interpreter, for what holds with any. -/
@[instance_reducible] def someExt : Ext := ⟨fun _ _ => 0, fun _ => false, none, by simp, true⟩

theorem read_type {w : List Char} {t : ABIType} (h : Derives t w) :
    ∃ b : Reading, b.done = true ∧ readOn (0, .start) w = ((0, b), []) := by
  let _ := someExt
  have h1 := pType_complete h (rest := []) (by intro c hc; cases hc) (fuel := w.length + 1) (by omega)
  rw [List.append_nil] at h1
  obtain ⟨_, b, b1, _, b3, _⟩ := ((pType_pNexts_read (w.length + 1)).1 w (by omega)).1 _ _ h1
  exact ⟨b, b1, b3 0⟩

theorem type_of_read {w : List Char} {b : Reading} (hb : b.done = true) (h : readOn (0, .start) w = ((0, b), [])) :
    IsTypeStr w := by
  let _ := someExt
  have key := (pType_pNexts_read (w.length + 1)).1 w (by omega)
  cases h1 : pType (w.length + 1) w with
  | none =>
    obtain ⟨m, a, stop, k, g1, g2, _⟩ := key.2 h1
    have := g1 0
    rw [h] at this
    simp only [Prod.mk.injEq] at this
    obtain ⟨⟨e1, rfl⟩, _⟩ := this
    rcases g2 with g2 | rfl
    · omega
    · exact absurd hb (by decide)
  | some p =>
    obtain ⟨t, rest⟩ := p
    obtain ⟨_, a, a1, a2, a3, _⟩ := key.1 t rest h1
    obtain ⟨c, stop, hc, hr⟩ := readOn_blocked a1 a2
    have := hr 0 (Or.inl rfl)
    rw [← a3 0, h] at this
    simp only [Prod.mk.injEq] at this
    obtain ⟨⟨_, rfl⟩, rfl⟩ := this
    obtain ⟨w', hw, hd⟩ := (pType_pNexts_sound _).1 _ _ _ h1
    cases hc with
    | here _ => rw [List.append_nil] at hw; subst hw; exact ⟨t, hd⟩
    | times _ _ => exact absurd hb (by decide)
    | opened _ _ => exact absurd hb (by decide)
    | count _ _ _ => exact absurd hb (by decide)

theorem close_all : ∀ (n : Nat) {b : Reading}, b.done = true →
    ∃ r b', Reading.done b' = true ∧ readOn (n, b) r = ((0, b'), []) := by
  intro n
  induction n with
  | zero => intro b hb; exact ⟨[], b, hb, rfl⟩
  | succ n ih =>
    intro b hb
    obtain ⟨r, b', h1, h2⟩ := ih (b := .closed) rfl
    exact ⟨')' :: r, b', h1, by rw [readOn_cons (read_paren n hb), h2]⟩

/-- Whatever is being read can be finished. -/
theorem finish (st : Nat × Reading) : ∃ r b, Reading.done b = true ∧ readOn st r = ((0, b), []) := by
  obtain ⟨n, a⟩ := st
  have one : ∀ {c : Char} {b : Reading}, b.done = true → readChar (n, a) c = some (n, b) →
      ∃ r b, Reading.done b = true ∧ readOn (n, a) r = ((0, b), []) := by
    intro c b hb hc
    obtain ⟨r, b', h1, h2⟩ := close_all n hb
    exact ⟨c :: r, b', h1, by rw [readOn_cons hc, h2]⟩
  cases a with
  | start => exact one (c := 'a') (b := .base) rfl rfl
  | times => exact one (c := '1') (b := .num2) rfl rfl
  | opened => exact one (c := ']') (b := .closed) rfl rfl
  | count => exact one (c := ']') (b := .closed) rfl rfl
  | _ => exact close_all n rfl

theorem viable_iff (w : List Char) : Viable w ↔ (readOn (0, .start) w).2 = [] := by
  constructor
  · rintro ⟨r, t, h⟩
    obtain ⟨b, _, h2⟩ := read_type h
    obtain ⟨u, e1, e2, e3⟩ := readOn_split w (0, .start)
    cases h3 : (readOn (0, .start) w).2 with
    | nil => rfl
    | cons c cs =>
      rw [h3] at e1 e3
      have e4 : w ++ r = u ++ (c :: (cs ++ r)) := by rw [e1]; simp
      rw [e4, readOn_append _ e2, readOn_stop (e3 c rfl)] at h2
      simp at h2
  · intro h
    obtain ⟨r, b, h1, h2⟩ := finish (readOn (0, .start) w).1
    refine ⟨r, type_of_read h1 ?_⟩
    rw [readOn_append (st' := (readOn (0, .start) w).1) r (by rw [← h]), h2]

/-- The longest beginning is what the automaton reads. -/
theorem longest_iff {s v : List Char} : Longest s v ↔ s = v ++ (readOn (0, .start) s).2 := by
  constructor
  · rintro ⟨h1, rest, rfl, h2⟩
    rw [viable_iff] at h1
    have e : readOn (0, .start) (v ++ rest) = readOn (readOn (0, .start) v).1 rest :=
      readOn_append rest (by rw [← h1])
    cases rest with
    | nil => rw [e]; rfl
    | cons c cs =>
      have h3 : readChar (readOn (0, .start) v).1 c = none := by
        cases h4 : readChar (readOn (0, .start) v).1 c with
        | none => rfl
        | some st =>
          exfalso
          refine h2 c rfl ((viable_iff _).2 ?_)
          rw [readOn_append (st' := (readOn (0, .start) v).1) [c] (by rw [← h1]), readOn_cons h4]
          rfl
      rw [e, readOn_stop h3]
  · intro h
    obtain ⟨w, e1, e2, e3⟩ := readOn_split s (0, .start)
    have : w = v := List.append_cancel_right (e1.symm.trans h)
    subst this
    refine ⟨(viable_iff _).2 (by rw [e2]), _, h, fun c hc => ?_⟩
    rw [viable_iff, readOn_append [c] e2, readOn_stop (e3 c hc)]
    simp

/-- After `[` and digits a number of an array is being read. -/
theorem read_size {d : List Char} (hd : ∀ c ∈ d, isDig c = true) {st st' : Nat × Reading}
    (h : readOn st ('[' :: d) = (st', [])) : (st'.2 = .opened ∧ d = []) ∨ st'.2 = .count := by
  have h1 : ∃ n, readChar st '[' = some (n, .opened) := by
    cases h2 : readChar st '[' with
    | none => rw [readOn_stop h2] at h; cases h
    | some x =>
      obtain ⟨n, a⟩ := st
      refine ⟨n, ?_⟩
      rw [← h2]
      cases a with
      | start => cases h2
      | times => cases h2
      | opened => cases h2
      | count => cases h2
      | _ => rfl
  obtain ⟨n, h1⟩ := h1
  rw [readOn_cons h1] at h
  cases d with
  | nil => cases h; exact Or.inl ⟨rfl, rfl⟩
  | cons c cs =>
    right
    cases h2 : isDig19 c with
    | false =>
      have h3 : c ≠ ']' := by
        rintro rfl
        exact absurd (hd ']' (by simp)) (by decide)
      rw [readOn_stop (by simp [readChar, h2, h3])] at h
      cases h
    | true =>
      have e : cs.dropWhile isDig = [] := by
        have := (takeWhile_append_stop (f := isDig) (w := cs) (rest := []) (fun x hx => hd x (by simp [hx]))
          (by intro c hc; cases hc)).2
        rwa [List.append_nil] at this
      rw [readOn_cons (read_opened_dig n c h2), readOn_while (read_count_dig n), e] at h
      cases h
      rfl

theorem numeral_digits {n : Nat} {d : List Char} (h : Numeral n d) : (∀ c ∈ d, isDig c = true) ∧ d ≠ [] := by
  obtain ⟨_, h2, c, cs, rfl, _⟩ := numeral_value h
  exact ⟨h2, by simp⟩

theorem read_part {p q : List Char} {st : Nat × Reading} (h : readOn (0, .start) (p ++ q) = (st, [])) :
    ∃ st', readOn (0, .start) p = (st', []) ∧ readOn st' q = (st, []) := by
  obtain ⟨u, e1, e2, e3⟩ := readOn_split p (0, .start)
  cases h1 : (readOn (0, .start) p).2 with
  | nil => exact ⟨(readOn (0, .start) p).1, by rw [← h1], by rw [← h, readOn_append]; rw [← h1]⟩
  | cons c cs =>
    rw [h1] at e1 e3
    have e4 : p ++ q = u ++ (c :: (cs ++ q)) := by rw [e1]; simp
    rw [e4, readOn_append _ e2, readOn_stop (e3 c rfl)] at h
    cases h

theorem not_unfinished_size {v p d : List Char} {n : Nat} (hd : Numeral n d) (e : v = p ++ '[' :: d) {st : Nat × Reading}
    (h : readOn (0, .start) v = (st, [])) : st.2 = .count := by
  subst e
  obtain ⟨st', _, h2⟩ := read_part h
  rcases read_size (numeral_digits hd).1 h2 with ⟨_, h3⟩ | h3
  · exact absurd h3 (numeral_digits hd).2
  · exact h3

theorem read_done {b : Reading} (hb : b ≠ .start) {c : Char} {st : Nat × Reading}
    (h : readChar (0, b) c = some st) : st.1 = 0 ∧ st.2 ≠ .start := by
  have ha : ∀ {c : Char} {st : Nat × Reading}, afterType 0 c = some st → st.1 = 0 ∧ st.2 ≠ .start := by
    intro c st h
    unfold afterType at h
    split at h
    · cases h; exact ⟨rfl, by decide⟩
    · simp at h
  cases b with
  | base =>
    simp only [readChar] at h
    split at h
    · cases h; exact ⟨rfl, by decide⟩
    · split at h
      · cases h; exact ⟨rfl, by decide⟩
      · exact ha h
  | num =>
    simp only [readChar] at h
    split at h
    · cases h; exact ⟨rfl, by decide⟩
    · split at h
      · cases h; exact ⟨rfl, by decide⟩
      · exact ha h
  | num2 =>
    simp only [readChar] at h
    split at h
    · cases h; exact ⟨rfl, by decide⟩
    · exact ha h
  | closed => exact ha h
  | start => exact absurd rfl hb
  | times =>
    simp only [readChar] at h
    split at h
    · cases h; exact ⟨rfl, by decide⟩
    · cases h
  | opened =>
    simp only [readChar] at h
    split at h
    · cases h; exact ⟨rfl, by decide⟩
    · split at h
      · cases h; exact ⟨rfl, by decide⟩
      · cases h
  | count =>
    simp only [readChar] at h
    split at h
    · cases h; exact ⟨rfl, by decide⟩
    · split at h
      · cases h; exact ⟨rfl, by decide⟩
      · cases h

theorem done_ne_start {b : Reading} (h : b.done = true) : b ≠ .start := by
  rintro rfl
  exact absurd h (by decide)

/-- Outside of parentheses no new type begins. -/
theorem read_flat (s : List Char) : ∀ {b : Reading}, b ≠ .start →
    (readOn (0, b) s).1.1 = 0 ∧ (readOn (0, b) s).1.2 ≠ .start := by
  induction s with
  | nil => intro b hb; exact ⟨rfl, hb⟩
  | cons c cs ih =>
    intro b hb
    cases h : readChar (0, b) c with
    | none => rw [readOn_stop h]; exact ⟨rfl, hb⟩
    | some st =>
      obtain ⟨n, a⟩ := st
      obtain ⟨h1, h2⟩ := read_done hb h
      simp only at h1 h2
      subst h1
      rw [readOn_cons h]
      exact ih h2

/-! ## What is recorded -/

theorem record_fold {N q : Nat} : ∀ (L : List Failure) (p : Nat), p ≤ q →
    (∀ f ∈ L, f.named = true → N - f.rest.length ≤ q) →
    (p = q ∨ ∃ f ∈ L, f.named = true ∧ N - f.rest.length = q) →
    L.foldl (fun err f => recordFailure err f.named (N - f.rest.length)) (some p) = some q := by
  intro L
  induction L with
  | nil =>
    intro p _ _ h
    rcases h with rfl | ⟨f, hf, _⟩
    · rfl
    · cases hf
  | cons f L ih =>
    intro p hp hL h
    rw [List.foldl_cons]
    have hL' : ∀ g ∈ L, g.named = true → N - g.rest.length ≤ q := fun g hg => hL g (by simp [hg])
    simp only [recordFailure]
    split
    · next hc =>
      simp only [Bool.and_eq_true, decide_eq_true_eq] at hc
      refine ih _ (hL f (by simp) hc.1) hL' ?_
      rcases h with rfl | ⟨g, hg, g1, g2⟩
      · left
        have := hL f (by simp) hc.1
        omega
      · rcases List.mem_cons.1 hg with rfl | hg
        · exact Or.inl g2
        · exact Or.inr ⟨g, hg, g1, g2⟩
    · next hc =>
      refine ih p hp hL' ?_
      rcases h with rfl | ⟨g, hg, g1, g2⟩
      · exact Or.inl rfl
      · rcases List.mem_cons.1 hg with rfl | hg
        · simp only [g1, Bool.true_and, decide_eq_true_eq] at hc
          omega
        · exact Or.inr ⟨g, hg, g1, g2⟩

/-- A rule fails where the first failure is. -/
theorem tType_first [Ext] : ∀ (fuel : Nat) (s : List Char), s.length < fuel →
    ∃ f L, tType fuel s = f :: L ∧ ∃ g ∈ f :: L, g.named = true ∧ g.rest = f.rest := by
  intro fuel
  induction fuel with
  | zero => intro s h; omega
  | succ fuel ih =>
    intro s hf
    by_cases hp : ∃ r, s = '(' :: r
    · obtain ⟨r, rfl⟩ := hp
      simp only [List.length_cons] at hf
      obtain ⟨f, L, e, g, g1, g2⟩ := ih r (by omega)
      have : ∃ L', tType (fuel + 1) ('(' :: r) = tType fuel r ++ L' := by
        simp only [tType]
        split
        · split
          · exact ⟨_, List.append_assoc ..⟩
          · exact ⟨_, by simp only [List.append_assoc]; rfl⟩
        · exact ⟨_, by simp only [List.append_assoc]; rfl⟩
      obtain ⟨L', e'⟩ := this
      refine ⟨f, L ++ L', by rw [e', e]; rfl, g, ?_, g2⟩
      rcases List.mem_cons.1 g1 with rfl | g1
      · simp
      · simp [g1]
    · simp only [tType]
      split
      · exact absurd ⟨_, rfl⟩ hp
      · split
        · exact ⟨.part s, _, rfl, .rule s, by simp, rfl, rfl⟩
        · exact ⟨.part s, _, rfl, .rule s, by simp, rfl, rfl⟩

theorem record_all [Ext] {s : List Char} {k : Nat} (h : Furthest (tType (s.length + 1) s) k) :
    (tType (s.length + 1) s).foldl (fun err f => recordFailure err f.named (s.length - f.rest.length)) none =
      some (s.length - k) := by
  obtain ⟨f, L, e, g, g1, g2, g3⟩ := tType_first (s.length + 1) s (by omega)
  rw [e] at h ⊢
  rw [List.foldl_cons]
  obtain ⟨⟨x, x1, x2, x3⟩, h2⟩ := h
  have := h2 g g1 g2
  refine record_fold L _ (by rw [← g3]; omega) (fun y hy hn => ?_) ?_
  · have := h2 y (by simp [hy]) hn
    omega
  · rcases List.mem_cons.1 x1 with rfl | x1
    · exact Or.inl (by rw [x3])
    · exact Or.inr ⟨x, x1, x2, by rw [x3]⟩

/-! ## The last place where something was tried -/

/-- Where something was last tried, and where the last name began, after one character more. -/
def mark (a : Reading) (c : Char) (i m w : Nat) : Nat × Nat :=
  match a with
  | .start => (i, i)
  | .base => if isAlph c then (m, w) else (i, w)
  | .times => (w, w)
  | .opened => if c = ']' then (i, w) else (m, w)
  | _ => if c = ')' then (i, w) else (m, w)

/-- What is being read, how many characters were read, where something was last tried, where the last name began. -/
abbrev Marked := (Nat × Reading) × Nat × Nat × Nat

def markChar (x : Marked) (c : Char) : Option Marked :=
  (readChar x.1 c).map fun st => (st, x.2.1 + 1, mark x.1.2 c x.2.1 x.2.2.1 x.2.2.2)

/-- Reading `s` leads from `x` to `y`. -/
inductive Runs : Marked → List Char → Marked → Prop where
  | nil {x : Marked} : Runs x [] x
  | cons {x y z : Marked} {c : Char} {s : List Char} : markChar x c = some y → Runs y s z → Runs x (c :: s) z

theorem Runs.append {x y z : Marked} {p q : List Char} (h : Runs x p y) (h' : Runs y q z) : Runs x (p ++ q) z := by
  induction h with
  | nil => exact h'
  | cons h1 _ ih => exact .cons h1 (ih h')

theorem Runs.unique {x y : Marked} {s : List Char} (h : Runs x s y) : ∀ {z : Marked}, Runs x s z → y = z := by
  induction h with
  | nil => intro z h; cases h; rfl
  | cons h1 _ ih =>
    intro z h
    cases h with
    | cons h2 h3 =>
      rw [h1] at h2
      cases h2
      exact ih h3

theorem Runs.read {x y : Marked} {s : List Char} (h : Runs x s y) : readOn x.1 s = (y.1, []) := by
  induction h with
  | nil => rfl
  | @cons x y z c s h1 _ ih =>
    unfold markChar at h1
    cases h2 : readChar x.1 c with
    | none => rw [h2] at h1; cases h1
    | some st =>
      rw [h2] at h1
      cases h1
      rw [readOn_cons h2]
      exact ih

theorem runs_of_read : ∀ (s : List Char) {st st' : Nat × Reading}, readOn st s = (st', []) → ∀ i m w : Nat,
    ∃ m' w', Runs (st, i, m, w) s (st', i + s.length, m', w') := by
  intro s
  induction s with
  | nil => intro st st' h i m w; cases h; exact ⟨m, w, .nil⟩
  | cons c cs ih =>
    intro st st' h i m w
    cases h1 : readChar st c with
    | none => rw [readOn_stop h1] at h; cases h
    | some s1 =>
      rw [readOn_cons h1] at h
      obtain ⟨m', w', h2⟩ := ih h (i + 1) (mark st.2 c i m w).1 (mark st.2 c i m w).2
      refine ⟨m', w', .cons (y := (s1, i + 1, mark st.2 c i m w)) (by simp [markChar, h1]) ?_⟩
      rw [show i + (c :: cs).length = i + 1 + cs.length by simp only [List.length_cons]; omega]
      exact h2

theorem runs_while {P : Char → Prop} {st : Nat × Reading} {m w : Nat}
    (h : ∀ c i, P c → markChar (st, i, m, w) c = some (st, i + 1, m, w)) :
    ∀ (s : List Char) (i : Nat), (∀ c ∈ s, P c) → Runs (st, i, m, w) s (st, i + s.length, m, w) := by
  intro s
  induction s with
  | nil => intro i _; exact .nil
  | cons c cs ih =>
    intro i hs
    refine .cons (h c i (hs c (by simp))) ?_
    rw [show i + (c :: cs).length = i + 1 + cs.length by simp only [List.length_cons]; omega]
    exact ih (i + 1) fun d hd => hs d (by simp [hd])

theorem runs_name {base : List Char} (h : IsName base) (n i m w : Nat) :
    Runs ((n, .start), i, m, w) base ((n, .base), i + base.length, i, i) := by
  obtain ⟨h1, h2⟩ := h
  cases base with
  | nil => exact absurd rfl h1
  | cons c cs =>
    have hc := isAlph_iff.2 (h2 c (by simp))
    refine .cons (y := ((n, .base), i + 1, i, i)) (by simp [markChar, readChar, alph_not_paren hc, hc, mark]) ?_
    rw [show i + (c :: cs).length = i + 1 + cs.length by simp only [List.length_cons]; omega]
    exact runs_while (P := fun d => isAlph d = true) (fun d j hd => by simp [markChar, readChar, mark, hd]) cs (i + 1)
      fun d hd => isAlph_iff.2 (h2 d (by simp [hd]))

theorem runs_digits {n k m w m' w' : Nat} {a b : Reading} {i : Nat} {d : List Char} (hd : Numeral k d)
    (h1 : ∀ c, isDig19 c = true → markChar ((n, a), i, m, w) c = some ((n, b), i + 1, m', w'))
    (h2 : ∀ c j, isDig c = true → markChar ((n, b), j, m', w') c = some ((n, b), j + 1, m', w')) :
    Runs ((n, a), i, m, w) d ((n, b), i + d.length, m', w') := by
  obtain ⟨_, g2, c, cs, rfl, g3⟩ := numeral_value hd
  refine .cons (h1 c g3) ?_
  rw [show i + (c :: cs).length = i + 1 + cs.length by simp only [List.length_cons]; omega]
  exact runs_while (P := fun d => isDig d = true) h2 cs (i + 1) fun d hd => g2 d (by simp [hd])

theorem dig_not_paren {c : Char} (h : isDig c = true) : c ≠ ')' := by
  rintro rfl
  revert h
  decide

theorem dig19_not_bracket {c : Char} (h : isDig19 c = true) : c ≠ ']' := by
  rintro rfl
  revert h
  decide

theorem runs_closed {z : List Char} (h : Sizes z) : ∀ (n i m w : Nat) {a : Reading}, a.done = true → a ≠ .base →
    ∃ b, Reading.done b = true ∧ Runs ((n, a), i, m, w) z ((n, b), i + z.length, m, w) := by
  induction h with
  | nil => intro n i m w a ha _; exact ⟨a, ha, .nil⟩
  | @cons d s k hd _ ih =>
    intro n i m w a ha hb
    obtain ⟨b, b1, b2⟩ := ih n (i + 1 + d.length + 1) m w (a := .closed) rfl (by decide)
    refine ⟨b, b1, .cons (y := ((n, .opened), i + 1, m, w)) ?_ ?_⟩
    · cases a <;> first | rfl | exact absurd ha (by decide) | exact absurd rfl hb
    refine (runs_digits (m' := m) (w' := w) (b := .count) hd ?_ ?_).append (.cons (y := ((n, .closed), i + 1 + d.length + 1, m, w)) rfl ?_)
    · intro c hc
      simp [markChar, readChar, mark, hc, dig19_not_bracket hc]
    · intro c j hc
      simp [markChar, readChar, mark, hc, dig_not_paren hc]
    · rw [show i + ('[' :: (d ++ ']' :: s)).length = i + 1 + d.length + 1 + s.length by simp; omega]
      exact b2

theorem begins_start {p : List Char} (h : Begins p) {st : Nat × Reading} (hr : readOn (0, .start) p = (st, [])) :
    st.2 = .start := by
  have open1 : ∀ {x : Nat × Reading} {y}, readChar x '(' = some y → y.2 = .start := by
    rintro ⟨n, a⟩ y h
    cases a <;> simp [readChar, afterType, isAlph, isDig, isDig19] at h <;> subst h <;> rfl
  have comma1 : ∀ {x : Nat × Reading} {y}, readChar x ',' = some y → y.2 = .start := by
    rintro ⟨n, a⟩ y h
    cases a <;> simp [readChar, afterType, isAlph, isDig, isDig19] at h <;> (obtain ⟨_, rfl⟩ := h; rfl)
  have one : ∀ {x : Nat × Reading} {c : Char}, readOn x [c] = (st, []) → readChar x c = some st := by
    intro x c h
    cases h1 : readChar x c with
    | none => rw [readOn_stop h1] at h; cases h
    | some y => rw [readOn_cons h1] at h; cases h; rfl
  obtain ⟨q, rfl | rfl⟩ := h
  · obtain ⟨x, _, h2⟩ := read_part hr
    exact open1 (one h2)
  · obtain ⟨x, _, h2⟩ := read_part hr
    exact comma1 (one h2)

/-- The automaton finds the last place where something was tried. -/
theorem lastTry_run {s : List Char} {k : Nat} (h : LastTry s k) {st : Nat × Reading}
    (hr : readOn (0, .start) s = (st, [])) :
    st.2.done = true ∧ ∃ w, Runs ((0, .start), 0, 0, 0) s (st, s.length, k, w) := by
  have done : ∀ {n : Nat} {b : Reading} {w : Nat}, b.done = true →
      Runs ((0, .start), 0, 0, 0) s ((n, b), s.length, k, w) →
      st.2.done = true ∧ ∃ w, Runs ((0, .start), 0, 0, 0) s (st, s.length, k, w) := by
    intro n b w hb h1
    have := h1.read
    rw [hr] at this
    cases this
    exact ⟨hb, w, h1⟩
  have comp : ∀ {p q : List Char}, Begins p → readOn (0, .start) (p ++ q) = (st, []) →
      ∃ n m w, Runs ((0, .start), 0, 0, 0) p ((n, .start), p.length, m, w) := by
    intro p q hp h
    obtain ⟨⟨n, a⟩, h1, _⟩ := read_part h
    have : a = .start := begins_start hp h1
    subst this
    obtain ⟨m, w, h2⟩ := runs_of_read p h1 0 0 0
    rw [Nat.zero_add] at h2
    exact ⟨n, m, w, h2⟩
  cases h with
  | @paren p z hz =>
    obtain ⟨⟨n, a⟩, h1, h2⟩ := read_part hr
    obtain ⟨m, w, h3⟩ := runs_of_read p h1 0 0 0
    rw [Nat.zero_add] at h3
    have h4 : markChar ((n, a), p.length, m, w) ')' = some ((n - 1, .closed), p.length + 1, p.length, w) := by
      cases h5 : readChar (n, a) ')' with
      | none => rw [readOn_stop h5] at h2; cases h2
      | some y =>
        cases a <;> simp [readChar, afterType, isAlph, isDig, isDig19] at h5 <;>
          simp [markChar, readChar, afterType, isAlph, isDig, isDig19, mark, h5]
    obtain ⟨b, b1, b2⟩ := runs_closed hz (n - 1) (p.length + 1) p.length w (a := .closed) rfl (by decide)
    refine done b1 (w := w) (n := n - 1) ?_
    have := h3.append (.cons h4 b2)
    rwa [show p.length + 1 + z.length = (p ++ ')' :: z).length by simp; omega] at this
  | @dynamic p z hz =>
    obtain ⟨⟨n, a⟩, h1, h2⟩ := read_part hr
    obtain ⟨m, w, h3⟩ := runs_of_read p h1 0 0 0
    rw [Nat.zero_add] at h3
    have h4 : ∃ m', markChar ((n, a), p.length, m, w) '[' = some ((n, .opened), p.length + 1, m', w) := by
      cases h5 : readChar (n, a) '[' with
      | none => rw [readOn_stop h5] at h2; cases h2
      | some y =>
        cases a <;> simp [readChar, afterType, isAlph, isDig, isDig19] at h5 <;>
          simp [markChar, readChar, afterType, isAlph, isDig, isDig19, mark]
    obtain ⟨m', h4⟩ := h4
    have h5 : markChar ((n, .opened), p.length + 1, m', w) ']' =
        some ((n, .closed), p.length + 1 + 1, p.length + 1, w) := rfl
    obtain ⟨b, b1, b2⟩ := runs_closed hz n (p.length + 1 + 1) (p.length + 1) w (a := .closed) rfl (by decide)
    refine done b1 (w := w) (n := n) ?_
    have := h3.append (.cons h4 (.cons h5 b2))
    rwa [show p.length + 1 + 1 + z.length = (p ++ '[' :: ']' :: z).length by simp; omega] at this
  | @name p base hp hb =>
    obtain ⟨n, m, w, h1⟩ := comp hp hr
    refine done (b := .base) rfl (w := p.length) (n := n) ?_
    have := h1.append (runs_name hb n p.length m w)
    rwa [← List.length_append] at this
  | @two p base d e z k1 k2 hp hb hd he hz =>
    obtain ⟨n, m, w, h1⟩ := comp hp hr
    have h2 := runs_name hb n p.length m w
    have h3 := runs_digits (n := n) (a := .base) (b := .num) (i := p.length + base.length) (m := p.length)
      (w := p.length) (m' := p.length + base.length) (w' := p.length) hd
      (fun c hc => by simp [markChar, readChar, mark, hc, dig19_not_alph hc])
      (fun c j hc => by simp [markChar, readChar, mark, hc, dig_not_paren hc])
    have h4 : markChar ((n, .num), p.length + base.length + d.length, p.length + base.length, p.length) 'x' =
        some ((n, .times), p.length + base.length + d.length + 1, p.length + base.length, p.length) := rfl
    have h5 := runs_digits (n := n) (a := .times) (b := .num2) (i := p.length + base.length + d.length + 1)
      (m := p.length + base.length) (w := p.length) (m' := p.length) (w' := p.length) he
      (fun c hc => by simp [markChar, readChar, mark, hc])
      (fun c j hc => by simp [markChar, readChar, mark, hc, dig_not_paren hc])
    obtain ⟨b, b1, b2⟩ := runs_closed hz n (p.length + base.length + d.length + 1 + e.length) p.length p.length
      (a := .num2) rfl (by decide)
    refine done b1 (w := p.length) (n := n) ?_
    have := h1.append (h2.append (h3.append (.cons h4 (h5.append b2))))
    rwa [show p.length + base.length + d.length + 1 + e.length + z.length =
      (p ++ (base ++ (d ++ 'x' :: (e ++ z)))).length by simp; omega] at this
  | @number p base d z k1 hp hb hd hz =>
    obtain ⟨n, m, w, h1⟩ := comp hp hr
    have h2 := runs_name hb n p.length m w
    have h3 := runs_digits (n := n) (a := .base) (b := .num) (i := p.length + base.length) (m := p.length)
      (w := p.length) (m' := p.length + base.length) (w' := p.length) hd
      (fun c hc => by simp [markChar, readChar, mark, hc, dig19_not_alph hc])
      (fun c j hc => by simp [markChar, readChar, mark, hc, dig_not_paren hc])
    obtain ⟨b, b1, b2⟩ := runs_closed hz n (p.length + base.length + d.length) (p.length + base.length) p.length
      (a := .num) rfl (by decide)
    refine done b1 (w := p.length) (n := n) ?_
    have := h1.append (h2.append (h3.append b2))
    rwa [show p.length + base.length + d.length + z.length = (p ++ (base ++ (d ++ z))).length by simp; omega] at this
  | @size p base d z k1 hp hb hd hz =>
    obtain ⟨n, m, w, h1⟩ := comp hp hr
    have h2 := runs_name hb n p.length m w
    have h3 : markChar ((n, .base), p.length + base.length, p.length, p.length) '[' =
        some ((n, .opened), p.length + base.length + 1, p.length + base.length, p.length) := rfl
    have h4 := runs_digits (n := n) (a := .opened) (b := .count) (i := p.length + base.length + 1)
      (m := p.length + base.length) (w := p.length) (m' := p.length + base.length) (w' := p.length) hd
      (fun c hc => by simp [markChar, readChar, mark, hc, dig19_not_bracket hc])
      (fun c j hc => by simp [markChar, readChar, mark, hc, dig_not_paren hc])
    have h5 : markChar ((n, .count), p.length + base.length + 1 + d.length, p.length + base.length, p.length) ']' =
        some ((n, .closed), p.length + base.length + 1 + d.length + 1, p.length + base.length, p.length) := rfl
    obtain ⟨b, b1, b2⟩ := runs_closed hz n (p.length + base.length + 1 + d.length + 1) (p.length + base.length) p.length
      (a := .closed) rfl (by decide)
    refine done b1 (w := p.length) (n := n) ?_
    have := h1.append (h2.append (.cons h3 (h4.append (.cons h5 b2))))
    rwa [show p.length + base.length + 1 + d.length + 1 + z.length =
      (p ++ (base ++ ('[' :: (d ++ ']' :: z)))).length by simp; omega] at this

theorem lastTry_unique {s : List Char} {j k : Nat} (hs : Viable s) (hj : LastTry s j) (hk : LastTry s k) : j = k := by
  rw [viable_iff] at hs
  obtain ⟨_, w1, h1⟩ := lastTry_run hj (st := (readOn (0, .start) s).1) (by rw [← hs])
  obtain ⟨_, w2, h2⟩ := lastTry_run hk (st := (readOn (0, .start) s).1) (by rw [← hs])
  have := h1.unique h2
  simp only [Prod.mk.injEq] at this
  exact this.2.2.1

theorem lastTry_le {s : List Char} {k : Nat} (h : LastTry s k) : k ≤ s.length := by
  cases h <;> simp

/-! ## Where the error is said to be -/

theorem errorPos_points [Ext] {s : List Char} (h : ¬ IsTypeStr s) : ∃ k, errorPos s = some k ∧ PointsAt s k := by
  have key := (pType_pNexts_read (s.length + 1)).1 s (by omega)
  have hsplit := readOn_split s (0, .start)
  unfold errorPos
  cases h1 : pType (s.length + 1) s with
  | none =>
    obtain ⟨m, b, stop, k, g1, g2, g3, g4, g5⟩ := key.2 h1
    have hr := g1 0
    rw [Nat.zero_add] at hr
    rw [hr] at hsplit
    obtain ⟨v, e1, e2, _⟩ := hsplit
    simp only at e1 e2
    simp only [record_all g5]
    refine ⟨_, rfl, v, longest_iff.2 (by rw [hr]; exact e1), ?_⟩
    have whole : v = s → stop = [] ∧ readOn (0, .start) s = ((m, b), []) := by
      rintro rfl
      have : stop = [] := by
        have := congrArg List.length e1
        simp only [List.length_append] at this
        exact List.length_eq_zero_iff.1 (by omega)
      exact ⟨this, by rw [e2]⟩
    rcases g3 with ⟨g3, g3', rfl⟩ | ⟨rfl, u, d, n, d1, d2, d3⟩ | ⟨g6, g7, g8⟩
    · right
      refine ⟨fun ⟨t1, t2, j, t3⟩ => ?_, Or.inr ⟨?_, by rw [e1]; simp⟩⟩
      · obtain ⟨t4, t5⟩ := whole t2
        exact g3' ⟨⟨t4, t1⟩, (lastTry_run t3 t5).1⟩
      intro p hp
      generalize hv : v = v' at hp
      cases hp with
      | size hd => exact g3 (not_unfinished_size hd hv e2)
      | last hp1 hp2 =>
        subst hv
        obtain ⟨t, ht⟩ := hp1
        obtain ⟨a, a1, a2⟩ := read_type ht
        rw [readOn_append _ a2] at e2
        rename_i c
        cases h3 : readChar (0, a) c with
        | none => rw [readOn_stop h3] at e2; cases e2
        | some st =>
          rw [readOn_cons h3] at e2
          cases e2
          have := read_done (done_ne_start a1) h3
          rcases g2 with g2 | g2
          · exact absurd this.1 (by simp only; omega)
          · exact this.2 g2
    · right
      refine ⟨fun ⟨t1, t2, j, t3⟩ => absurd (lastTry_run t3 (whole t2).2).1 (by simp [Reading.done]), Or.inl ?_⟩
      have hv : v = u ++ '[' :: d := by
        have : u ++ '[' :: d ++ stop = v ++ stop := by rw [← e1, d2]; simp
        exact (List.append_cancel_right this).symm
      refine ⟨u, hv ▸ .size d1, ?_⟩
      rw [d2, d3]
      simp
      omega
    · left
      have hv : v = s := by rw [e1, g7.1, List.append_nil]
      exact ⟨g7.2, hv, g8.2 []⟩
  | some q =>
    obtain ⟨t, rest⟩ := q
    obtain ⟨p, hp, hd⟩ := (pType_pNexts_sound _).1 _ _ _ h1
    obtain ⟨_, a, a1, a2, a3, _⟩ := key.1 t rest h1
    obtain ⟨b, stop, hb, hr⟩ := readOn_blocked a1 a2
    replace hr := hr 0 (Or.inl rfl)
    rw [← a3 0] at hr
    rw [hr] at hsplit
    obtain ⟨v, e1, e2, _⟩ := hsplit
    simp only at e1 e2
    have hne : rest ≠ [] := by
      rintro rfl
      rw [List.append_nil] at hp
      exact h ⟨t, hp ▸ hd⟩
    have hk : s.length - rest.length = p.length := by rw [hp]; simp
    refine ⟨p.length, by
      cases rest with
      | nil => exact absurd rfl hne
      | cons c cs => rw [← hk], v, longest_iff.2 (by rw [hr]; exact e1), Or.inr ⟨fun ⟨_, t2, j, t3⟩ => ?_, ?_⟩⟩
    · subst t2
      exact h (type_of_read (lastTry_run t3 e2).1 e2)
    cases hb with
    | here _ =>
      have hv : v = p := List.append_cancel_right (e1.symm.trans hp)
      subst hv
      right
      refine ⟨?_, rfl⟩
      intro p' hp'
      generalize hw : v = w at hp'
      cases hp' with
      | size hd' =>
        have := not_unfinished_size hd' hw e2
        simp only at this
        subst this
        exact absurd a1 (by decide)
      | last _ h2 => exact h2 (hw ▸ ⟨t, hd⟩)
    | times e _ =>
      left
      have hv : v = p ++ ['x'] := by
        have : v ++ stop = p ++ ['x'] ++ stop := by rw [← e1, hp, e]; simp
        exact List.append_cancel_right this
      refine ⟨p, hv ▸ .last ⟨t, hd⟩ ?_, rfl⟩
      rw [← hv]
      rintro ⟨t', ht'⟩
      obtain ⟨c, c1, c2⟩ := read_type ht'
      rw [e2] at c2
      cases c2
      exact absurd c1 (by decide)
    | opened e _ =>
      left
      have hv : v = p ++ ['['] := by
        have : v ++ stop = p ++ ['['] ++ stop := by rw [← e1, hp, e]; simp
        exact List.append_cancel_right this
      refine ⟨p, hv ▸ .last ⟨t, hd⟩ ?_, rfl⟩
      rw [← hv]
      rintro ⟨t', ht'⟩
      obtain ⟨c, c1, c2⟩ := read_type ht'
      rw [e2] at c2
      cases c2
      exact absurd c1 (by decide)
    | count hd' e e' =>
      rename_i d m _
      left
      have hv : v = p ++ '[' :: d := by
        have : v ++ stop = p ++ '[' :: d ++ stop := by rw [← e1, hp, e]; simp
        exact List.append_cancel_right this
      exact ⟨p, hv ▸ .size hd', rfl⟩

/-- Something was tried for the last time exactly where a `)` could follow. -/
theorem lastTry_iff {s : List Char} (hv : Viable s) (h : ¬ IsTypeStr s) : (∃ k, LastTry s k) ↔ Viable (s ++ [')']) := by
  have hv' := (viable_iff s).1 hv
  have hr : readOn (0, .start) s = ((readOn (0, .start) s).1, []) := by rw [← hv']
  generalize (readOn (0, .start) s).1 = st at hr
  obtain ⟨n, b⟩ := st
  rw [viable_iff, readOn_append _ hr]
  constructor
  · rintro ⟨k, hk⟩
    have hd := (lastTry_run hk hr).1
    cases n with
    | zero => exact absurd (type_of_read hd hr) h
    | succ n => rw [readOn_cons (read_paren n hd)]; rfl
  · intro hp
    have hd : b.done = true := by
      cases h5 : readChar (n, b) ')' with
      | none => rw [readOn_stop h5] at hp; cases hp
      | some y => cases b <;> first | rfl | simp [readChar, isAlph, isDig, isDig19] at h5
    let _ : Ext := ⟨fun _ _ => 0, fun _ => false, none, by simp, false⟩
    have key := (pType_pNexts_read (s.length + 1)).1 s (by omega)
    cases h1 : pType (s.length + 1) s with
    | none =>
      obtain ⟨m, a, stop, k, g1, _, g3, _⟩ := key.2 h1
      have := g1 0
      rw [hr] at this
      simp only [Prod.mk.injEq] at this
      obtain ⟨⟨_, rfl⟩, rfl⟩ := this
      rcases g3 with ⟨_, g3, _⟩ | ⟨rfl, _⟩ | ⟨_, _, g3⟩
      · exact absurd ⟨⟨rfl, rfl⟩, hd⟩ g3
      · exact absurd hd (by decide)
      · exact ⟨_, g3.2 []⟩
    | some q =>
      obtain ⟨t, rest⟩ := q
      obtain ⟨_, a, a1, a2, a3, _⟩ := key.1 t rest h1
      have h2 := read_flat rest (done_ne_start a1)
      rw [← a3 0, hr] at h2
      obtain ⟨rfl, _⟩ := h2
      exact absurd (type_of_read hd hr) h

/-- The parser takes the longest type string that the string begins with. -/
theorem pType_longest {s p : List Char} (hp : IsTypeStr p) (hs : p <+: s) :
    ∃ t p' rest, pType (s.length + 1) s = some (t, rest) ∧ s = p' ++ rest ∧ Derives t p' ∧ p.length ≤ p'.length := by
  let _ := someExt
  obtain ⟨z, rfl⟩ := hs
  obtain ⟨t0, h0⟩ := hp
  obtain ⟨b, b1, b2⟩ := read_type h0
  have key := (pType_pNexts_read ((p ++ z).length + 1)).1 (p ++ z) (by omega)
  have hz := read_flat z (done_ne_start b1)
  rw [← readOn_append z b2] at hz
  cases h1 : pType ((p ++ z).length + 1) (p ++ z) with
  | none =>
    obtain ⟨m, a, stop, k, g1, g2, _⟩ := key.2 h1
    rw [g1 0] at hz
    simp only at hz
    rcases g2 with g2 | g2
    · omega
    · exact absurd g2 hz.2
  | some q =>
    obtain ⟨t, rest⟩ := q
    obtain ⟨p', hp', hd⟩ := (pType_pNexts_sound _).1 _ _ _ h1
    refine ⟨t, p', rest, rfl, hp', hd, ?_⟩
    by_contra hlt
    obtain ⟨_, a, a1, a2, a3, _⟩ := key.1 t rest h1
    obtain ⟨c, stop, hc, hr⟩ := readOn_blocked a1 a2
    replace hr := hr 0 (Or.inl rfl)
    have hx : ∃ x, p = p' ++ x ∧ rest = x ++ z ∧ x ≠ [] := by
      rcases List.append_eq_append_iff.1 hp' with ⟨y, e1, e2⟩ | ⟨y, e1, e2⟩
      · rw [e1] at hlt; simp at hlt
      · refine ⟨y, e1, e2, ?_⟩
        rintro rfl
        rw [e1] at hlt
        simp at hlt
    obtain ⟨x, rfl, rfl, hx⟩ := hx
    obtain ⟨st, _, hst⟩ := read_part b2
    have e : readOn (0, b) z = ((0, c), stop) := by
      rw [← hr, ← a3 0, readOn_append z b2]
    obtain ⟨y, hy, _, _⟩ := readOn_split z (0, b)
    rw [e] at hy
    simp only at hy
    have hlen : x.length ≠ 0 := fun h => hx (List.length_eq_zero_iff.1 h)
    cases hc with
    | here _ =>
      have := congrArg List.length hy
      simp only [List.length_append] at this
      omega
    | times e2 _ =>
      have h2 : z = stop := by
        have h3 := congrArg List.length hy
        have h4 := congrArg List.length e2
        simp only [List.length_append, List.length_cons] at h3 h4
        have h5 : y = [] := List.length_eq_zero_iff.1 (by omega)
        rw [hy, h5]; rfl
      subst h2
      have := readOn_same (by rw [e] : (readOn (0, b) z).2 = z)
      rw [e] at this
      cases this
      exact absurd b1 (by decide)
    | opened e2 _ =>
      cases x with
      | nil => exact hx rfl
      | cons d ds =>
        have h3 := congrArg List.length hy
        have h4 := congrArg List.length e2
        simp only [List.length_append, List.length_cons] at h3 h4
        have h5 : ds = [] := List.length_eq_zero_iff.1 (by omega)
        subst h5
        cases e2
        rcases read_size (by intro c hc; cases hc) hst with ⟨h6, _⟩ | h6 <;>
          · simp only at h6; subst h6; exact absurd b1 (by decide)
    | count hd' e2 _ =>
      rename_i d m _
      cases x with
      | nil => exact hx rfl
      | cons c' ds =>
        rw [List.cons_append] at e2
        injection e2 with e3 e4
        subst e3
        rw [hy, ← List.append_assoc] at e4
        have e5 := List.append_cancel_right e4
        have hds : ∀ c ∈ ds, isDig c = true := fun c hc =>
          (numeral_digits hd').1 c (by rw [← e5]; exact List.mem_append_left _ hc)
        rcases read_size hds hst with ⟨h6, _⟩ | h6 <;>
          · simp only at h6; subst h6; exact absurd b1 (by decide)

theorem unfinished_unique {v p q : List Char} (hp : Unfinished v p) (hq : Unfinished v q) : p = q := by
  have mixed : ∀ {p q d : List Char} {n : Nat} {c : Char}, Numeral n d → p ++ '[' :: d = q ++ [c] → IsTypeStr q →
      False := by
    intro p q d n c hd e ⟨t, ht⟩
    obtain ⟨b, b1, b2⟩ := read_type ht
    obtain ⟨h1, h2⟩ := numeral_digits hd
    have e' : q = p ++ '[' :: d.dropLast := by
      have := congrArg List.dropLast e
      rw [List.dropLast_concat, List.dropLast_append_of_ne_nil (by simp)] at this
      rw [← this]
      cases d with
      | nil => exact absurd rfl h2
      | cons x xs => rfl
    rw [e'] at b2
    obtain ⟨st, _, h4⟩ := read_part b2
    rcases read_size (fun x hx => h1 x (List.dropLast_subset _ hx)) h4 with ⟨h5, _⟩ | h5
    · simp only at h5; subst h5; exact absurd b1 (by decide)
    · simp only at h5; subst h5; exact absurd b1 (by decide)
  cases hp with
  | size h1 =>
    rename_i d n
    generalize hv : p ++ '[' :: d = v' at hq
    cases hq with
    | size h2 =>
      rename_i d' n'
      have no : ∀ {d : List Char} {n : Nat}, Numeral n d → '[' ∉ d := by
        intro d n hd hm
        exact absurd ((numeral_digits hd).1 _ hm) (by decide)
      rcases List.append_eq_append_iff.1 hv with ⟨a, e1, e2⟩ | ⟨a, e1, e2⟩
      · cases a with
        | nil => simpa using e1.symm
        | cons x xs =>
          simp only [List.cons_append, List.cons.injEq] at e2
          exact absurd (by rw [e2.2]; simp) (no h1)
      · cases a with
        | nil => simpa using e1
        | cons x xs =>
          simp only [List.cons_append, List.cons.injEq] at e2
          exact absurd (by rw [e2.2]; simp) (no h2)
    | last h2 _ => exact absurd (mixed h1 hv h2) not_false
  | last h1 h1' =>
    rename_i c
    generalize hv : p ++ [c] = v' at hq
    cases hq with
    | size h2 => exact absurd (mixed h2 hv.symm h1) not_false
    | last _ _ => exact (List.append_inj' hv rfl).1

/-- There is only one such place. -/
theorem pointsAt_unique [Ext] {s : List Char} {j k : Nat} (hj : PointsAt s j) (hk : PointsAt s k) : j = k := by
  obtain ⟨v, v1, v2⟩ := hj
  obtain ⟨w, w1, w2⟩ := hk
  have : v = w := List.append_cancel_right ((longest_iff.1 v1).symm.trans (longest_iff.1 w1))
  subst this
  rcases v2 with ⟨p1, p2, p3⟩ | ⟨p1, p2⟩ <;> rcases w2 with ⟨q1, q2, q3⟩ | ⟨q1, q2⟩
  · exact lastTry_unique (p2 ▸ v1.1) p3 q3
  · exact absurd ⟨p1, p2, j, p3⟩ q1
  · exact absurd ⟨q1, q2, k, q3⟩ p1
  rcases p2 with ⟨p, p1, rfl⟩ | ⟨p1, rfl⟩ <;> rcases q2 with ⟨q, q1, rfl⟩ | ⟨q1, rfl⟩
  · rw [unfinished_unique p1 q1]
  · exact absurd p1 (q1 p)
  · exact absurd q1 (p1 q)
  · rfl

theorem pointsAt_le [Ext] {s : List Char} {k : Nat} (h : PointsAt s k) : k ≤ s.length ∧ Viable (s.take k) := by
  obtain ⟨v, ⟨h1, rest, rfl, _⟩, h2⟩ := h
  have pre : ∀ {p q : List Char}, Viable (p ++ q) → Viable p := by
    rintro p q ⟨r, hr⟩
    exact ⟨q ++ r, by rw [← List.append_assoc]; exact hr⟩
  rcases h2 with ⟨_, e, h2⟩ | ⟨_, ⟨p, hp, rfl⟩ | ⟨_, rfl⟩⟩
  · refine ⟨lastTry_le h2, pre (q := (v ++ rest).drop k) ?_⟩
    rw [List.take_append_drop, ← e]
    exact h1
  · have : ∃ q, v = p ++ q := by
      cases hp with
      | size _ => exact ⟨_, rfl⟩
      | last _ _ => exact ⟨_, rfl⟩
    obtain ⟨q, rfl⟩ := this
    refine ⟨by simp, ?_⟩
    rw [List.append_assoc, List.take_left' rfl]
    exact pre h1
  · refine ⟨by simp, ?_⟩
    rw [List.take_left' rfl]
    exact h1

/-- There is no line break in a type string. -/
theorem viable_no_newline {w : List Char} (h : Viable w) : '\n' ∉ w := by
  rw [viable_iff] at h
  have : ∀ (w : List Char) (st : Nat × Reading), (readOn st w).2 = [] → '\n' ∉ w := by
    intro w
    induction w with
    | nil => intro _ _ hm; cases hm
    | cons c cs ih =>
      intro st hs hm
      cases h1 : readChar st c with
      | none => rw [readOn_stop h1] at hs; cases hs
      | some st' =>
        rw [readOn_cons h1] at hs
        rcases List.mem_cons.1 hm with rfl | hm
        · obtain ⟨n, a⟩ := st
          cases a <;> simp [readChar, afterType, isAlph, isDig, isDig19] at h1
        · exact ih st' hs hm
  exact this w _ h

theorem columnAt_eq [Ext] {s : List Char} {k : Nat} (h : PointsAt s k) : columnAt s k = k + 1 := by
  have := viable_no_newline (pointsAt_le h).2
  unfold columnAt
  have e : (s.take k).reverse.findIdx? (· == '\n') = none := by
    rw [List.findIdx?_eq_none_iff]
    intro x hx
    rw [List.mem_reverse] at hx
    simp only [beq_eq_false_iff_ne, ne_eq]
    rintro rfl
    exact this hx
  rw [e]

end EthAbi
