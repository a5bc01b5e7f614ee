import Verif.Lemmas.Strings
import Verif.Spec.Located

/-! # Nodes of parsed types -/
namespace EthAbi
open Spec

mutual
/-- The type with the nodes it has when its name stands in `full` after `p` characters. -/
def locate (full : List Char) (p : Nat) : ABIType → NType
  | .basic b s a => .basic b s a (some ⟨p, (ABIType.basic b s a).toTypeStr, full⟩)
  | .tuple cs a => .tuple (locateAll full (p + 1) cs) a (some ⟨p, (ABIType.tuple cs a).toTypeStr, full⟩)
/-- The same for components. -/
def locateAll (full : List Char) (p : Nat) : List ABIType → List NType
  | [] => []
  | c :: cs => locate full p c :: locateAll full (p + c.toTypeStr.length + 1) cs
end

theorem nodeOf_eq {full pre w r : List Char} (h : full = pre ++ (w ++ r)) :
    nodeOf full (w ++ r) r = some ⟨pre.length, w, full⟩ := by
  subst h
  unfold nodeOf
  congr 2
  · simp
  · simp

theorem nBasic_eq {full pre s : List Char} (h : full = pre ++ s) (fuel : Nat) :
    nBasic full fuel s = (pBasic fuel s).map fun x => (locate full pre.length x.1, x.2) := by
  cases hp : pBasic fuel s with
  | none =>
    unfold pBasic at hp
    unfold nBasic
    split at hp
    · cases hp
    · next h1 => rw [h1]; rfl
  | some x =>
    obtain ⟨w, e, d⟩ := pBasic_sound (t := x.1) (rest := x.2) hp
    unfold pBasic at hp
    unfold nBasic
    split at hp
    · next base r h1 =>
      rw [h1]
      simp only [Option.some.injEq] at hp
      subst hp
      simp only at e d
      simp only [Option.map_some, locate]
      rw [derives_str d] at e
      have := nodeOf_eq (full := full) (pre := pre) (w := (ABIType.basic base (pSub r).1 (pArr fuel (pSub r).2).1).toTypeStr)
        (r := (pArr fuel (pSub r).2).2) (by rw [← e]; exact h)
      rw [← this, ← e]
    · cases hp

theorem nType_nNexts_eq (full : List Char) (fuel : Nat) :
    (∀ pre s, full = pre ++ s →
      nType full fuel s = (pType fuel s).map fun x => (locate full pre.length x.1, x.2)) ∧
    (∀ pre s, full = pre ++ s →
      nNexts full fuel s = (locateAll full (pre.length + 1) (pNexts fuel s).1, (pNexts fuel s).2)) := by
  induction fuel with
  | zero => exact ⟨fun _ _ _ => rfl, fun _ _ _ => rfl⟩
  | succ fuel ih =>
    constructor
    · intro pre s h
      by_cases hs : ∃ r, s = '(' :: r
      · obtain ⟨r, rfl⟩ := hs
        have e1 := ih.1 (pre ++ ['(']) r (by rw [h]; simp)
        cases hp1 : pType fuel r with
        | none =>
          rw [hp1] at e1
          simp only [Option.map_none] at e1
          simp only [nType, pType, hp1, e1]
          exact nBasic_eq h fuel
        | some x =>
          obtain ⟨t, r1⟩ := x
          rw [hp1] at e1
          simp only [Option.map_some] at e1
          obtain ⟨w1, e1', d1⟩ := (pType_pNexts_sound fuel).1 _ _ _ hp1
          have e2 := ih.2 (pre ++ ['('] ++ w1) r1 (by rw [h, e1']; simp)
          cases hp2 : pNexts fuel r1 with
          | mk ts r2 =>
            rw [hp2] at e2
            simp only at e2
            by_cases hr2 : ∃ r3, r2 = ')' :: r3
            · obtain ⟨r3, rfl⟩ := hr2
              have hpt : pType (fuel + 1) ('(' :: r) = some (.tuple (t :: ts) (pArr fuel r3).1, (pArr fuel r3).2) := by
                simp only [pType, hp1, hp2]
              obtain ⟨w, e, d⟩ := (pType_pNexts_sound _).1 _ _ _ hpt
              have hw := derives_str d
              rw [hpt]
              simp only [nType, e1, e2, Option.map_some, locate, locateAll]
              rw [e, nodeOf_eq (by rw [← e]; exact h), hw, derives_str d1]
              simp only [List.length_append, List.length_cons, List.length_nil]
            · have hpt : pType (fuel + 1) ('(' :: r) = pBasic fuel ('(' :: r) := by
                simp only [pType, hp1, hp2]
                split
                · next heq => cases heq; exact absurd ⟨_, rfl⟩ hr2
                · rfl
              have hnt : nType full (fuel + 1) ('(' :: r) = nBasic full fuel ('(' :: r) := by
                simp only [nType, e1, e2]
                split
                · next heq => cases heq; exact absurd ⟨_, rfl⟩ hr2
                · rfl
              rw [hpt, hnt]
              exact nBasic_eq h fuel
      · have hpt : pType (fuel + 1) s = pBasic fuel s := by
          simp only [pType]
          split
          · next r => exact absurd ⟨r, rfl⟩ hs
          · rfl
        have hnt : nType full (fuel + 1) s = nBasic full fuel s := by
          simp only [nType]
          split
          · next r => exact absurd ⟨r, rfl⟩ hs
          · rfl
        rw [hpt, hnt]
        exact nBasic_eq h fuel
    · intro pre s h
      by_cases hs : ∃ r, s = ',' :: r
      · obtain ⟨r, rfl⟩ := hs
        have e1 := ih.1 (pre ++ [',']) r (by rw [h]; simp)
        cases hp1 : pType fuel r with
        | none =>
          rw [hp1] at e1
          simp only [Option.map_none] at e1
          simp only [nNexts, pNexts, hp1, e1, locateAll]
        | some x =>
          obtain ⟨t, r1⟩ := x
          rw [hp1] at e1
          simp only [Option.map_some] at e1
          obtain ⟨w1, e1', d1⟩ := (pType_pNexts_sound fuel).1 _ _ _ hp1
          have e2 := ih.2 (pre ++ [','] ++ w1) r1 (by rw [h, e1']; simp)
          simp only [nNexts, pNexts, hp1, e1, e2, locateAll, List.length_append, List.length_cons,
            List.length_nil]
          rw [derives_str d1]
      · have hpt : pNexts (fuel + 1) s = ([], s) := by
          simp only [pNexts]
          split
          · next r => exact absurd ⟨r, rfl⟩ hs
          · rfl
        have hnt : nNexts full (fuel + 1) s = ([], s) := by
          simp only [nNexts]
          split
          · next r => exact absurd ⟨r, rfl⟩ hs
          · rfl
        rw [hpt, hnt]
        rfl

mutual
theorem erase_locate (full : List Char) : ∀ (p : Nat) (a : ABIType), (locate full p a).erase = a
  | p, .basic b s a => rfl
  | p, .tuple cs a => by rw [locate, NType.erase, eraseAll_locate full (p + 1) cs]
theorem eraseAll_locate (full : List Char) : ∀ (p : Nat) (cs : List ABIType),
    NType.eraseAll (locateAll full p cs) = cs
  | p, [] => rfl
  | p, c :: cs => by rw [locateAll, NType.eraseAll, erase_locate full p c, eraseAll_locate full _ cs]
end

theorem parseN_eq [Ext] (s : TypeStr) : parseN s = (parse s).map (locate s 0) := by
  unfold parseN parse
  rw [(nType_nNexts_eq s (s.length + 1)).1 [] s rfl]
  cases hp : pType (s.length + 1) s with
  | none => simp only [Option.map_none]; split <;> rfl
  | some x =>
    obtain ⟨t, r⟩ := x
    cases r with
    | nil =>
      simp only [Option.map_some, List.length_nil, erase_locate]
      split <;> rfl
    | cons c r => simp only [Option.map_some]; split <;> rfl

/-! ## Words between delimiters -/

theorem wordAt_join {x y : List Char} {d : Char} (hd : IsDelimiter d) {p : Nat} {w : List Char} :
    WordAt (x ++ d :: y) p w ↔ WordAt x p w ∨ ∃ q, p = x.length + 1 + q ∧ WordAt y q w := by
  constructor
  · rintro ⟨pre, post, e, rfl, ⟨c, hc, hl⟩, hw, h1, h2⟩
    rw [List.append_assoc, List.append_eq_append_iff] at e
    rcases e with ⟨a, rfl, e⟩ | ⟨a, rfl, e⟩
    · right
      cases a with
      | nil =>
        exfalso
        cases w with
        | nil => cases hc
        | cons c' w =>
          simp only [List.nil_append, List.cons_append, List.cons.injEq] at e
          exact hw c' (by simp) (e.1 ▸ hd)
      | cons d' a =>
        simp only [List.cons_append, List.cons.injEq] at e
        obtain ⟨rfl, rfl⟩ := e
        refine ⟨a.length, by simp; omega, a, post, by simp, rfl, ⟨c, hc, hl⟩, hw, fun c' hc' => h1 c' ?_, h2⟩
        cases a with
        | nil => cases hc'
        | cons a0 a =>
          rw [List.getLast?_append, List.getLast?_cons_cons, hc']
          rfl
    · left
      rw [List.append_eq_append_iff] at e
      rcases e with ⟨b, rfl, e⟩ | ⟨b, rfl, e⟩
      · refine ⟨pre, b, by simp, rfl, ⟨c, hc, hl⟩, hw, h1, fun c' hc' => h2 c' ?_⟩
        rw [e]
        cases b with
        | nil => cases hc'
        | cons => exact hc'
      · cases b with
        | nil =>
          simp only [List.append_nil] at hc hw ⊢
          exact ⟨pre, [], by simp, rfl, ⟨c, hc, hl⟩, hw, h1, fun c' hc' => by cases hc'⟩
        | cons d' b =>
          simp only [List.cons_append, List.cons.injEq] at e
          exact absurd hd (hw d (by simp [e.1]))
  · rintro (⟨pre, post, rfl, rfl, hc, hw, h1, h2⟩ | ⟨q, rfl, pre, post, rfl, rfl, hc, hw, h1, h2⟩)
    · refine ⟨pre, post ++ d :: y, by simp, rfl, hc, hw, h1, fun c' hc' => ?_⟩
      cases post with
      | nil => cases hc'; exact hd
      | cons => exact h2 c' hc'
    · refine ⟨x ++ d :: pre, post, by simp, by simp; omega, hc, hw, fun c' hc' => ?_, h2⟩
      cases pre with
      | nil =>
        rw [List.getLast?_append] at hc'
        cases hc'
        exact hd
      | cons a pre =>
        refine h1 c' ?_
        rw [List.getLast?_append, List.getLast?_cons_cons] at hc'
        cases h : (a :: pre).getLast? with
        | none => simp at h
        | some z => rw [h] at hc'; exact hc'

theorem wordAt_plain {s : List Char} (hs : ∀ c ∈ s, ¬ IsDelimiter c) {p : Nat} {w : List Char} :
    WordAt s p w ↔ p = 0 ∧ w = s ∧ ∃ c, s.head? = some c ∧ IsLetter c := by
  constructor
  · rintro ⟨pre, post, rfl, rfl, hc, hw, h1, h2⟩
    have hpre : pre = [] := by
      cases h : pre.getLast? with
      | none => simpa using h
      | some c => exact absurd (h1 c h) (hs c (by simp [List.mem_of_getLast? h]))
    have hpost : post = [] := by
      cases post with
      | nil => rfl
      | cons c post => exact absurd (h2 c rfl) (hs c (by simp))
    subst hpre hpost
    simpa using hc
  · rintro ⟨rfl, rfl, hc⟩
    exact ⟨[], [], by simp, rfl, hc, hs, fun c h => (by cases h), fun c h => (by cases h)⟩

/-! ## The elementary types in a type -/

mutual
/-- The elementary types of a type, each with its position. -/
def leaves : Nat → ABIType → List (Nat × ABIType)
  | p, .basic b s a => [(p, .basic b s a)]
  | p, .tuple cs _ => leavesAll (p + 1) cs
/-- The same for components. -/
def leavesAll : Nat → List ABIType → List (Nat × ABIType)
  | _, [] => []
  | p, c :: cs => leaves p c ++ leavesAll (p + c.toTypeStr.length + 1) cs
end

theorem letter_plain {c : Char} (h : IsLetter c) : ¬ IsDelimiter c := by
  rintro (rfl | rfl | rfl) <;> revert h <;> unfold IsLetter <;> decide

theorem numeral_plain {n : Nat} {w : List Char} (h : Numeral n w) : ∀ c ∈ w, ¬ IsDelimiter c := by
  have key : ∀ c : Char, '0' ≤ c → c ≤ '9' → ¬ IsDelimiter c := by
    rintro c h1 h2 (rfl | rfl | rfl)
    · revert h1 h2; decide
    · revert h1 h2; decide
    · revert h1 h2; decide
  induction h with
  | one h1 h2 =>
    intro c hc
    simp only [List.mem_singleton] at hc
    subst hc
    exact key _ (Char.le_trans (show '0' ≤ '1' by decide) h1) h2
  | snoc _ h1 h2 ih =>
    intro c hc
    rw [List.mem_append, List.mem_singleton] at hc
    rcases hc with hc | rfl
    · exact ih c hc
    · exact key _ h1 h2

theorem sub_plain {sub : Sub} {w : List Char} (h : DerivesSub sub w) : ∀ c ∈ w, ¬ IsDelimiter c := by
  cases h with
  | none => intro c hc; cases hc
  | one h => exact numeral_plain h
  | two h1 h2 =>
    intro c hc
    simp only [List.mem_append, List.mem_singleton] at hc
    rcases hc with (hc | rfl) | hc
    · exact numeral_plain h1 c hc
    · unfold IsDelimiter; decide
    · exact numeral_plain h2 c hc

theorem dims_plain {ds : List (Option Nat)} {w : List Char} (h : DerivesDims ds w) :
    (∀ c ∈ w, ¬ IsDelimiter c) ∧ ∀ c, w.head? = some c → ¬ IsLetter c := by
  have h1 : ¬ IsDelimiter '[' := by unfold IsDelimiter; decide
  have h2 : ¬ IsDelimiter ']' := by unfold IsDelimiter; decide
  have h3 : ¬ IsLetter '[' := by unfold IsLetter; decide
  induction h with
  | nil => exact ⟨fun c hc => (by cases hc), fun c hc => (by cases hc)⟩
  | dynamic _ ih =>
    refine ⟨fun c hc => ?_, fun c hc => by cases hc; exact h3⟩
    simp only [List.cons_append, List.nil_append, List.mem_cons] at hc
    rcases hc with rfl | rfl | hc
    · exact h1
    · exact h2
    · exact ih.1 c hc
  | sized hn _ ih =>
    refine ⟨fun c hc => ?_, fun c hc => by cases hc; exact h3⟩
    simp only [List.cons_append, List.nil_append, List.mem_cons, List.mem_append, List.append_assoc] at hc
    rcases hc with rfl | hc | rfl | hc
    · exact h1
    · exact numeral_plain hn c hc
    · exact h2
    · exact ih.1 c hc

theorem wordAt_dims {ds : List (Option Nat)} {s : List Char} (h : DerivesDims ds s) {p : Nat} {w : List Char} :
    ¬ WordAt s p w := by
  rw [wordAt_plain (dims_plain h).1]
  rintro ⟨_, _, c, hc, hl⟩
  exact (dims_plain h).2 c hc hl

theorem wordAt_nil {p : Nat} {w : List Char} : ¬ WordAt [] p w := wordAt_dims .nil

mutual
theorem leaves_range : ∀ {p : Nat} {a : ABIType} {x : Nat × ABIType}, x ∈ leaves p a →
    p ≤ x.1 ∧ x.1 < p + a.toTypeStr.length + 1
  | p, .basic b s a, x, h => by
    simp only [leaves, List.mem_singleton] at h
    subst h
    simp only
    omega
  | p, .tuple cs a, x, h => by
    have := leavesAll_range (p := p + 1) (cs := cs) h
    simp only [ABIType.toTypeStr, List.length_append, List.length_cons, List.length_nil]
    omega
theorem leavesAll_range : ∀ {p : Nat} {cs : List ABIType} {x : Nat × ABIType}, x ∈ leavesAll p cs →
    p ≤ x.1 ∧ x.1 < p + (joinComma (ABIType.toTypeStrs cs)).length + 1
  | p, [], x, h => by cases h
  | p, c :: cs, x, h => by
    simp only [leavesAll, List.mem_append] at h
    rcases h with h | h
    · have := leaves_range h
      cases cs with
      | nil => simpa [ABIType.toTypeStrs, joinComma] using this
      | cons c' cs =>
        simp only [ABIType.toTypeStrs, joinComma, List.length_append]
        omega
    · have := leavesAll_range h
      cases cs with
      | nil => cases h
      | cons c' cs =>
        simp only [ABIType.toTypeStrs, joinComma, List.length_append, List.length_cons, List.length_nil] at this ⊢
        omega
end

theorem leavesAll_ge {p : Nat} {cs : List ABIType} {x : Nat × ABIType} (h : x ∈ leavesAll p cs) : p ≤ x.1 :=
  (leavesAll_range h).1

mutual
theorem leaves_sorted : ∀ (p : Nat) (a : ABIType), (leaves p a).Pairwise fun x y => x.1 < y.1
  | p, .basic b s a => by simp [leaves]
  | p, .tuple cs a => leavesAll_sorted (p + 1) cs
theorem leavesAll_sorted : ∀ (p : Nat) (cs : List ABIType), (leavesAll p cs).Pairwise fun x y => x.1 < y.1
  | p, [] => .nil
  | p, c :: cs => by
    rw [leavesAll, List.pairwise_append]
    refine ⟨leaves_sorted p c, leavesAll_sorted _ cs, fun x hx y hy => ?_⟩
    have := leaves_range hx
    have := leavesAll_ge hy
    omega
end

/-- The words of the name of a type are its elementary types. -/
theorem leaves_words {a : ABIType} {s : List Char} (h : Derives a s) : ∀ p q w,
    WordAt s q w ↔ ∃ b, (p + q, b) ∈ leaves p a ∧ b.toTypeStr = w := by
  have hop : IsDelimiter '(' := .inl rfl
  have hco : IsDelimiter ',' := .inr (.inl rfl)
  have hcl : IsDelimiter ')' := .inr (.inr rfl)
  refine Derives.rec
    (motive_1 := fun a s _ => ∀ p q w, WordAt s q w ↔ ∃ b, (p + q, b) ∈ leaves p a ∧ b.toTypeStr = w)
    (motive_2 := fun cs s _ => ∀ p q w, WordAt s q w ↔ ∃ b, (p + q, b) ∈ leavesAll p cs ∧ b.toTypeStr = w)
    ?_ ?_ ?_ ?_ h
  · intro base s1 s2 sub arr hne hl h1 h2 p q w
    have hd : Derives (.basic base sub arr) (base ++ s1 ++ s2) := .basic hne hl h1 h2
    rw [wordAt_plain, derives_str hd]
    · simp only [leaves, List.mem_singleton, Prod.mk.injEq]
      constructor
      · rintro ⟨rfl, rfl, _⟩
        exact ⟨_, ⟨rfl, rfl⟩, rfl⟩
      · rintro ⟨b, ⟨hq, rfl⟩, rfl⟩
        refine ⟨by omega, rfl, ?_⟩
        cases base with
        | nil => exact absurd rfl hne
        | cons c base => exact ⟨c, by simp [ABIType.toTypeStr], hl c (by simp)⟩
    · intro c hc
      simp only [List.mem_append] at hc
      rcases hc with (hc | hc) | hc
      · exact letter_plain (hl c hc)
      · exact sub_plain h1 c hc
      · exact (dims_plain h2).1 c hc
  · intro cs s1 s2 arr _ h2 ih p q w
    have e : t!"(" ++ s1 ++ t!")" ++ s2 = [] ++ '(' :: (s1 ++ ')' :: s2) := by simp
    rw [e, wordAt_join hop]
    simp only [wordAt_nil, false_or, leaves, List.length_nil]
    constructor
    · rintro ⟨q', rfl, hw⟩
      rw [wordAt_join hcl] at hw
      rcases hw with hw | ⟨_, _, hw⟩
      · obtain ⟨b, hb, rfl⟩ := (ih (p + 1) q' w).1 hw
        exact ⟨b, by rwa [show p + (0 + 1 + q') = p + 1 + q' by omega], rfl⟩
      · exact absurd hw (wordAt_dims h2)
    · rintro ⟨b, hb, rfl⟩
      have hge : p + 1 ≤ p + q := leavesAll_ge hb
      refine ⟨q - 1, by omega, (wordAt_join hcl).2 (Or.inl ((ih (p + 1) (q - 1) _).2 ⟨b, ?_, rfl⟩))⟩
      rwa [show p + 1 + (q - 1) = p + q by omega]
  · intro t s _ ih p q w
    rw [ih p q w]
    simp [leavesAll]
  · intro t ts s s' hd _ ih ih' p q w
    have e : s ++ t!"," ++ s' = s ++ ',' :: s' := by simp
    rw [e, wordAt_join hco, ih p q w]
    simp only [leavesAll, List.mem_append]
    have hlen : s.length = t.toTypeStr.length := by rw [← derives_str hd]
    constructor
    · rintro (⟨b, hb, rfl⟩ | ⟨q', rfl, hw⟩)
      · exact ⟨b, Or.inl hb, rfl⟩
      · obtain ⟨b, hb, rfl⟩ := (ih' (p + t.toTypeStr.length + 1) q' w).1 hw
        exact ⟨b, Or.inr (by rwa [show p + (s.length + 1 + q') = p + t.toTypeStr.length + 1 + q' by omega]), rfl⟩
    · rintro ⟨b, hb | hb, rfl⟩
      · exact Or.inl ⟨b, hb, rfl⟩
      · have hge := leavesAll_ge hb
        refine Or.inr ⟨q - (s.length + 1), by omega, (ih' (p + t.toTypeStr.length + 1) _ _).2 ⟨b, ?_, rfl⟩⟩
        rwa [show p + t.toTypeStr.length + 1 + (q - (s.length + 1)) = p + q by omega]

/-! ## Validation -/

/-- The validation of elementary types at their positions. -/
def validateLeaves (full : List Char) : List (Nat × ABIType) → Except Invalid Unit
  | [] => .ok ()
  | (p, .basic b s a) :: xs => do
    validateBasicN b s (some ⟨p, (ABIType.basic b s a).toTypeStr, full⟩)
    validateLeaves full xs
  | (_, .tuple _ _) :: xs => validateLeaves full xs

theorem validateLeaves_append (full : List Char) (xs ys : List (Nat × ABIType)) :
    validateLeaves full (xs ++ ys) = (validateLeaves full xs >>= fun _ => validateLeaves full ys) := by
  induction xs with
  | nil => rfl
  | cons x xs ih =>
    obtain ⟨p, ⟨b, s, a⟩ | ⟨cs, a⟩⟩ := x
    · simp only [List.cons_append, validateLeaves, ih]
      cases validateBasicN b s (some ⟨p, (ABIType.basic b s a).toTypeStr, full⟩) <;> rfl
    · simp only [List.cons_append, validateLeaves, ih]

mutual
theorem validate_locate (full : List Char) : ∀ (p : Nat) (a : ABIType),
    (locate full p a).validate = validateLeaves full (leaves p a)
  | p, .basic b s a => by
    simp only [locate, NType.validate, leaves, validateLeaves]
    cases validateBasicN b s (some ⟨p, (ABIType.basic b s a).toTypeStr, full⟩) <;> rfl
  | p, .tuple cs a => by
    simp only [locate, NType.validate, leaves]
    exact validateAll_locate full (p + 1) cs
theorem validateAll_locate (full : List Char) : ∀ (p : Nat) (cs : List ABIType),
    NType.validateAll (locateAll full p cs) = validateLeaves full (leavesAll p cs)
  | p, [] => rfl
  | p, c :: cs => by
    rw [locateAll, NType.validateAll, leavesAll, validateLeaves_append, validate_locate full p c,
      validateAll_locate full _ cs]
end

theorem breaks_validate {b : List Char} {sub : Sub} {msg : List Char} (h : Breaks b sub msg) (node : Option Node) :
    validateBasicN b sub node = invalidate node msg := by
  cases h with
  | string h => cases sub <;> first | exact absurd rfl h | rfl
  | bytesPair => rfl
  | bytesSize h => exact if_pos h
  | intSuffix hb h => rcases hb with rfl | rfl <;> cases sub <;> first | exact absurd rfl (h _) | rfl
  | intSize hb h => rcases hb with rfl | rfl <;> exact if_pos h
  | @intMultiple b n hb h1 h2 h3 =>
    have e1 : ¬ (n < 8 ∨ 256 < n) := by omega
    have e2 : n % 8 ≠ 0 := by omega
    rcases hb with rfl | rfl <;> exact (if_neg e1).trans (if_pos e2)
  | fixedSuffix hb h => rcases hb with rfl | rfl <;> cases sub <;> first | exact absurd rfl (h _ _) | rfl
  | fixedSize hb h => rcases hb with rfl | rfl <;> exact if_pos h
  | @fixedMultiple b m n hb h1 h2 h3 =>
    have e1 : ¬ (m < 8 ∨ 256 < m) := by omega
    have e2 : m % 8 ≠ 0 := by omega
    rcases hb with rfl | rfl <;> exact (if_neg e1).trans (if_pos e2)
  | @fixedExponent b m n hb h1 h2 h3 h4 =>
    have e1 : ¬ (m < 8 ∨ 256 < m) := by omega
    have e2 : ¬ m % 8 ≠ 0 := by omega
    rcases hb with rfl | rfl <;> exact (if_neg e1).trans ((if_neg e2).trans (if_pos h4))
  | hash h => cases sub <;> first | exact absurd rfl (h _) | rfl
  | address h => cases sub <;> first | exact absurd rfl h | rfl

theorem breaks_validateBasic {b : List Char} {sub : Sub} {msg : List Char} (h : Breaks b sub msg) :
    validateBasic b sub = .error .abiTypeError := by
  cases h with
  | string h => cases sub <;> first | exact absurd rfl h | rfl
  | bytesPair => rfl
  | bytesSize h => exact if_pos h
  | intSuffix hb h => rcases hb with rfl | rfl <;> cases sub <;> first | exact absurd rfl (h _) | rfl
  | intSize hb h => rcases hb with rfl | rfl <;> exact if_pos h
  | @intMultiple b n hb h1 h2 h3 =>
    have e1 : ¬ (n < 8 ∨ 256 < n) := by omega
    have e2 : n % 8 ≠ 0 := by omega
    rcases hb with rfl | rfl <;> exact (if_neg e1).trans (if_pos e2)
  | fixedSuffix hb h => rcases hb with rfl | rfl <;> cases sub <;> first | exact absurd rfl (h _ _) | rfl
  | fixedSize hb h => rcases hb with rfl | rfl <;> exact if_pos h
  | @fixedMultiple b m n hb h1 h2 h3 =>
    have e1 : ¬ (m < 8 ∨ 256 < m) := by omega
    have e2 : m % 8 ≠ 0 := by omega
    rcases hb with rfl | rfl <;> exact (if_neg e1).trans (if_pos e2)
  | @fixedExponent b m n hb h1 h2 h3 h4 =>
    have e1 : ¬ (m < 8 ∨ 256 < m) := by omega
    have e2 : ¬ m % 8 ≠ 0 := by omega
    rcases hb with rfl | rfl <;> exact (if_neg e1).trans ((if_neg e2).trans (if_pos h4))
  | hash h => cases sub <;> first | exact absurd rfl (h _) | rfl
  | address h => cases sub <;> first | exact absurd rfl h | rfl

theorem validate_breaks (b : List Char) (sub : Sub) :
    (∃ msg, Breaks b sub msg) ∨ (validateBasic b sub = .ok () ∧ ∀ node, validateBasicN b sub node = .ok ()) := by
  unfold validateBasic validateBasicN
  split
  · next h =>
    subst h
    cases sub with
    | none => exact .inr ⟨rfl, fun _ => rfl⟩
    | _ => exact .inl ⟨_, .string (by simp)⟩
  split
  · next h =>
    subst h
    cases sub with
    | none => exact .inr ⟨rfl, fun _ => rfl⟩
    | one n =>
      by_cases hn : 32 < n
      · exact .inl ⟨_, .bytesSize hn⟩
      · exact .inr ⟨if_neg hn, fun _ => if_neg hn⟩
    | two m n => exact .inl ⟨_, .bytesPair⟩
  split
  · next h =>
    cases sub with
    | one n =>
      by_cases h1 : n < 8 ∨ 256 < n
      · exact .inl ⟨_, .intSize h h1⟩
      · by_cases h2 : n % 8 ≠ 0
        · exact .inl ⟨_, .intMultiple h (by omega) (by omega) (by omega)⟩
        · exact .inr ⟨(if_neg h1).trans (if_neg h2), fun _ => (if_neg h1).trans (if_neg h2)⟩
    | _ => exact .inl ⟨_, .intSuffix h (by simp)⟩
  split
  · next h =>
    cases sub with
    | two m n =>
      by_cases h1 : m < 8 ∨ 256 < m
      · exact .inl ⟨_, .fixedSize h h1⟩
      · by_cases h2 : m % 8 ≠ 0
        · exact .inl ⟨_, .fixedMultiple h (by omega) (by omega) (by omega)⟩
        · by_cases h3 : n < 1 ∨ 80 < n
          · exact .inl ⟨_, .fixedExponent h (by omega) (by omega) (by omega) h3⟩
          · exact .inr ⟨(if_neg h1).trans ((if_neg h2).trans (if_neg h3)),
              fun _ => (if_neg h1).trans ((if_neg h2).trans (if_neg h3))⟩
    | _ => exact .inl ⟨_, .fixedSuffix h (by simp)⟩
  split
  · next h =>
    subst h
    cases sub with
    | one n => exact .inr ⟨rfl, fun _ => rfl⟩
    | _ => exact .inl ⟨_, .hash (by simp)⟩
  split
  · next h =>
    subst h
    cases sub with
    | none => exact .inr ⟨rfl, fun _ => rfl⟩
    | _ => exact .inl ⟨_, .address (by simp)⟩
  exact .inr ⟨rfl, fun _ => rfl⟩

/-- The text of the exception for a word at a position of a type string. -/
def wrongMessage (s : TypeStr) (p : Nat) (w msg : List Char) : List Char :=
  t!"For '" ++ w ++ t!"' type at column " ++ natDigits (p + 1) ++ t!" in '" ++ s ++ t!"': " ++ msg

theorem validateLeaves_error {full : List Char} {xs : List (Nat × ABIType)} {e : Invalid} :
    validateLeaves full xs = .error e ↔ ∃ l1 p b s a l2 msg, xs = l1 ++ (p, .basic b s a) :: l2 ∧
      validateLeaves full l1 = .ok () ∧ Breaks b s msg ∧
      e = .abiTypeError (wrongMessage full p (ABIType.basic b s a).toTypeStr msg) := by
  constructor
  · intro h
    induction xs with
    | nil => cases h
    | cons x xs ih =>
      obtain ⟨p, ⟨b, s, a⟩ | ⟨cs, a⟩⟩ := x
      · rcases validate_breaks b s with ⟨msg, hm⟩ | ⟨_, hm⟩
        · simp only [validateLeaves, breaks_validate hm] at h
          cases h
          exact ⟨[], p, b, s, a, xs, msg, rfl, rfl, hm, rfl⟩
        · simp only [validateLeaves, hm] at h
          obtain ⟨l1, p', b', s', a', l2, msg, rfl, h1, h2⟩ := ih h
          refine ⟨(p, .basic b s a) :: l1, p', b', s', a', l2, msg, rfl, ?_, h2⟩
          simp only [validateLeaves, hm]
          exact h1
      · simp only [validateLeaves] at h
        obtain ⟨l1, p', b', s', a', l2, msg, rfl, h1, h2⟩ := ih h
        exact ⟨(p, .tuple cs a) :: l1, p', b', s', a', l2, msg, rfl, h1, h2⟩
  · rintro ⟨l1, p, b, s, a, l2, msg, rfl, h1, h2, rfl⟩
    rw [validateLeaves_append, h1]
    show validateLeaves full ((p, .basic b s a) :: l2) = _
    simp only [validateLeaves, breaks_validate h2]
    rfl

theorem validateLeaves_ok {full : List Char} {xs : List (Nat × ABIType)} :
    validateLeaves full xs = .ok () ↔ ∀ p b s a, (p, .basic b s a) ∈ xs → ∀ msg, ¬ Breaks b s msg := by
  constructor
  · intro h p b s a hx msg hm
    obtain ⟨l1, l2, rfl⟩ := List.append_of_mem hx
    rw [validateLeaves_append] at h
    cases h1 : validateLeaves full l1 with
    | error e => rw [h1] at h; cases h
    | ok u =>
      rw [h1] at h
      have h' : validateLeaves full ((p, .basic b s a) :: l2) = .ok () := h
      simp only [validateLeaves, breaks_validate hm] at h'
      cases h'
  · intro h
    cases hv : validateLeaves full xs with
    | ok u => rfl
    | error e =>
      obtain ⟨l1, p, b, s, a, l2, msg, rfl, _, h2, _⟩ := validateLeaves_error.1 hv
      exact absurd h2 (h p b s a (by simp) msg)

mutual
theorem leaves_basic : ∀ {p : Nat} {a : ABIType} {x : Nat × ABIType}, x ∈ leaves p a →
    ∃ b s arr, x.2 = .basic b s arr
  | p, .basic b s a, x, h => by
    simp only [leaves, List.mem_singleton] at h
    subst h
    exact ⟨_, _, _, rfl⟩
  | p, .tuple cs a, x, h => leavesAll_basic (p := p + 1) (cs := cs) h
theorem leavesAll_basic : ∀ {p : Nat} {cs : List ABIType} {x : Nat × ABIType}, x ∈ leavesAll p cs →
    ∃ b s arr, x.2 = .basic b s arr
  | p, [], x, h => by cases h
  | p, c :: cs, x, h => by
    simp only [leavesAll, List.mem_append] at h
    rcases h with h | h
    · exact leaves_basic h
    · exact leavesAll_basic h
end

theorem leaves_derive {a : ABIType} {s : List Char} (h : Derives a s) : ∀ p x, x ∈ leaves p a →
    Derives x.2 x.2.toTypeStr := by
  refine Derives.rec
    (motive_1 := fun a _ _ => ∀ p x, x ∈ leaves p a → Derives x.2 x.2.toTypeStr)
    (motive_2 := fun cs _ _ => ∀ p x, x ∈ leavesAll p cs → Derives x.2 x.2.toTypeStr) ?_ ?_ ?_ ?_ h
  · intro base s1 s2 sub arr hne hl h1 h2 p x hx
    have hd : Derives (.basic base sub arr) (base ++ s1 ++ s2) := .basic hne hl h1 h2
    rw [derives_str hd] at hd
    simp only [leaves, List.mem_singleton] at hx
    subst hx
    exact hd
  · intro cs s1 s2 arr _ _ ih p x hx
    exact ih (p + 1) x hx
  · intro t s _ ih p x hx
    simp only [leavesAll, List.append_nil] at hx
    exact ih p x hx
  · intro t ts s s' _ _ ih ih' p x hx
    simp only [leavesAll, List.mem_append] at hx
    rcases hx with hx | hx
    · exact ih _ x hx
    · exact ih' _ x hx

theorem wrongWord_leaf {b : List Char} {sub : Sub} {arr : List (Option Nat)} {msg : List Char}
    (hd : Derives (.basic b sub arr) (ABIType.basic b sub arr).toTypeStr) :
    WrongWord (ABIType.basic b sub arr).toTypeStr msg ↔ Breaks b sub msg := by
  constructor
  · rintro ⟨b', s', a', h1, h2⟩
    cases derives_unique hd h1
    exact h2
  · exact fun h => ⟨_, _, _, hd, h⟩

theorem locate_ok {a : ABIType} {s : List Char} (h : Derives a s) :
    (locate s 0 a).validate = .ok () ↔ ∀ q v, WordAt s q v → ∀ m, ¬ WrongWord v m := by
  rw [validate_locate, validateLeaves_ok]
  constructor
  · intro hok q v hv m hm
    obtain ⟨b, hb, rfl⟩ := (leaves_words h 0 q v).1 hv
    obtain ⟨b', s', a', e⟩ := leaves_basic hb
    simp only at e
    subst e
    exact hok _ _ _ _ hb m ((wrongWord_leaf (leaves_derive h _ _ hb)).1 hm)
  · intro hok p b s' a' hx msg hm
    refine hok p _ ((leaves_words h 0 p _).2 ⟨_, by rwa [Nat.zero_add], rfl⟩) msg ?_
    exact (wrongWord_leaf (leaves_derive h _ _ hx)).2 hm

theorem locate_error {a : ABIType} {s : List Char} (h : Derives a s) {e : Invalid} :
    (locate s 0 a).validate = .error e ↔
      ∃ p w msg, FirstWrong s p w msg ∧ e = .abiTypeError (wrongMessage s p w msg) := by
  rw [validate_locate, validateLeaves_error]
  have hsort := leaves_sorted 0 a
  constructor
  · rintro ⟨l1, p, b, sub, arr, l2, msg, hl, h1, h2, rfl⟩
    have hx : (p, ABIType.basic b sub arr) ∈ leaves 0 a := by rw [hl]; simp
    refine ⟨p, _, msg, ⟨(leaves_words h 0 p _).2 ⟨_, by rwa [Nat.zero_add], rfl⟩,
      (wrongWord_leaf (leaves_derive h _ _ hx)).2 h2, fun q v hq hv m hm => ?_⟩, rfl⟩
    obtain ⟨b', hb', rfl⟩ := (leaves_words h 0 q v).1 hv
    obtain ⟨b1, s1, a1, e⟩ := leaves_basic hb'
    simp only at e
    subst e
    have hin : (0 + q, ABIType.basic b1 s1 a1) ∈ l1 := by
      have hb2 := hb'
      rw [hl] at hb2 hsort
      simp only [List.mem_append, List.mem_cons, Prod.mk.injEq] at hb2
      rcases hb2 with hb2 | ⟨hb2, _⟩ | hb2
      · exact hb2
      · omega
      · rw [List.pairwise_append] at hsort
        have := (List.pairwise_cons.1 hsort.2.1).1 _ hb2
        simp only at this
        omega
    exact validateLeaves_ok.1 h1 _ _ _ _ hin m ((wrongWord_leaf (leaves_derive h _ _ hb')).1 hm)
  · rintro ⟨p, w, msg, ⟨h1, h2, h3⟩, rfl⟩
    obtain ⟨b, hb, rfl⟩ := (leaves_words h 0 p w).1 h1
    obtain ⟨b1, s1, a1, e⟩ := leaves_basic hb
    simp only at e
    subst e
    rw [Nat.zero_add] at hb
    obtain ⟨l1, l2, hl⟩ := List.append_of_mem hb
    refine ⟨l1, p, b1, s1, a1, l2, msg, hl, validateLeaves_ok.2 fun q b2 s2 a2 hx m hm => ?_,
      (wrongWord_leaf (leaves_derive h _ _ hb)).1 h2, rfl⟩
    have hx' : (q, ABIType.basic b2 s2 a2) ∈ leaves 0 a := by rw [hl]; simp [hx]
    have hq : q < p := by
      rw [hl, List.pairwise_append] at hsort
      exact hsort.2.2 _ hx _ List.mem_cons_self
    exact h3 q _ hq ((leaves_words h 0 q _).2 ⟨_, by rwa [Nat.zero_add], rfl⟩) m
      ((wrongWord_leaf (leaves_derive h _ _ hx')).2 hm)

/-! ## Types made by hand -/

mutual
theorem handMade_validate : ∀ a : ABIType,
    (a.validate = .ok () ∧ a.handMade.validate = .ok ()) ∨
      (a.validate = .error .abiTypeError ∧ a.handMade.validate = .error .attributeError)
  | .basic b s arr => by
    rw [ABIType.handMade, NType.validate, ABIType.validate]
    rcases validate_breaks b s with ⟨msg, hm⟩ | ⟨h1, h2⟩
    · exact .inr ⟨breaks_validateBasic hm, (breaks_validate hm none).trans rfl⟩
    · exact .inl ⟨h1, h2 none⟩
  | .tuple cs arr => by
    rw [ABIType.handMade, NType.validate, ABIType.validate]
    exact handMadeAll_validate cs
theorem handMadeAll_validate : ∀ cs : List ABIType,
    (ABIType.validateAll cs = .ok () ∧ NType.validateAll (ABIType.handMadeAll cs) = .ok ()) ∨
      (ABIType.validateAll cs = .error .abiTypeError ∧
        NType.validateAll (ABIType.handMadeAll cs) = .error .attributeError)
  | [] => .inl ⟨rfl, rfl⟩
  | c :: cs => by
    rw [ABIType.handMadeAll, NType.validateAll, ABIType.validateAll]
    rcases handMade_validate c with ⟨h1, h2⟩ | ⟨h1, h2⟩
    · rw [h1, h2]
      exact handMadeAll_validate cs
    · rw [h1, h2]
      exact .inr ⟨rfl, rfl⟩
end

mutual
theorem located_verdict (full : List Char) : ∀ (p : Nat) (a : ABIType),
    (a.validate = .ok () ∧ (locate full p a).validate = .ok ()) ∨
      (a.validate = .error .abiTypeError ∧ ∃ m, (locate full p a).validate = .error (.abiTypeError m))
  | p, .basic b s arr => by
    rw [locate, NType.validate, ABIType.validate]
    rcases validate_breaks b s with ⟨msg, hm⟩ | ⟨h1, h2⟩
    · exact .inr ⟨breaks_validateBasic hm, _, (breaks_validate hm _).trans rfl⟩
    · exact .inl ⟨h1, h2 _⟩
  | p, .tuple cs arr => by
    rw [locate, NType.validate, ABIType.validate]
    exact located_verdictAll full (p + 1) cs
theorem located_verdictAll (full : List Char) : ∀ (p : Nat) (cs : List ABIType),
    (ABIType.validateAll cs = .ok () ∧ NType.validateAll (locateAll full p cs) = .ok ()) ∨
      (ABIType.validateAll cs = .error .abiTypeError ∧
        ∃ m, NType.validateAll (locateAll full p cs) = .error (.abiTypeError m))
  | p, [] => .inl ⟨rfl, rfl⟩
  | p, c :: cs => by
    rw [locateAll, NType.validateAll, ABIType.validateAll]
    rcases located_verdict full p c with ⟨h1, h2⟩ | ⟨h1, m, h2⟩
    · rw [h1, h2]
      exact located_verdictAll full _ cs
    · rw [h1, h2]
      exact .inr ⟨rfl, m, rfl⟩
end

/-! ## Nodes -/

theorem partOf_tuple {u : NType} {ts : List NType} {arr : List (Option Nat)} {node : Option Node}
    (h : PartOf u (.tuple ts arr node)) : u = .tuple ts arr node ∨ ∃ t ∈ ts, PartOf u t := by
  cases h with
  | self => exact .inl rfl
  | tuple h1 h2 => exact .inr ⟨_, h1, h2⟩

/-- The nodes of a type that stands in `full` between `pre` and `post`. -/
theorem locate_parts {a : ABIType} {s : List Char} (h : Derives a s) : ∀ full pre post, full = pre ++ s ++ post →
    ∀ u, PartOf u (locate full pre.length a) → ∃ n, nodeAttr u = some n ∧ n.fullText = full ∧
      n.text = u.erase.toTypeStr ∧ n.text <+: full.drop n.start := by
  have hself : ∀ {a : ABIType} {s full pre post : List Char}, Derives a s → full = pre ++ s ++ post →
      a.toTypeStr <+: full.drop pre.length := by
    intro a s full pre post hd hf
    subst hf
    rw [List.append_assoc, List.drop_left, ← derives_str hd]
    exact List.prefix_append _ _
  refine Derives.rec
    (motive_1 := fun a s _ => ∀ full pre post, full = pre ++ s ++ post →
      ∀ u, PartOf u (locate full pre.length a) → ∃ n, nodeAttr u = some n ∧ n.fullText = full ∧
        n.text = u.erase.toTypeStr ∧ n.text <+: full.drop n.start)
    (motive_2 := fun cs s _ => ∀ full pre post, full = pre ++ s ++ post →
      ∀ t ∈ locateAll full pre.length cs, ∀ u, PartOf u t → ∃ n, nodeAttr u = some n ∧ n.fullText = full ∧
        n.text = u.erase.toTypeStr ∧ n.text <+: full.drop n.start) ?_ ?_ ?_ ?_ h
  · intro base s1 s2 sub arr hne hl h1 h2 full pre post hf u hu
    simp only [locate] at hu
    cases hu
    exact ⟨_, rfl, rfl, rfl, hself (.basic hne hl h1 h2) hf⟩
  · intro cs s1 s2 arr h1 h2 ih full pre post hf u hu
    rw [locate] at hu
    rcases partOf_tuple hu with rfl | ⟨t, ht, hu⟩
    · refine ⟨_, rfl, rfl, ?_, hself (.tuple h1 h2) hf⟩
      rw [NType.erase, eraseAll_locate]
    · exact ih full (pre ++ t!"(") (t!")" ++ s2 ++ post) (by rw [hf]; simp) t
        (by simpa only [List.length_append, List.length_cons, List.length_nil] using ht) u hu
  · intro t s _ ih full pre post hf t' ht u hu
    simp only [locateAll, List.mem_singleton] at ht
    subst ht
    exact ih full pre post hf u hu
  · intro t ts s s' hd _ ih ih' full pre post hf t' ht u hu
    simp only [locateAll, List.mem_cons] at ht
    rcases ht with rfl | ht
    · exact ih full pre (t!"," ++ s' ++ post) (by rw [hf]; simp) u hu
    · refine ih' full (pre ++ s ++ t!",") post (by rw [hf]; simp) t' ?_ u hu
      simp only [List.length_append, List.length_cons, List.length_nil]
      rw [show s.length = t.toTypeStr.length by rw [← derives_str hd]]
      exact ht

end EthAbi
