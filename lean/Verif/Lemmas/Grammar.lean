import Verif.Lemmas.Numeral
import Verif.Lemmas.PyM

/-! # The parser accepts exactly the grammar -/
namespace EthAbi
open Spec

/-! ## Soundness -/

theorem pDigits_sound {s rest : List Char} {n : Nat} (h : pDigits s = some (n, rest)) :
    ∃ w, s = w ++ rest ∧ Numeral n w := by
  cases s with
  | nil => simp [pDigits] at h
  | cons c cs =>
    simp only [pDigits] at h
    split at h
    · next hc =>
      simp only [Option.some.injEq, Prod.mk.injEq] at h
      obtain ⟨rfl, rfl⟩ := h
      have := takeWhile_split isDig cs
      refine ⟨c :: cs.takeWhile isDig, by rw [List.cons_append, ← this.1], ?_⟩
      exact numeral_of_digits hc this.2.1
    · simp at h

theorem pTwoSize_sound {s rest : List Char} {sub : Sub} (h : pTwoSize s = some (sub, rest)) :
    ∃ w, s = w ++ rest ∧ DerivesSub sub w := by
  unfold pTwoSize at h
  split at h
  · next m r h1 =>
    split at h
    · next n r' h2 =>
      simp only [Option.some.injEq, Prod.mk.injEq] at h
      obtain ⟨rfl, rfl⟩ := h
      obtain ⟨w1, e1, d1⟩ := pDigits_sound h1
      obtain ⟨w2, e2, d2⟩ := pDigits_sound h2
      exact ⟨w1 ++ t!"x" ++ w2, by rw [e1, e2]; simp, .two d1 d2⟩
    · simp at h
  · simp at h

theorem pSub_sound {s rest : List Char} {sub : Sub} (h : pSub s = (sub, rest)) :
    ∃ w, s = w ++ rest ∧ DerivesSub sub w := by
  unfold pSub at h
  split at h
  · next r h1 => subst h; exact pTwoSize_sound h1
  · split at h
    · next n r h1 =>
      simp only [Prod.mk.injEq] at h
      obtain ⟨rfl, rfl⟩ := h
      obtain ⟨w, e, d⟩ := pDigits_sound h1
      exact ⟨w, e, .one d⟩
    · simp only [Prod.mk.injEq] at h
      obtain ⟨rfl, rfl⟩ := h
      exact ⟨[], rfl, .none⟩

theorem pDim_sound {s rest : List Char} {d : Option Nat} (h : pDim s = some (d, rest)) :
    (∃ n w, d = some n ∧ s = t!"[" ++ w ++ t!"]" ++ rest ∧ Numeral n w) ∨
      (d = none ∧ s = t!"[]" ++ rest) := by
  unfold pDim at h
  split at h
  · next r =>
    split at h
    · next n r' h1 =>
      simp only [Option.some.injEq, Prod.mk.injEq] at h
      obtain ⟨rfl, rfl⟩ := h
      obtain ⟨w, e, dw⟩ := pDigits_sound h1
      exact Or.inl ⟨n, w, rfl, by rw [e]; simp, dw⟩
    · split at h
      · simp only [Option.some.injEq, Prod.mk.injEq] at h
        obtain ⟨rfl, rfl⟩ := h
        exact Or.inr ⟨rfl, rfl⟩
      · simp at h
  · simp at h

theorem pArr_sound {fuel : Nat} {s rest : List Char} {ds : List (Option Nat)}
    (h : pArr fuel s = (ds, rest)) : ∃ w, s = w ++ rest ∧ DerivesDims ds w := by
  induction fuel generalizing s ds with
  | zero =>
    simp only [pArr, Prod.mk.injEq] at h
    obtain ⟨rfl, rfl⟩ := h
    exact ⟨[], rfl, .nil⟩
  | succ fuel ih =>
    simp only [pArr] at h
    split at h
    · next d r h1 =>
      simp only [Prod.mk.injEq] at h
      obtain ⟨rfl, rfl⟩ := h
      obtain ⟨w, e, dw⟩ := ih (s := r) (ds := (pArr fuel r).1) rfl
      rcases pDim_sound h1 with ⟨n, v, rfl, e1, d1⟩ | ⟨rfl, e1⟩
      · refine ⟨t!"[" ++ v ++ t!"]" ++ w, ?_, .sized d1 dw⟩
        rw [e1]; conv_lhs => rw [e]
        simp
      · refine ⟨t!"[]" ++ w, ?_, .dynamic dw⟩
        rw [e1]; conv_lhs => rw [e]
        simp
    · simp only [Prod.mk.injEq] at h
      obtain ⟨rfl, rfl⟩ := h
      exact ⟨[], rfl, .nil⟩

theorem pAlphas_sound {s rest base : List Char} (h : pAlphas s = some (base, rest)) :
    s = base ++ rest ∧ base ≠ [] ∧ ∀ c ∈ base, IsLetter c := by
  unfold pAlphas at h
  split at h
  · simp at h
  · next hne =>
    simp only [Option.some.injEq, Prod.mk.injEq] at h
    obtain ⟨rfl, rfl⟩ := h
    have := takeWhile_split isAlph s
    exact ⟨this.1, hne, fun c hc => isAlph_iff.1 (this.2.1 c hc)⟩

theorem pBasic_sound {fuel : Nat} {s rest : List Char} {t : ABIType}
    (h : pBasic fuel s = some (t, rest)) : ∃ w, s = w ++ rest ∧ Derives t w := by
  unfold pBasic at h
  split at h
  · next base r h1 =>
    simp only [Option.some.injEq, Prod.mk.injEq] at h
    obtain ⟨rfl, rfl⟩ := h
    obtain ⟨e1, hne, hl⟩ := pAlphas_sound h1
    obtain ⟨w2, e2, d2⟩ := pSub_sound (s := r) (sub := (pSub r).1) (rest := (pSub r).2) rfl
    obtain ⟨w3, e3, d3⟩ := pArr_sound (fuel := fuel) (s := (pSub r).2) (ds := (pArr fuel (pSub r).2).1) rfl
    refine ⟨base ++ w2 ++ w3, ?_, .basic hne hl d2 d3⟩
    rw [e1]; conv_lhs => rw [e2]
    conv_lhs => rw [e3]
    simp
  · simp at h

theorem pType_pNexts_sound (fuel : Nat) :
    (∀ s t rest, pType fuel s = some (t, rest) → ∃ w, s = w ++ rest ∧ Derives t w) ∧
    (∀ s ts rest, pNexts fuel s = (ts, rest) →
      (ts = [] ∧ rest = s) ∨ ∃ w, s = t!"," ++ w ++ rest ∧ DerivesComps ts w) := by
  induction fuel with
  | zero =>
    refine ⟨by simp [pType], ?_⟩
    intro s ts rest h
    simp only [pNexts, Prod.mk.injEq] at h
    exact Or.inl ⟨h.1.symm, h.2.symm⟩
  | succ fuel ih =>
    refine ⟨?_, ?_⟩
    · intro s t rest h
      simp only [pType] at h
      split at h
      · next r =>
        split at h
        · next t1 r1 h1 =>
          split at h
          · next ts r2 h2 =>
            simp only [Option.some.injEq, Prod.mk.injEq] at h
            obtain ⟨rfl, rfl⟩ := h
            obtain ⟨w1, e1, d1⟩ := ih.1 _ _ _ h1
            obtain ⟨w3, e3, d3⟩ := pArr_sound (fuel := fuel) (s := r2) (ds := (pArr fuel r2).1) rfl
            rcases ih.2 _ _ _ h2 with ⟨rfl, e2⟩ | ⟨w2, e2, d2⟩
            · refine ⟨t!"(" ++ w1 ++ t!")" ++ w3, ?_, .tuple (.one d1) d3⟩
              rw [e1, ← e2]
              conv_lhs => rw [e3]
              simp
            · refine ⟨t!"(" ++ (w1 ++ t!"," ++ w2) ++ t!")" ++ w3, ?_, .tuple (.cons d1 d2) d3⟩
              rw [e1, e2]
              conv_lhs => rw [e3]
              simp
          · exact pBasic_sound h
        · exact pBasic_sound h
      · exact pBasic_sound h
    · intro s ts rest h
      simp only [pNexts] at h
      split at h
      · next r =>
        split at h
        · next t r1 h1 =>
          simp only [Prod.mk.injEq] at h
          obtain ⟨rfl, rfl⟩ := h
          obtain ⟨w1, e1, d1⟩ := ih.1 _ _ _ h1
          rcases ih.2 r1 (pNexts fuel r1).1 _ rfl with ⟨e2, e3⟩ | ⟨w2, e2, d2⟩
          · right
            refine ⟨w1, ?_, ?_⟩
            · rw [e3, e1]; simp
            · rw [e2]; exact .one d1
          · right
            refine ⟨w1 ++ t!"," ++ w2, ?_, .cons d1 d2⟩
            rw [e1]; conv_lhs => rw [e2]
            simp
        · simp only [Prod.mk.injEq] at h
          exact Or.inl ⟨h.1.symm, h.2.symm⟩
      · simp only [Prod.mk.injEq] at h
        exact Or.inl ⟨h.1.symm, h.2.symm⟩

/-! ## Completeness -/

theorem pDigits_complete {n : Nat} {w rest : List Char} (h : Numeral n w) (hr : Stops isDig rest) :
    pDigits (w ++ rest) = some (n, rest) := by
  obtain ⟨hv, hd, c, cs, rfl, hc⟩ := numeral_value h
  have := takeWhile_append_stop (w := cs) (fun d hd' => hd d (by simp [hd'])) hr
  simp only [List.cons_append, pDigits, hc, if_true, this]
  rw [hv]

theorem pDigits_none {s : List Char} (h : Stops isDig s) : pDigits s = none := by
  cases s with
  | nil => rfl
  | cons c cs =>
    have h1 : isDig c = false := h c rfl
    have h2 : isDig19 c = false := by
      cases h3 : isDig19 c with
      | false => rfl
      | true => rw [isDig_of_isDig19 h3] at h1; exact h1
    simp [pDigits, h2]

/-- What may follow a basic type's sub part. -/
def AfterSub (s : List Char) : Prop := ∀ c ∈ s.head?, c = '[' ∨ c = ',' ∨ c = ')'

/-- What may follow a type. -/
def AfterType (s : List Char) : Prop := ∀ c ∈ s.head?, c = ',' ∨ c = ')'

theorem AfterType.afterSub {s : List Char} (h : AfterType s) : AfterSub s :=
  fun c hc => Or.inr (h c hc)

theorem AfterSub.dig {s : List Char} (h : AfterSub s) : Stops isDig s := by
  intro c hc; rcases h c hc with rfl | rfl | rfl <;> decide

theorem AfterSub.alph {s : List Char} (h : AfterSub s) : Stops isAlph s := by
  intro c hc; rcases h c hc with rfl | rfl | rfl <;> decide

theorem pSub_complete {sub : Sub} {w rest : List Char} (h : DerivesSub sub w) (hr : AfterSub rest) :
    pSub (w ++ rest) = (sub, rest) := by
  have hx : ∀ r, rest ≠ 'x' :: r := by
    rintro r rfl
    rcases hr 'x' rfl with h | h | h <;> cases h
  cases h with
  | none =>
    have h1 := pDigits_none hr.dig
    simp only [List.nil_append, pSub, pTwoSize, h1]
  | one h =>
    have h1 := pDigits_complete h hr.dig
    have h2 : pTwoSize (w ++ rest) = none := by
      unfold pTwoSize
      rw [h1]
      split
      · next m r h3 =>
        simp only [Option.some.injEq, Prod.mk.injEq] at h3
        exact absurd h3.2 (hx r)
      · rfl
    simp only [pSub, h2, h1]
  | @two m n s t hs ht =>
    have h1 : pDigits (s ++ t!"x" ++ t ++ rest) = some (m, 'x' :: (t ++ rest)) := by
      have := pDigits_complete hs (rest := 'x' :: (t ++ rest)) (by
        intro c hc; cases hc; decide)
      simpa using this
    have h2 := pDigits_complete ht hr.dig
    have h3 : pTwoSize (s ++ t!"x" ++ t ++ rest) = some (.two m n, rest) := by
      unfold pTwoSize
      rw [h1]
      simp only [h2]
    simp only [pSub, h3]

theorem pDim_none {s : List Char} (h : ∀ r, s ≠ '[' :: r) : pDim s = none := by
  unfold pDim
  split
  · next r => exact absurd rfl (h r)
  · rfl

theorem pDim_dynamic (rest : List Char) : pDim (t!"[]" ++ rest) = some (none, rest) := by
  have h1 : pDigits (']' :: rest) = none := pDigits_none (by intro c hc; cases hc; decide)
  show pDim ('[' :: ']' :: rest) = _
  simp [pDim, h1]

theorem pDim_sized {n : Nat} {w : List Char} (h : Numeral n w) (rest : List Char) :
    pDim (t!"[" ++ w ++ t!"]" ++ rest) = some (some n, rest) := by
  have h1 : pDigits (w ++ ']' :: rest) = some (n, ']' :: rest) :=
    pDigits_complete h (by intro c hc; cases hc; decide)
  have e : t!"[" ++ w ++ t!"]" ++ rest = '[' :: (w ++ ']' :: rest) := by simp
  rw [e]
  simp [pDim, h1]

theorem pArr_complete {ds : List (Option Nat)} {w : List Char} (h : DerivesDims ds w)
    {rest : List Char} (hr : AfterType rest) {fuel : Nat} (hf : w.length ≤ fuel) :
    pArr fuel (w ++ rest) = (ds, rest) := by
  have hx : ∀ r, rest ≠ '[' :: r := by
    rintro r rfl
    rcases hr '[' rfl with h | h <;> cases h
  induction h generalizing fuel with
  | nil =>
    cases fuel with
    | zero => rfl
    | succ fuel => simp [pArr, pDim_none hx]
  | @dynamic ds s _ ih =>
    cases fuel with
    | zero => simp at hf
    | succ fuel =>
      have := ih (fuel := fuel) (by simp at hf; omega)
      simp only [pArr, List.append_assoc (t!"[]"), pDim_dynamic, this]
  | @sized ds n s t ht _ ih =>
    cases fuel with
    | zero => simp at hf
    | succ fuel =>
      have := ih (fuel := fuel) (by simp at hf; omega)
      have e : t!"[" ++ t ++ t!"]" ++ s ++ rest = t!"[" ++ t ++ t!"]" ++ (s ++ rest) := by simp
      simp only [pArr, e, pDim_sized ht, this]

theorem derivesDims_after {ds : List (Option Nat)} {w : List Char} (h : DerivesDims ds w)
    {rest : List Char} (hr : AfterType rest) : AfterSub (w ++ rest) := by
  cases h with
  | nil => exact hr.afterSub
  | dynamic _ => intro c hc; cases hc; exact Or.inl rfl
  | sized _ _ =>
    intro c hc
    simp only [List.append_assoc, List.cons_append, List.nil_append, List.head?_cons,
      Option.mem_def, Option.some.injEq] at hc
    exact Or.inl hc.symm

theorem derivesSub_alph {sub : Sub} {w : List Char} (h : DerivesSub sub w) {rest : List Char}
    (hr : AfterSub rest) : Stops isAlph (w ++ rest) := by
  have key : ∀ {n s}, Numeral n s → ∀ r, Stops isAlph (s ++ r) := by
    intro n s hn r c hc
    obtain ⟨_, _, d, ds, rfl, hd⟩ := numeral_value hn
    simp only [List.cons_append, List.head?_cons, Option.mem_def, Option.some.injEq] at hc
    subst hc
    simp only [isDig19, decide_eq_true_eq] at hd
    simp only [isAlph, decide_eq_false_iff_not]
    omega
  cases h with
  | none => exact hr.alph
  | one h => exact key h _
  | two h _ => rw [List.append_assoc, List.append_assoc]; exact key h _

theorem pBasic_complete {base s1 s2 rest : List Char} {sub : Sub} {arr : List (Option Nat)}
    (hne : base ≠ []) (hl : ∀ c ∈ base, IsLetter c) (h1 : DerivesSub sub s1)
    (h2 : DerivesDims arr s2) (hr : AfterType rest) {fuel : Nat} (hf : s2.length ≤ fuel) :
    pBasic fuel (base ++ s1 ++ s2 ++ rest) = some (.basic base sub arr, rest) := by
  have ha := derivesDims_after h2 hr
  have e : base ++ s1 ++ s2 ++ rest = base ++ (s1 ++ (s2 ++ rest)) := by simp
  have := takeWhile_append_stop (fun c hc => isAlph_iff.2 (hl c hc)) (derivesSub_alph h1 ha)
  have h3 : pAlphas (base ++ (s1 ++ (s2 ++ rest))) = some (base, s1 ++ (s2 ++ rest)) := by
    unfold pAlphas
    rw [this.1, this.2, if_neg hne]
  rw [e]
  unfold pBasic
  rw [h3]
  simp only [pSub_complete h1 ha, pArr_complete h2 hr hf]

/-- Derivations as a list of components. -/
theorem derivesComps_ne {ts : List ABIType} {w : List Char} (h : DerivesComps ts w) : ts ≠ [] := by
  cases h <;> simp

theorem pType_complete : ∀ {t : ABIType} {w : List Char}, Derives t w → ∀ {rest : List Char},
    AfterType rest → ∀ {fuel : Nat}, w.length < fuel → pType fuel (w ++ rest) = some (t, rest) := by
  intro t w h
  refine Derives.rec
    (motive_1 := fun t w _ => ∀ {rest : List Char}, AfterType rest → ∀ {fuel : Nat},
      w.length < fuel → pType fuel (w ++ rest) = some (t, rest))
    (motive_2 := fun ts w _ => ∀ {rest : List Char} {fuel : Nat}, w.length < fuel →
      ∃ t ts' w1, ts = t :: ts' ∧
        pType fuel (w ++ ')' :: rest) = some (t, w1) ∧
        ∀ fuel', w.length < fuel' → pNexts fuel' w1 = (ts', ')' :: rest))
    ?_ ?_ ?_ ?_ h
  · intro base s1 s2 sub arr hne hl h1 h2 rest hr fuel hf
    cases fuel with
    | zero => omega
    | succ fuel =>
      have hb := pBasic_complete hne hl h1 h2 hr (fuel := fuel) (by simp at hf; omega)
      cases base with
      | nil => exact absurd rfl hne
      | cons c cs =>
        have hc : c ≠ '(' := by
          rintro rfl
          have := isAlph_iff.2 (hl '(' (by simp))
          revert this; decide
        simp only [List.cons_append] at hb ⊢
        simp only [pType]
        split
        · next heq => cases heq; exact absurd rfl hc
        · exact hb
  · intro comps s1 s2 arr h1 h2 ih rest hr fuel hf
    cases fuel with
    | zero => omega
    | succ fuel =>
      simp only [List.length_append, List.length_cons, List.length_nil] at hf
      obtain ⟨t, ts', w1, rfl, e1, e2⟩ := ih (rest := s2 ++ rest) (fuel := fuel) (by omega)
      have e : t!"(" ++ s1 ++ t!")" ++ s2 ++ rest = '(' :: (s1 ++ ')' :: (s2 ++ rest)) := by simp
      rw [e]
      simp only [pType, e1, e2 fuel (by omega), pArr_complete h2 hr (fuel := fuel) (by omega)]
  · intro t s h ih rest fuel hf
    refine ⟨t, [], ')' :: rest, rfl, ih (by intro c hc; cases hc; exact Or.inr rfl) hf, ?_⟩
    intro fuel' _
    cases fuel' <;> rfl
  · intro t ts s s' h h' ih ih' rest fuel hf
    simp only [List.length_append, List.length_cons, List.length_nil] at hf
    refine ⟨t, ts, ',' :: (s' ++ ')' :: rest), rfl, ?_, ?_⟩
    · have := ih (rest := ',' :: (s' ++ ')' :: rest)) (by intro c hc; cases hc; exact Or.inl rfl)
        (fuel := fuel) (by omega)
      simpa using this
    · intro fuel' hf'
      simp only [List.length_append, List.length_cons, List.length_nil] at hf'
      cases fuel' with
      | zero => omega
      | succ f =>
        obtain ⟨t2, ts2, w2, rfl, e1, e2⟩ := ih' (rest := rest) (fuel := f) (by omega)
        simp only [pNexts, e1, e2 f (by omega)]

/-! ## `parse` -/

theorem parse_ok_iff [Ext] {s : TypeStr} {t : ABIType} :
    parse s = .ok t ↔ Derives t s ∧ t.numsOk = true := by
  unfold parse
  constructor
  · intro h
    split at h
    · next t' h1 =>
      split at h
      · next h2 =>
        injection h with h
        subst h
        obtain ⟨w, e, d⟩ := (pType_pNexts_sound _).1 _ _ _ h1
        rw [List.append_nil] at e
        subst e
        exact ⟨d, h2⟩
      · cases h
    · split at h <;> cases h
  · rintro ⟨h1, h2⟩
    have := pType_complete h1 (rest := []) (by intro c hc; cases hc) (fuel := s.length + 1) (by omega)
    rw [List.append_nil] at this
    rw [this]
    simp [h2]

theorem parse_error [Ext] {s : TypeStr} {e : Exc} (h : parse s = .error e) :
    (e = .visitationError ∧ ∃ t, Derives t s ∧ t.numsOk = false) ∨
    ((∀ t, ¬ Derives t s) ∧ e = if hasEmptyParens s then .valueError else .parseError) := by
  unfold parse at h
  split at h
  · next t' h1 =>
    split at h
    · cases h
    · next h2 =>
      injection h with h
      obtain ⟨w, e', d⟩ := (pType_pNexts_sound _).1 _ _ _ h1
      rw [List.append_nil] at e'
      subst e'
      exact Or.inl ⟨h.symm, t', d, by simpa using h2⟩
  · next hn =>
    right
    refine ⟨?_, by split at h <;> injection h with h <;> simp [*]⟩
    intro t ht
    have := pType_complete ht (rest := []) (by intro c hc; cases hc) (fuel := s.length + 1) (by omega)
    rw [List.append_nil] at this
    exact hn t this

/-! ## `to_type_str` -/

theorem derivesSub_str {sub : Sub} {w : List Char} (h : DerivesSub sub w) : w = sub.str := by
  cases h with
  | none => rfl
  | one h => exact (numeral_iff.1 h).2
  | two h1 h2 => rw [(numeral_iff.1 h1).2, (numeral_iff.1 h2).2]; rfl

theorem derivesDims_str {ds : List (Option Nat)} {w : List Char} (h : DerivesDims ds w) :
    w = arrStr ds := by
  induction h with
  | nil => rfl
  | dynamic _ ih => rw [ih]; rfl
  | sized h _ ih =>
    rw [ih, (numeral_iff.1 h).2]; simp [arrStr, dimStr]

theorem derives_str {t : ABIType} {w : List Char} (h : Derives t w) : w = t.toTypeStr := by
  refine Derives.rec
    (motive_1 := fun t w _ => w = t.toTypeStr)
    (motive_2 := fun ts w _ => w = joinComma (ABIType.toTypeStrs ts))
    ?_ ?_ ?_ ?_ h
  · intro base s1 s2 sub arr _ _ h1 h2
    rw [ABIType.toTypeStr, derivesSub_str h1, derivesDims_str h2]
  · intro comps s1 s2 arr _ h2 ih
    rw [ABIType.toTypeStr, derivesDims_str h2, ih]
  · intro t s _ ih
    rw [ABIType.toTypeStrs, ABIType.toTypeStrs, joinComma, ih]
  · intro t ts s s' _ h' ih ih'
    cases ts with
    | nil => exact absurd rfl (derivesComps_ne h')
    | cons t' ts =>
      rw [ih, ih']
      rfl

/-- The derivation of a string is unique. -/
theorem derives_unique {t t' : ABIType} {s : List Char} (h : Derives t s) (h' : Derives t' s) :
    t = t' := by
  have h1 := pType_complete h (rest := []) (by intro c hc; cases hc) (fuel := s.length + 1) (by omega)
  have h2 := pType_complete h' (rest := []) (by intro c hc; cases hc) (fuel := s.length + 1) (by omega)
  rw [h1] at h2
  simpa using h2

end EthAbi
