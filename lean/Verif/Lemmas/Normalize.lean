import Verif.Lemmas.Grammar

/-! # `normalize` -/
namespace EthAbi
open Spec

/-! ## Words -/

theorem isWord_alph [Ext] {c : Char} (h : isAlph c = true) : isWord c = true := by simp [isWord, h]
theorem isWord_dig [Ext] {c : Char} (h : isDig c = true) : isWord c = true := by simp [isWord, h]

/-- The punctuation of the grammar. -/
def IsPunct (c : Char) : Prop := c = '(' ∨ c = ')' ∨ c = ',' ∨ c = '[' ∨ c = ']'

theorem punct_nonword [Ext] {c : Char} (h : IsPunct c) : isWord c = false := by
  rcases h with rfl | rfl | rfl | rfl | rfl <;> rfl

theorem normAux_word [Ext] {w : List Char} (hw : ∀ c ∈ w, isWord c = true) (run rest : List Char) :
    normAux run (w ++ rest) = normAux (w.reverse ++ run) rest := by
  induction w generalizing run with
  | nil => rfl
  | cons c cs ih =>
    rw [List.cons_append, normAux, if_pos (hw c (by simp)), ih (fun d hd => hw d (by simp [hd]))]
    simp

theorem substWord_nil : substWord [] = [] := rfl

theorem normalize_nonword [Ext] {c : Char} (h : isWord c = false) (cs : List Char) :
    normalize (c :: cs) = c :: normalize cs := by
  simp [normalize, normAux, h, substWord_nil]

theorem normAux_stop [Ext] (run : List Char) {rest : List Char} (h : Stops isWord rest) :
    normAux run rest = substWord run.reverse ++ normalize rest := by
  cases rest with
  | nil => simp [normAux, normalize, substWord_nil]
  | cons c cs =>
    have hc : isWord c = false := h c rfl
    rw [normalize_nonword hc, normAux, if_neg (by simp [hc])]
    rfl

theorem normalize_word [Ext] {w rest : List Char} (hw : ∀ c ∈ w, isWord c = true)
    (hr : Stops isWord rest) : normalize (w ++ rest) = substWord w ++ normalize rest := by
  rw [normalize, normAux_word hw, normAux_stop _ hr]
  simp

theorem normalize_stops [Ext] {rest : List Char} (h : Stops isWord rest) :
    Stops isWord (normalize rest) := by
  cases rest with
  | nil => exact fun c hc => by cases hc
  | cons c cs =>
    rw [normalize_nonword (h c rfl)]
    intro d hd
    cases hd
    exact h c rfl

/-- What an alias is replaced by. -/
theorem lookup_alias {w r : List Char} (h : typeAliases.lookup w = some r) : (w, r) ∈ typeAliases := by
  unfold typeAliases at *
  simp only [List.lookup] at h
  repeat' split at h
  all_goals first
    | (simp only [Option.some.injEq] at h; subst h; rename_i hw; simp only [beq_iff_eq] at hw; subst hw; simp)
    | (simp at h)

theorem substWord_cases (w : List Char) : substWord w = w ∨ (w, substWord w) ∈ typeAliases := by
  unfold substWord
  split
  · next r h => exact Or.inr (lookup_alias h)
  · exact Or.inl rfl

theorem alias_words [Ext] {w r : List Char} (h : (w, r) ∈ typeAliases) :
    (∀ c ∈ w, isAlph c = true) ∧ (∀ c ∈ r, isWord c = true) ∧ substWord r = r := by
  simp only [typeAliases, List.mem_cons, Prod.mk.injEq, List.not_mem_nil, or_false] at h
  have key : ∀ r : List Char, (r.all fun c => isAlph c || isDig c) = true → ∀ c ∈ r, isWord c = true := by
    intro r hr c hc
    have := List.all_eq_true.1 hr c hc
    simp only [isWord, this, Bool.true_or]
  have key2 : ∀ r : List Char, (r.all isAlph) = true → ∀ c ∈ r, isAlph c = true :=
    fun r hr c hc => List.all_eq_true.1 hr c hc
  rcases h with ⟨rfl, rfl⟩ | ⟨rfl, rfl⟩ | ⟨rfl, rfl⟩ | ⟨rfl, rfl⟩ | ⟨rfl, rfl⟩ | ⟨rfl, rfl⟩ <;>
    exact ⟨key2 _ (by decide), key _ (by decide), by decide⟩

theorem substWord_word [Ext] {w : List Char} (hw : ∀ c ∈ w, isWord c = true) :
    ∀ c ∈ substWord w, isWord c = true := by
  rcases substWord_cases w with h | h
  · rw [h]; exact hw
  · exact (alias_words h).2.1

theorem substWord_idem [Ext] (w : List Char) : substWord (substWord w) = substWord w := by
  rcases substWord_cases w with h | h
  · rw [h, h]
  · exact (alias_words h).2.2

theorem substWord_dig [Ext] {w : List Char} {c : Char} (hc : c ∈ w) (hd : isDig c = true) :
    substWord w = w := by
  rcases substWord_cases w with h | h
  · exact h
  · have := (alias_words h).1 c hc
    simp only [isAlph, isDig, decide_eq_true_eq] at this hd
    omega

theorem normAux_idem [Ext] (run s : List Char) (hr : ∀ c ∈ run, isWord c = true) :
    normalize (normAux run s) = normAux run s := by
  induction s generalizing run with
  | nil =>
    rw [normAux]
    have h1 : ∀ c ∈ run.reverse, isWord c = true := fun c hc => hr c (List.mem_reverse.1 hc)
    have := normalize_word (substWord_word h1) (rest := []) (by intro c hc; cases hc)
    rw [List.append_nil, substWord_idem] at this
    rw [this]
    simp [normalize, normAux, substWord_nil]
  | cons c cs ih =>
    cases hc : isWord c with
    | true =>
      rw [normAux, if_pos hc]
      apply ih
      intro d hd
      rcases List.mem_cons.1 hd with rfl | hd
      · exact hc
      · exact hr d hd
    | false =>
      rw [normAux, if_neg (by simp [hc])]
      have h1 : ∀ c ∈ run.reverse, isWord c = true := fun c hc => hr c (List.mem_reverse.1 hc)
      rw [normalize_word (substWord_word h1) (by intro d hd; cases hd; exact hc), substWord_idem,
        normalize_nonword hc, ih [] (by simp)]

theorem normalize_idem [Ext] (s : List Char) : normalize (normalize s) = normalize s :=
  normAux_idem [] s (by simp)

/-! ## On type strings -/

/-- Base and sub part after the aliases are replaced. -/
def normBase (base : List Char) (sub : Sub) : List Char × Sub :=
  match sub with
  | .none =>
    if base = t!"int" then (t!"int", .one 256)
    else if base = t!"uint" then (t!"uint", .one 256)
    else if base = t!"fixed" then (t!"fixed", .two 128 18)
    else if base = t!"ufixed" then (t!"ufixed", .two 128 18)
    else if base = t!"function" then (t!"bytes", .one 24)
    else if base = t!"byte" then (t!"bytes", .one 1)
    else (base, .none)
  | s => (base, s)

mutual
/-- The parsed type after the aliases are replaced. -/
def normTy : ABIType → ABIType
  | .basic base sub arr => .basic (normBase base sub).1 (normBase base sub).2 arr
  | .tuple comps arr => .tuple (normTys comps) arr
/-- The components after the aliases are replaced. -/
def normTys : List ABIType → List ABIType
  | [] => []
  | c :: cs => normTy c :: normTys cs
end

theorem numeral_words [Ext] {n : Nat} {w : List Char} (h : Numeral n w) :
    (∀ c ∈ w, isWord c = true) ∧ substWord w = w := by
  obtain ⟨_, hd, c, cs, rfl, hc⟩ := numeral_value h
  exact ⟨fun d hd' => isWord_dig (hd d hd'), substWord_dig (c := c) (by simp) (isDig_of_isDig19 hc)⟩

theorem normalize_numeral [Ext] {n : Nat} {w : List Char} (h : Numeral n w) (c : Char)
    (hc : IsPunct c) (rest : List Char) :
    normalize (w ++ c :: rest) = w ++ c :: normalize rest := by
  have h1 := numeral_words h
  rw [normalize_word h1.1 (by intro d hd; cases hd; exact punct_nonword hc), h1.2,
    normalize_nonword (punct_nonword hc)]

theorem normalize_dims [Ext] {ds : List (Option Nat)} {w : List Char} (h : DerivesDims ds w)
    (rest : List Char) : normalize (w ++ rest) = w ++ normalize rest := by
  have p1 : isWord '[' = false := punct_nonword (by simp [IsPunct])
  have p2 : isWord ']' = false := punct_nonword (by simp [IsPunct])
  induction h with
  | nil => rfl
  | @dynamic ds s _ ih =>
    show normalize ('[' :: ']' :: (s ++ rest)) = '[' :: ']' :: (s ++ normalize rest)
    rw [normalize_nonword p1, normalize_nonword p2, ih]
  | @sized ds n s t ht _ ih =>
    have e : ∀ r, t!"[" ++ t ++ t!"]" ++ s ++ r = '[' :: (t ++ ']' :: (s ++ r)) := by simp
    rw [e, e, normalize_nonword p1, normalize_numeral ht _ (by simp [IsPunct]), ih]

theorem derivesSub_words [Ext] {sub : Sub} {w : List Char} (h : DerivesSub sub w) :
    ∀ c ∈ w, isWord c = true := by
  cases h with
  | none => simp
  | one h => exact (numeral_words h).1
  | two h1 h2 =>
    intro c hc
    simp only [List.mem_append, List.mem_cons, List.not_mem_nil, or_false] at hc
    rcases hc with (hc | rfl) | hc
    · exact (numeral_words h1).1 c hc
    · exact isWord_alph (by decide)
    · exact (numeral_words h2).1 c hc

theorem natDigits_256 : natDigits 256 = t!"256" := by decide
theorem natDigits_128 : natDigits 128 = t!"128" := by decide
theorem natDigits_18 : natDigits 18 = t!"18" := by decide
theorem natDigits_24 : natDigits 24 = t!"24" := by decide
theorem natDigits_1 : natDigits 1 = t!"1" := by decide

/-- The word of a basic type after the replacement. -/
theorem substWord_basic [Ext] {base s1 : List Char} {sub : Sub} (hne : base ≠ [])
    (hl : ∀ c ∈ base, IsLetter c) (h : DerivesSub sub s1) :
    ∃ s1', substWord (base ++ s1) = (normBase base sub).1 ++ s1' ∧ (normBase base sub).1 ≠ [] ∧
      (∀ c ∈ (normBase base sub).1, IsLetter c) ∧ DerivesSub (normBase base sub).2 s1' := by
  have hdig : ∀ {n s}, Numeral n s → ∀ r, substWord (base ++ (s ++ r)) = base ++ (s ++ r) := by
    intro n s hn r
    obtain ⟨_, _, c, cs, rfl, hc⟩ := numeral_value hn
    exact substWord_dig (c := c) (by simp) (isDig_of_isDig19 hc)
  cases h with
  | one h =>
    refine ⟨s1, ?_, hne, hl, .one h⟩
    have := hdig h []
    rw [List.append_nil] at this
    exact this
  | @two m n s t h1 h2 =>
    refine ⟨s ++ t!"x" ++ t, ?_, hne, hl, .two h1 h2⟩
    have := hdig h1 (t!"x" ++ t)
    simpa [normBase] using this
  | none =>
    rw [List.append_nil]
    have num : ∀ n, 0 < n → Numeral n (natDigits n) := fun n hn => numeral_natDigits n hn
    have letters : ∀ b : List Char, b.all isAlph = true → ∀ c ∈ b, IsLetter c :=
      fun b hb c hc => isAlph_iff.1 (List.all_eq_true.1 hb c hc)
    simp only [normBase]
    split
    · next h => subst h; exact ⟨natDigits 256, by decide, by simp, letters _ (by decide), .one (num _ (by omega))⟩
    split
    · next h => subst h; exact ⟨natDigits 256, by decide, by simp, letters _ (by decide), .one (num _ (by omega))⟩
    split
    · next h =>
        subst h
        exact ⟨natDigits 128 ++ t!"x" ++ natDigits 18, by decide, by simp, letters _ (by decide),
          .two (num _ (by omega)) (num _ (by omega))⟩
    split
    · next h =>
        subst h
        exact ⟨natDigits 128 ++ t!"x" ++ natDigits 18, by decide, by simp, letters _ (by decide),
          .two (num _ (by omega)) (num _ (by omega))⟩
    split
    · next h => subst h; exact ⟨natDigits 24, by decide, by simp, letters _ (by decide), .one (num _ (by omega))⟩
    split
    · next h => subst h; exact ⟨natDigits 1, by decide, by simp, letters _ (by decide), .one (num _ (by omega))⟩
    · refine ⟨[], ?_, hne, hl, .none⟩
      rw [List.append_nil]
      rcases substWord_cases base with h | h
      · exact h
      · simp only [typeAliases, List.mem_cons, Prod.mk.injEq, List.not_mem_nil, or_false] at h
        rcases h with ⟨h, _⟩ | ⟨h, _⟩ | ⟨h, _⟩ | ⟨h, _⟩ | ⟨h, _⟩ | ⟨h, _⟩ <;> contradiction

theorem after_stops [Ext] {s : List Char} (h : AfterSub s) : Stops isWord s := by
  intro c hc
  apply punct_nonword
  rcases h c hc with rfl | rfl | rfl <;> simp [IsPunct]

/-- `normalize` on a type string. -/
theorem normalize_derives [Ext] {t : ABIType} {w : List Char} (h : Derives t w) :
    ∃ w', Derives (normTy t) w' ∧ ∀ {rest}, AfterType rest → normalize (w ++ rest) = w' ++ normalize rest := by
  refine Derives.rec
    (motive_1 := fun t w _ => ∃ w', Derives (normTy t) w' ∧
      ∀ {rest}, AfterType rest → normalize (w ++ rest) = w' ++ normalize rest)
    (motive_2 := fun ts w _ => ∃ w', DerivesComps (normTys ts) w' ∧
      ∀ {rest}, AfterType rest → normalize (w ++ rest) = w' ++ normalize rest)
    ?_ ?_ ?_ ?_ h
  · intro base s1 s2 sub arr hne hl h1 h2
    obtain ⟨s1', e1, hne', hl', d1⟩ := substWord_basic hne hl h1
    refine ⟨(normBase base sub).1 ++ s1' ++ s2, by rw [normTy]; exact .basic hne' hl' d1 h2, ?_⟩
    intro rest hr
    have hw : ∀ c ∈ base ++ s1, isWord c = true := by
      intro c hc
      rcases List.mem_append.1 hc with hc | hc
      · exact isWord_alph (isAlph_iff.2 (hl c hc))
      · exact derivesSub_words h1 c hc
    rw [List.append_assoc (base ++ s1), normalize_word hw (after_stops (derivesDims_after h2 hr)),
      normalize_dims h2, e1]
    simp
  · intro comps s1 s2 arr h1 h2 ih
    obtain ⟨w', d, e⟩ := ih
    refine ⟨t!"(" ++ w' ++ t!")" ++ s2, by rw [normTy]; exact .tuple d h2, ?_⟩
    intro rest hr
    have e1 : t!"(" ++ s1 ++ t!")" ++ s2 ++ rest = '(' :: (s1 ++ ')' :: (s2 ++ rest)) := by simp
    rw [e1, normalize_nonword (punct_nonword (by simp [IsPunct])),
      e (rest := ')' :: (s2 ++ rest)) (by intro c hc; cases hc; exact Or.inr rfl),
      normalize_nonword (punct_nonword (by simp [IsPunct])), normalize_dims h2]
    simp
  · intro t s h ih
    obtain ⟨w', d, e⟩ := ih
    exact ⟨w', .one d, e⟩
  · intro t ts s s' _ _ ih ih'
    obtain ⟨w', d, e⟩ := ih
    obtain ⟨w'', d', e'⟩ := ih'
    refine ⟨w' ++ t!"," ++ w'', .cons d d', ?_⟩
    intro rest hr
    have e1 : s ++ t!"," ++ s' ++ rest = s ++ ',' :: (s' ++ rest) := by simp
    rw [e1, e (by intro c hc; cases hc; exact Or.inl rfl),
      normalize_nonword (punct_nonword (by simp [IsPunct])), e' hr]
    simp

theorem normalize_type [Ext] {t : ABIType} {s : List Char} (h : Derives t s) :
    Derives (normTy t) (normalize s) := by
  obtain ⟨w', d, e⟩ := normalize_derives h
  have := e (rest := []) (by intro c hc; cases hc)
  rw [List.append_nil] at this
  have e0 : normalize [] = [] := rfl
  rw [this, e0, List.append_nil]
  exact d

/-! ## Conversely -/

/-- A word at the front of the result comes from a word. -/
theorem normalize_word_inv [Ext] {s w' rest' : List Char} (h : normalize s = w' ++ rest')
    (hw : ∀ c ∈ w', isWord c = true) (hr : Stops isWord rest') :
    ∃ w rest, s = w ++ rest ∧ (∀ c ∈ w, isWord c = true) ∧ Stops isWord rest ∧ substWord w = w' ∧
      normalize rest = rest' := by
  have hs := takeWhile_split isWord s
  refine ⟨_, _, hs.1, hs.2.1, hs.2.2, ?_⟩
  have e : normalize s = substWord (s.takeWhile isWord) ++ normalize (s.dropWhile isWord) := by
    conv_lhs => rw [hs.1]
    exact normalize_word hs.2.1 hs.2.2
  have h1 := takeWhile_append_stop (substWord_word hs.2.1) (normalize_stops hs.2.2)
  have h2 := takeWhile_append_stop hw hr
  rw [← e, h] at h1
  exact ⟨h1.1.symm.trans h2.1, h1.2.symm.trans h2.2⟩

theorem normalize_punct_inv [Ext] {s r' : List Char} {c : Char} (hc : isWord c = false)
    (h : normalize s = c :: r') : ∃ r, s = c :: r ∧ normalize r = r' := by
  obtain ⟨w, rest, rfl, _, hst, e1, e2⟩ := normalize_word_inv (w' := []) (rest' := c :: r') h (by simp)
    (by intro d hd; cases hd; exact hc)
  have hw0 : w = [] := by
    rcases substWord_cases w with h | h
    · rw [← h, e1]
    · rw [e1] at h
      simp [typeAliases] at h
  subst hw0
  rw [List.nil_append]
  cases rest with
  | nil => cases e2
  | cons d r =>
    rw [normalize_nonword (hst d rfl)] at e2
    injection e2 with e3 e4
    exact ⟨r, by rw [e3], e4⟩

theorem normalize_numeral_inv [Ext] {s rest' w' : List Char} {n : Nat} (hn : Numeral n w')
    (hr : Stops isWord rest') (h : normalize s = w' ++ rest') :
    ∃ rest, s = w' ++ rest ∧ normalize rest = rest' := by
  obtain ⟨w, rest, rfl, _, _, e1, e2⟩ := normalize_word_inv h (numeral_words hn).1 hr
  refine ⟨rest, ?_, e2⟩
  congr 1
  rcases substWord_cases w with h | h
  · rw [← h, e1]
  · rw [e1] at h
    obtain ⟨_, _, c, cs, rfl, hc⟩ := numeral_value hn
    exfalso
    simp only [typeAliases, List.mem_cons, Prod.mk.injEq, List.not_mem_nil, or_false] at h
    rcases h with ⟨_, h⟩ | ⟨_, h⟩ | ⟨_, h⟩ | ⟨_, h⟩ | ⟨_, h⟩ | ⟨_, h⟩ <;>
      (injection h with h3 h4; subst h3; revert hc; decide)

theorem normalize_dims_inv [Ext] {ds : List (Option Nat)} {w' : List Char} (h : DerivesDims ds w') :
    ∀ {s rest' : List Char}, normalize s = w' ++ rest' →
      ∃ rest, s = w' ++ rest ∧ normalize rest = rest' := by
  have p1 : isWord '[' = false := punct_nonword (by simp [IsPunct])
  have p2 : isWord ']' = false := punct_nonword (by simp [IsPunct])
  induction h with
  | nil => intro s rest' h; exact ⟨s, rfl, h⟩
  | @dynamic ds w _ ih =>
    intro s rest' h
    obtain ⟨r, rfl, e1⟩ := normalize_punct_inv p1 (r' := ']' :: (w ++ rest')) h
    obtain ⟨r, rfl, e2⟩ := normalize_punct_inv p2 e1
    obtain ⟨r, rfl, e3⟩ := ih e2
    exact ⟨r, rfl, e3⟩
  | @sized ds n w t ht _ ih =>
    intro s rest' h
    have e0 : t!"[" ++ t ++ t!"]" ++ w ++ rest' = '[' :: (t ++ ']' :: (w ++ rest')) := by simp
    rw [e0] at h
    obtain ⟨r, rfl, e1⟩ := normalize_punct_inv p1 h
    obtain ⟨r, rfl, e2⟩ := normalize_numeral_inv ht (by intro c hc; cases hc; exact p2) e1
    obtain ⟨r, rfl, e3⟩ := normalize_punct_inv p2 e2
    obtain ⟨r, rfl, e4⟩ := ih e3
    exact ⟨r, by simp, e4⟩

theorem normalize_derives_inv [Ext] {t : ABIType} {w' : List Char} (h : Derives t w') :
    ∀ {s rest' : List Char}, AfterType rest' → normalize s = w' ++ rest' →
      ∃ t' w rest, s = w ++ rest ∧ Derives t' w ∧ normalize rest = rest' := by
  refine Derives.rec
    (motive_1 := fun t w' _ => ∀ {s rest' : List Char}, AfterType rest' → normalize s = w' ++ rest' →
      ∃ t' w rest, s = w ++ rest ∧ Derives t' w ∧ normalize rest = rest')
    (motive_2 := fun ts w' _ => ∀ {s rest' : List Char}, AfterType rest' → normalize s = w' ++ rest' →
      ∃ ts' w rest, s = w ++ rest ∧ DerivesComps ts' w ∧ normalize rest = rest')
    ?_ ?_ ?_ ?_ h
  · intro base s1 s2 sub arr hne hl h1 h2 s rest' hr hs
    have hw : ∀ c ∈ base ++ s1, isWord c = true := by
      intro c hc
      rcases List.mem_append.1 hc with hc | hc
      · exact isWord_alph (isAlph_iff.2 (hl c hc))
      · exact derivesSub_words h1 c hc
    rw [List.append_assoc (base ++ s1)] at hs
    obtain ⟨w, rest, rfl, _, _, e1, e2⟩ := normalize_word_inv hs hw (after_stops (derivesDims_after h2 hr))
    obtain ⟨rest, rfl, e3⟩ := normalize_dims_inv h2 e2
    have hd : ∃ b sub' v, w = b ++ v ∧ b ≠ [] ∧ (∀ c ∈ b, IsLetter c) ∧ DerivesSub sub' v := by
      rcases substWord_cases w with h | h
      · exact ⟨base, sub, s1, by rw [← h, e1], hne, hl, h1⟩
      · refine ⟨w, .none, [], by simp, ?_, fun c hc => isAlph_iff.1 ((alias_words h).1 c hc), .none⟩
        rintro rfl
        simp [typeAliases] at h
    obtain ⟨b, sub', v, rfl, hb, hbl, hsub⟩ := hd
    exact ⟨_, b ++ v ++ s2, rest, by simp, .basic hb hbl hsub h2, e3⟩
  · intro comps s1 s2 arr h1 h2 ih s rest' hr hs
    have e0 : t!"(" ++ s1 ++ t!")" ++ s2 ++ rest' = '(' :: (s1 ++ ')' :: (s2 ++ rest')) := by simp
    rw [e0] at hs
    obtain ⟨r, rfl, e1⟩ := normalize_punct_inv (punct_nonword (by simp [IsPunct])) hs
    obtain ⟨ts', w, r, rfl, hd, e2⟩ := ih (by intro c hc; cases hc; exact Or.inr rfl) e1
    obtain ⟨r, rfl, e3⟩ := normalize_punct_inv (punct_nonword (by simp [IsPunct])) e2
    obtain ⟨r, rfl, e4⟩ := normalize_dims_inv h2 e3
    exact ⟨_, t!"(" ++ w ++ t!")" ++ s2, r, by simp, .tuple hd h2, e4⟩
  · intro t s _ ih s rest' hr hs
    obtain ⟨t', w, r, e1, hd, e⟩ := ih hr hs
    exact ⟨_, w, r, e1, .one hd, e⟩
  · intro t ts s s' _ _ ih ih' s0 rest' hr hs
    have e0 : s ++ t!"," ++ s' ++ rest' = s ++ ',' :: (s' ++ rest') := by simp
    rw [e0] at hs
    obtain ⟨t', w, r, rfl, hd, e1⟩ := ih (by intro c hc; cases hc; exact Or.inl rfl) hs
    obtain ⟨r, rfl, e2⟩ := normalize_punct_inv (punct_nonword (by simp [IsPunct])) e1
    obtain ⟨ts', w', r, rfl, hd', e3⟩ := ih' hr e2
    exact ⟨_, w ++ t!"," ++ w', r, by simp, .cons hd hd', e3⟩

theorem normalize_nil_inv [Ext] {s : List Char} (h : normalize s = []) : s = [] := by
  obtain ⟨w, rest, rfl, _, hst, e1, e2⟩ := normalize_word_inv (w' := []) (rest' := []) h (by simp)
    (by intro d hd; cases hd)
  have hw0 : w = [] := by
    rcases substWord_cases w with h | h
    · rw [← h, e1]
    · rw [e1] at h
      simp [typeAliases] at h
  subst hw0
  cases rest with
  | nil => rfl
  | cons d r => rw [normalize_nonword (hst d rfl)] at e2; cases e2

/-- A string parses iff its normal form does. -/
theorem normalize_derives_iff [Ext] {s : List Char} :
    (∃ t, Derives t (normalize s)) ↔ ∃ t, Derives t s := by
  constructor
  · rintro ⟨t, h⟩
    obtain ⟨t', w, r, e1, hd, e⟩ := normalize_derives_inv h (rest' := []) (by intro c hc; cases hc)
      (s := s) (by simp)
    rw [normalize_nil_inv e, List.append_nil] at e1
    exact ⟨t', e1 ▸ hd⟩
  · rintro ⟨t, h⟩
    exact ⟨_, normalize_type h⟩

/-! ## Numerals after normalization -/

theorem numOk_small [Ext] {n : Nat} (h : (natDigits n).length ≤ 640) : numOk n = true := by
  unfold numOk
  split
  · next k hk =>
    have := Ext.maxStrDigits_ge k hk
    rw [decide_eq_true_eq]; omega
  · rfl

theorem natDigits_length_le {n : Nat} (h : n < 1000) : (natDigits n).length ≤ 3 := by
  rw [natDigits_eq]
  split
  · simp
  · rw [natDigits_eq]
    split
    · simp
    · rw [natDigits_eq, if_pos (by omega)]; simp

theorem numOk_of_lt [Ext] {n : Nat} (h : n < 1000) : numOk n = true :=
  numOk_small (by have := natDigits_length_le h; omega)

theorem normBase_numsOk [Ext] (base : List Char) (sub : Sub) :
    (normBase base sub).2.numsOk = sub.numsOk := by
  unfold normBase
  cases sub with
  | none =>
    have h256 := numOk_of_lt (n := 256) (by omega)
    have h128 := numOk_of_lt (n := 128) (by omega)
    have h18 := numOk_of_lt (n := 18) (by omega)
    have h24 := numOk_of_lt (n := 24) (by omega)
    have h1 := numOk_of_lt (n := 1) (by omega)
    simp only
    repeat' split
    all_goals simp [Sub.numsOk, *]
  | one n => rfl
  | two m n => rfl

/-- Induction on parsed types. -/
theorem ABIType.ind {P : ABIType → Prop} (basic : ∀ b s a, P (.basic b s a))
    (tuple : ∀ cs a, (∀ c ∈ cs, P c) → P (.tuple cs a)) (t : ABIType) : P t :=
  ABIType.rec (motive_1 := P) (motive_2 := fun ts => ∀ t ∈ ts, P t) basic tuple (by simp)
    (by simp +contextual) t

theorem normTys_eq_map (cs : List ABIType) : normTys cs = cs.map normTy := by
  induction cs with
  | nil => rfl
  | cons c cs ih => simp [normTys, ih]

theorem allNumsOk_eq [Ext] (cs : List ABIType) : ABIType.allNumsOk cs = cs.all ABIType.numsOk := by
  induction cs with
  | nil => rfl
  | cons c cs ih => simp [ABIType.allNumsOk, ih]

theorem normTy_numsOk [Ext] (t : ABIType) : (normTy t).numsOk = t.numsOk := by
  induction t using ABIType.ind with
  | basic b s a => simp [normTy, ABIType.numsOk, normBase_numsOk]
  | tuple cs a ih =>
    simp only [normTy, ABIType.numsOk, normTys_eq_map, allNumsOk_eq, List.all_map]
    congr 1
    rw [Bool.eq_iff_iff, List.all_eq_true, List.all_eq_true]
    constructor
    · intro h c hc; rw [← ih c hc]; exact h c hc
    · intro h c hc; rw [Function.comp, ih c hc]; exact h c hc

theorem normBase_idem (base : List Char) (sub : Sub) :
    normBase (normBase base sub).1 (normBase base sub).2 = normBase base sub := by
  cases sub with
  | one n => rfl
  | two m n => rfl
  | none =>
    have hdef : normBase base .none =
      if base = t!"int" then (t!"int", .one 256)
      else if base = t!"uint" then (t!"uint", .one 256)
      else if base = t!"fixed" then (t!"fixed", .two 128 18)
      else if base = t!"ufixed" then (t!"ufixed", .two 128 18)
      else if base = t!"function" then (t!"bytes", .one 24)
      else if base = t!"byte" then (t!"bytes", .one 1)
      else (base, .none) := rfl
    by_cases h1 : base = t!"int"; · subst h1; rfl
    by_cases h2 : base = t!"uint"; · subst h2; rfl
    by_cases h3 : base = t!"fixed"; · subst h3; rfl
    by_cases h4 : base = t!"ufixed"; · subst h4; rfl
    by_cases h5 : base = t!"function"; · subst h5; rfl
    by_cases h6 : base = t!"byte"; · subst h6; rfl
    rw [if_neg h1, if_neg h2, if_neg h3, if_neg h4, if_neg h5, if_neg h6] at hdef
    rw [hdef]
    exact hdef

theorem normTy_idem (t : ABIType) : normTy (normTy t) = normTy t := by
  induction t using ABIType.ind with
  | basic b s a => simp only [normTy, normBase_idem]
  | tuple cs a ih =>
    simp only [normTy, normTys_eq_map, List.map_map]
    congr 1
    exact List.map_congr_left fun c hc => ih c hc

end EthAbi
