import Verif.Lemmas.Lookups
import Verif.Props.Examples

/-!
# C83: what the exceptions of a registry say
-/
namespace EthAbi
open Spec

/-- **C83** (texts).  With the default registries, the text of the exception of a lookup is the one that is said of the type
string: for encoders, for packed encoders, and for decoders. -/
theorem C83_text [Ext] {w : Wording} (hw : PrintsPlain w) (s : TypeStr) (text : List Char) :
    (encoderSays w s = some text ↔ Explained .encoders s text) ∧
    (packedSays w s = some text ↔ Explained .packedEncoders s text) ∧
    (decoderSays w s = some text ↔ Explained .decoders s text) := by
  refine ⟨?_, ?_, ?_⟩
  · exact lookupSays_iff (k := encKit false) (n := 0) (c := fun i => (encoderClasses.eraseIdx 8).getD i []) (q := .encoders)
      hw (getEncoderFuel_outcome false 0) (fun fuel s x h => encoder_silent (m := tellMap w (encKit false) 0 _ _) h)
      (fun x hx e he => by
        have h1 := (C80_lookup s e).1.2 he
        have h2 : getEncoder defaultRegistry s = .ok x := hx
        rw [h1] at h2; cases h2) text
  · exact lookupSays_iff (k := encKit true) (n := 100) (c := fun i => (packedClasses.eraseIdx 8).getD i [])
      (q := .packedEncoders) hw (getEncoderFuel_outcome true 100) (fun fuel s x h => encoder_silent (m := tellMap w (encKit true) 100 _ _) h)
      (fun x hx e he => by
        have h1 := (C80_lookup s e).2.1.2 he
        have h2 : getEncoder packedRegistry s = .ok x := hx
        rw [h1] at h2; cases h2) text
  · exact lookupSays_iff (k := decKit) (n := 0) (c := fun i => (decoderClasses.eraseIdx 8).getD i []) (q := .decoders)
      hw (getDecoderFuel_outcome 0) (fun fuel s x h => decoder_silent (m := tellMap w decKit 0 _ _) h)
      (fun x hx e he => by
        have h1 := ((C80_lookup s e).2.2 true).2 he
        have h2 : getDecoder defaultRegistry s true = .ok x := hx
        rw [h1] at h2; cases h2) text

/-- **C83** (there is always a text).  A string has one exactly if it has no coder and the reason is not a number that is too
long. -/
theorem C83_every [Ext] (q : Coders) (s : TypeStr) :
    (∃ text, Explained q s text) ↔ ∃ e, Declined s e ∧ e ≠ .visitationError := by
  have un : ∀ {base sub e}, Uncoded base sub e → ∃ text, SaidOf q base sub text := by
    intro base sub e h
    cases h with
    | function h => exact ⟨_, .function h⟩
    | other h1 h2 h3 => exact ⟨_, .other h1 h2 h3⟩
  constructor
  · rintro ⟨text, h⟩
    exact explained_declined h
  · rintro ⟨e, h, hv⟩
    cases h with
    | parens h1 h2 => exact ⟨_, .parens h1 h2⟩
    | grammar h1 h2 =>
      obtain ⟨k, hk, _⟩ := C82_place (fun ⟨t, ht⟩ => h1 t ht : ¬ IsTypeStr s)
      exact ⟨_, .grammar h1 h2 hk⟩
    | digits _ _ => exact absurd rfl hv
    | byte => exact ⟨_, .byte⟩
    | ill h1 h2 h3 h4 =>
      obtain ⟨h5, msg, h6⟩ := h4
      exact ⟨_, .ill h1 h2 h3 h5 h6⟩
    | uncoded h1 h2 h3 =>
      obtain ⟨text, ht⟩ := un h3
      exact ⟨_, .uncoded h1 h2 ht⟩
    | @illInside _ t p h1 h2 h3 h4 h5 =>
      have hp : parse s = .ok t := (C21_parse s t).2 ⟨h1, h2⟩
      have hp' : parse (normalize s) = .ok (normTy t) :=
        parse_ok_iff.2 ⟨normalize_type h1, (normTy_numsOk t).trans (parse_ok_iff.1 hp).2⟩
      rcases validateSays_cases hp' with ⟨h6, _, _⟩ | ⟨_, k, w, msg, h6, _⟩
      · exact absurd h5 ((not_ill_iff t).1 h6 p h4)
      · exact ⟨_, .illInside h1 h2 h3 ((C23_words _ _).1 rfl) h6⟩
    | uncodedInside h1 h2 h3 h4 h5 =>
      obtain ⟨pre, base, sub, post, h6, h7, h8⟩ := h5
      obtain ⟨text, ht⟩ := un h7
      exact ⟨_, .uncodedInside h1 h2 h3 h4 h6 h8 ht⟩

/-- **C83** (one text). -/
theorem C83_one [Ext] {q : Coders} {s : TypeStr} {text text' : List Char} (h : Explained q s text)
    (h' : Explained q s text') : text = text' := by
  have hw : PrintsPlain ⟨fun s => '\'' :: s ++ ['\''], fun _ => []⟩ := fun s _ => rfl
  cases q with
  | encoders => exact Option.some.inj (((C83_text hw s _).1.2 h).symm.trans ((C83_text hw s _).1.2 h'))
  | packedEncoders => exact Option.some.inj (((C83_text hw s _).2.1.2 h).symm.trans ((C83_text hw s _).2.1.2 h'))
  | decoders => exact Option.some.inj (((C83_text hw s _).2.2.2 h).symm.trans ((C83_text hw s _).2.2.2 h'))

/-- **C83** (calls).  `encode`, `encode_packed` and `decode` look up one type string after the other: the text is that of the
first type string without a coder.  (Which exception it is, and that the data are not looked at before: `C80_calls`.) -/
theorem C83_calls [Ext] {w : Wording} (hw : PrintsPlain w) {pre post : List TypeStr} {ts : List Ty} (hT : Names pre ts)
    {s : TypeStr} {text : List Char} :
    (Explained .encoders s text →
      lookupsSay (getEncoder defaultRegistry) (encoderSays w) (pre ++ s :: post) = some text) ∧
    (Explained .packedEncoders s text →
      lookupsSay (getEncoder packedRegistry) (packedSays w) (pre ++ s :: post) = some text) ∧
    (Explained .decoders s text → ∀ strict,
      lookupsSay (fun s => getDecoder defaultRegistry s strict) (decoderSays w) (pre ++ s :: post) = some text) := by
  have hsup : ∀ y ∈ pre, ∃ t, Supported y t := by
    intro y hy
    induction hT with
    | nil => cases hy
    | cons h _ ih =>
      rcases List.mem_cons.1 hy with rfl | hy
      · exact ⟨_, h⟩
      · exact ih hy
  refine ⟨fun h => ?_, fun h => ?_, fun h strict => ?_⟩
  · obtain ⟨e, he, _⟩ := explained_declined h
    rw [lookupsSay_first ?_ ((C80_lookup s e).1.2 he)]
    · exact (C83_text hw s text).1.2 h
    · intro y hy
      obtain ⟨t, ht⟩ := hsup y hy
      rcases getEncoder_default y with ⟨u, _, h⟩ | ⟨h, _⟩
      · exact ⟨_, h⟩
      · exact absurd ht (h t)
  · obtain ⟨e, he, _⟩ := explained_declined h
    rw [lookupsSay_first ?_ ((C80_lookup s e).2.1.2 he)]
    · exact (C83_text hw s text).2.1.2 h
    · intro y hy
      obtain ⟨t, ht⟩ := hsup y hy
      rcases getEncoder_packed y with ⟨u, _, h⟩ | ⟨h, _⟩
      · exact ⟨_, h⟩
      · exact absurd ht (h t)
  · obtain ⟨e, he, _⟩ := explained_declined h
    rw [lookupsSay_first ?_ (((C80_lookup s e).2.2 strict).2 he)]
    · exact (C83_text hw s text).2.2.2 h
    · intro y hy
      obtain ⟨t, ht⟩ := hsup y hy
      rcases getDecoder_default y strict with ⟨u, _, h⟩ | ⟨h, _⟩
      · exact ⟨_, h⟩
      · exact absurd ht (h t)

/-! ## A class -/

/-- **C83** (classes).  What `from_type_str` of a class says for a type string: that the class is not for such types, with the
string as it was given and without abbreviations; otherwise which suffix is wrong; otherwise nothing. -/
theorem C83_class [Ext] (w : Wording) (cls : List Char) (base : Option (List Char)) (arrays : Bool) {s s' : TypeStr}
    {t : ABIType} (hs : Replaced s s') (ht : Derives t s') (hf : DigitRunsFit s') (text : List Char) :
    typeStrSays w cls base arrays s = some text ↔
      NotFor w cls base arrays s s' t text ∨ (∀ x, ¬ NotFor w cls base arrays s s' t x) ∧ ∃ p word msg, FirstWrong s' p word msg ∧
        text = t!"For '" ++ word ++ t!"' type at column " ++ natDigits (p + 1) ++ t!" in '" ++ s' ++ t!"': " ++ msg := by
  have hn := (C23_words _ _).2 hs
  subst hn
  have hp := (C21_parse _ t).2 ⟨ht, hf⟩
  have hsh := typeRep_eq w s
  have hlast := validateSays_iff hp text
  have refuse : ∀ {x : List Char}, NotFor w cls base arrays s (normalize s) t x →
      (∀ y, NotFor w cls base arrays s (normalize s) t y → y = x) →
      (some x = some text ↔ NotFor w cls base arrays s (normalize s) t text ∨
        (∀ x, ¬ NotFor w cls base arrays s (normalize s) t x) ∧ ∃ p word msg, FirstWrong (normalize s) p word msg ∧
          text = t!"For '" ++ word ++ t!"' type at column " ++ natDigits (p + 1) ++ t!" in '" ++ normalize s ++ t!"': " ++ msg) := by
    intro x hx hu
    constructor
    · intro h; cases h; exact .inl hx
    · rintro (h | ⟨h, _⟩)
      · rw [hu _ h]
      · exact absurd hx (h x)
  have last : (∀ x, ¬ NotFor w cls base arrays s (normalize s) t x) →
      (validateSays (normalize s) = some text ↔ NotFor w cls base arrays s (normalize s) t text ∨
        (∀ x, ¬ NotFor w cls base arrays s (normalize s) t x) ∧ ∃ p word msg, FirstWrong (normalize s) p word msg ∧
          text = t!"For '" ++ word ++ t!"' type at column " ++ natDigits (p + 1) ++ t!" in '" ++ normalize s ++ t!"': " ++ msg) := by
    intro hno
    rw [hlast]
    exact ⟨fun h => .inr ⟨hno, h⟩, fun h => h.elim (fun h => absurd h (hno _)) fun h => h.2⟩
  have arr : ∀ (t' : ABIType), t' = t → (∀ y, NotFor w cls base arrays s (normalize s) t y ↔
      arrays = false ∧ t.isArray = true ∧ y = t!"Cannot create " ++ cls ++ t!" for type " ++ displayed w s (normalize s) ++
        t!": expected type with no array dimension list" ∨
      arrays = true ∧ t.isArray = false ∧ y = t!"Cannot create " ++ cls ++ t!" for type " ++ displayed w s (normalize s) ++
        t!": expected type with array dimension list") →
      (typeStrSays.arrlistSays w cls arrays s t' = some text ↔ NotFor w cls base arrays s (normalize s) t text ∨
        (∀ x, ¬ NotFor w cls base arrays s (normalize s) t x) ∧ ∃ p word msg, FirstWrong (normalize s) p word msg ∧
          text = t!"For '" ++ word ++ t!"' type at column " ++ natDigits (p + 1) ++ t!" in '" ++ normalize s ++ t!"': " ++ msg) := by
    intro t' ht' h
    rw [ht']
    unfold typeStrSays.arrlistSays
    rw [hsh]
    cases ha : arrays <;> cases hb : t.isArray
    · rw [if_neg (by simp), if_neg (by simp)]
      subst ha
      exact last fun x hx => by simpa [hb] using (h x).1 hx
    · rw [if_pos (by simp)]
      subst ha
      exact refuse ((h _).2 (.inl ⟨rfl, hb, rfl⟩)) fun y hy => by simpa [hb] using (h y).1 hy
    · rw [if_neg (by simp), if_pos (by simp)]
      subst ha
      exact refuse ((h _).2 (.inr ⟨rfl, hb, rfl⟩)) fun y hy => by simpa [hb] using (h y).1 hy
    · rw [if_neg (by simp), if_neg (by simp)]
      subst ha
      exact last fun x hx => by simpa [hb] using (h x).1 hx
  have bas : ∀ {b sub dims}, t = .basic b sub dims → base = none ∨ base = some b → ∀ y,
      NotFor w cls base arrays s (normalize s) t y ↔
      arrays = false ∧ t.isArray = true ∧ y = t!"Cannot create " ++ cls ++ t!" for type " ++ displayed w s (normalize s) ++
        t!": expected type with no array dimension list" ∨
      arrays = true ∧ t.isArray = false ∧ y = t!"Cannot create " ++ cls ++ t!" for type " ++ displayed w s (normalize s) ++
        t!": expected type with array dimension list" := by
    rintro b sub dims rfl hb y
    constructor
    · intro h
      cases h with
      | base h1 h2 =>
        rw [h1] at hb
        rcases hb with h | h
        · cases h
        · injection h with h; exact absurd h.symm h2
      | array _ h2 h3 =>
        refine .inl ⟨h2, ?_, rfl⟩
        cases dims with
        | nil => exact absurd rfl h3
        | cons _ _ => rfl
      | noArray _ h2 => exact .inr ⟨h2, rfl, rfl⟩
    · rintro (⟨h1, h2, rfl⟩ | ⟨h1, h2, rfl⟩)
      · cases dims with
        | nil => cases h2
        | cons _ _ => exact .array hb h1 (by simp)
      · cases dims with
        | nil => exact .noArray hb h1
        | cons _ _ => cases h2
  unfold typeStrSays
  rw [hp, hsh]
  cases base with
  | none =>
    refine arr t rfl ?_
    cases t with
    | basic b sub dims => exact bas rfl (.inl rfl)
    | tuple ts dims =>
      intro y
      constructor
      · intro h
        cases h with
        | tuple h => exact absurd rfl h
        | tupleArray _ h2 h3 =>
          refine .inl ⟨h2, ?_, rfl⟩
          cases dims with
          | nil => exact absurd rfl h3
          | cons _ _ => rfl
        | tupleNoArray _ h2 => exact .inr ⟨h2, rfl, rfl⟩
      · rintro (⟨h1, h2, rfl⟩ | ⟨h1, h2, rfl⟩)
        · cases dims with
          | nil => cases h2
          | cons _ _ => exact .tupleArray rfl h1 (by simp)
        · cases dims with
          | nil => exact .tupleNoArray rfl h1
          | cons _ _ => cases h2
  | some b =>
    cases t with
    | basic b' sub dims =>
      simp only
      by_cases hb : b' ≠ b
      · rw [if_pos hb]
        refine refuse (.base rfl hb) fun y hy => ?_
        cases hy with
        | base h1 _ => cases h1; rfl
        | array h1 => rcases h1 with h | h <;> cases h; exact absurd rfl hb
        | noArray h1 => rcases h1 with h | h <;> cases h; exact absurd rfl hb
      · rw [if_neg hb]
        rw [not_not] at hb
        subst hb
        exact arr _ rfl (bas rfl (.inr rfl))
    | tuple ts dims =>
      refine refuse (.tuple (by simp)) fun y hy => ?_
      cases hy with
      | tuple _ => rfl
      | tupleArray h => cases h
      | tupleNoArray h => cases h

/-- **C83** (the class of tuples). -/
theorem C83_tupleClass [Ext] (w : Wording) (cls : List Char) {s s' : TypeStr} {t : ABIType} (hs : Replaced s s')
    (ht : Derives t s') (hf : DigitRunsFit s') (text : List Char) :
    tupleStrSays w cls s = some text ↔
      ((∃ b sub dims, t = .basic b sub dims) ∧
        text = t!"Cannot create " ++ cls ++ t!" for non-tuple type " ++ displayed w s s') ∨
      (∃ ts dims, t = .tuple ts dims) ∧ ∃ p word msg, FirstWrong s' p word msg ∧
        text = t!"For '" ++ word ++ t!"' type at column " ++ natDigits (p + 1) ++ t!" in '" ++ s' ++ t!"': " ++ msg := by
  have hn := (C23_words _ _).2 hs
  subst hn
  have hp := (C21_parse _ t).2 ⟨ht, hf⟩
  have hsh := typeRep_eq w s
  unfold tupleStrSays
  rw [hp, hsh]
  cases t with
  | basic b sub dims =>
    constructor
    · intro h; cases h; exact .inl ⟨⟨_, _, _, rfl⟩, rfl⟩
    · rintro (⟨_, rfl⟩ | ⟨⟨_, _, h⟩, _⟩)
      · rfl
      · cases h
  | tuple ts dims =>
    simp only
    rw [validateSays_iff hp]
    constructor
    · intro h; exact .inr ⟨⟨_, _, rfl⟩, h⟩
    · rintro (⟨⟨_, _, _, h⟩, _⟩ | ⟨_, h⟩)
      · cases h
      · exact h

/-! ## Any registry -/

/-- **C83** (matchers).  The texts of the matchers. -/
theorem C83_matcher {w : Wording} {p : Pred} {text : List Char} (h : MatcherText w p.kind text) : p.rep w = text := by
  obtain ⟨i, k⟩ := p
  cases h <;> simp [Pred.rep]

/-- **C83** (matchers).  The text of a matcher tells which it is. -/
theorem C83_matcher_one {w : Wording} (hw : PrintsPlain w) {p q : Pred} (hp : PlainMatcher p.kind) (hq : PlainMatcher q.kind) :
    p.rep w = q.rep w ↔ p.kind = q.kind := by
  obtain ⟨i, k⟩ := p
  obtain ⟨j, l⟩ := q
  have quote : ∀ {b : List Char}, (∀ c ∈ b, IsLetter c ∨ IsDigit c) → '\'' ∉ b := by
    intro b hb hm
    rcases hb _ hm with (h | h) | h <;> exact absurd h (by decide)
  have cut : ∀ {b b' u u' : List Char}, '\'' ∉ b → '\'' ∉ b' → b ++ '\'' :: u = b' ++ '\'' :: u' → b = b' ∧ u = u' := by
    intro b b' u u' h h' e
    induction b generalizing b' with
    | nil =>
      cases b' with
      | nil => simpa using e
      | cons c cs =>
        simp only [List.nil_append, List.cons_append, List.cons.injEq] at e
        exact absurd e.1 (by rintro rfl; simp at h')
    | cons x xs ih =>
      cases b' with
      | nil =>
        simp only [List.nil_append, List.cons_append, List.cons.injEq] at e
        exact absurd e.1 (by rintro rfl; simp at h)
      | cons c cs =>
        simp only [List.cons_append, List.cons.injEq] at e
        obtain ⟨h1, h2⟩ := ih (fun h1 => h (by simp [h1])) (fun h1 => h' (by simp [h1])) e.2
        exact ⟨by rw [e.1, h1], h2⟩
  constructor
  · intro h
    cases hp with
    | @equals v hv =>
      cases hq with
      | @equals v' hv' =>
        simp only [Pred.rep, hw v hv, hw v' hv'] at h
        simp at h
        rw [h]
      | @base b sub hb => simp [Pred.rep] at h
    | @base b sub hb =>
      cases hq with
      | @equals v' hv' => simp [Pred.rep] at h
      | @base b' sub' hb' =>
        simp only [Pred.rep, hw b hb, hw b' hb'] at h
        simp only [List.append_assoc, List.cons_append, List.nil_append] at h
        simp only [List.cons.injEq, true_and] at h
        obtain ⟨rfl, h2⟩ := cut (quote hb) (quote hb') h
        have : sub = sub' := by
          revert h2
          rcases sub with _ | _ | _ <;> rcases sub' with _ | _ | _ <;> simp
        rw [this]
  · intro h
    simp only at h
    subst h
    cases hp <;> rfl

/-- **C83** (any registry).  If no matcher raises on the string, and not exactly one matches it, the text names the string, the
collection, and the matchers that match it, in the order of their registration. -/
theorem C83_find [Ext] {V : Type} (w : Wording) (name : List Char) (m : Mapping V) {s : TypeStr} {test : Pred → Bool}
    (h : ∀ q ∈ m.values, q.1.matches s = .ok (test q.1)) :
    let hits := (m.values.map (·.1)).filter test
    (hits.length = 0 → m.find s = .error .noEntriesFound ∧
      m.findSays w name s = some (t!"No matching entries for '" ++ s ++ t!"' in " ++ name)) ∧
    (hits.length = 1 → (∃ q ∈ m.values, test q.1 = true ∧ m.find s = .ok q.2) ∧ m.findSays w name s = none) ∧
    (2 ≤ hits.length → m.find s = .error .multipleEntriesFound ∧
      m.findSays w name s = some (t!"Multiple matching entries for '" ++ s ++ t!"' in " ++ name ++ t!": " ++
        List.intercalate t!", " (hits.map (·.rep w)) ++
        t!". This occurs when two registrations match the same type string. You may need to delete one of the registrations or modify its matching behavior to ensure it doesn't collide with other registrations. See the \"Registry\" documentation for more information.")) := by
  intro hits
  have hr := results_filter m.values h
  have hh : hits = (m.values.filter fun q => test q.1).map (·.1) := by
    show (m.values.map (·.1)).filter test = _
    rw [List.filter_map]
    rfl
  have hsub : ∀ q ∈ (m.values.filter fun q => test q.1), q ∈ m.values ∧ test q.1 = true := fun q hq => List.mem_filter.1 hq
  unfold Mapping.find Mapping.findSays
  rw [hr, hh]
  generalize (m.values.filter fun q => test q.1) = qs at hsub
  rcases qs with _ | ⟨q, _ | ⟨q', qs⟩⟩
  · exact ⟨fun _ => ⟨rfl, rfl⟩, fun h => by simp at h, fun h => by simp at h⟩
  · exact ⟨fun h => by simp at h, fun _ => ⟨⟨q, (hsub q (by simp)).1, (hsub q (by simp)).2, rfl⟩, rfl⟩, fun h => by simp at h⟩
  · refine ⟨fun h => by simp at h, fun h => by simp at h, fun _ => ⟨rfl, ?_⟩⟩
    rw [← joinReps_eq]
    rfl

/-- **C83** (registering).  A second registration of a matcher is refused with the matcher in the text, and a label that is
taken with the matcher and the label. -/
theorem C83_register {V : Type} (w : Wording) (name : List Char) (m : Mapping V) (p : Pred) (v : V)
    (label : Option (List Char)) :
    ((∃ q ∈ m.values, q.1.pyEq p = true) → (m.add p v label).1 = .error .valueError ∧
      m.addSays w name p label = some (t!"Matcher " ++ p.rep w ++ t!" already exists in " ++ name)) ∧
    ((¬ ∃ q ∈ m.values, q.1.pyEq p = true) →
      (∀ l, label = some l → (∃ q ∈ m.labels, q.1 = l) → (m.add p v label).1 = .error .valueError ∧
        m.addSays w name p label = some (t!"Matcher " ++ p.rep w ++ t!" with label '" ++ l ++ t!"' already exists in " ++ name)) ∧
      ((∀ l, label = some l → ¬ ∃ q ∈ m.labels, q.1 = l) → (m.add p v label).1 = .ok () ∧
        m.addSays w name p label = none)) := by
  have h1 : m.hasPred p = true ↔ ∃ q ∈ m.values, q.1.pyEq p = true := List.any_eq_true
  have h2 : ∀ l, m.hasLabel l = true ↔ ∃ q ∈ m.labels, q.1 = l := by
    intro l
    unfold Mapping.hasLabel
    rw [List.any_eq_true]
    simp
  unfold Mapping.add Mapping.addSays
  rw [← h1]
  refine ⟨fun h => ?_, fun h => ⟨?_, ?_⟩⟩
  · rw [if_pos h, if_pos h]
    exact ⟨rfl, rfl⟩
  · rintro l rfl hl
    rw [if_neg h, if_neg h]
    simp only [if_pos ((h2 l).2 hl)]
    exact ⟨trivial, trivial⟩
  · intro hl
    rw [if_neg h, if_neg h]
    cases label with
    | none => exact ⟨rfl, rfl⟩
    | some l =>
      have : m.hasLabel l = false := by
        have := hl l rfl
        rw [← h2] at this
        simpa using this
      simp only [this]
      exact ⟨rfl, rfl⟩

/-- **C83** (unregistering).  A matcher that is not registered, and a label that is not given, are named in the text. -/
theorem C83_unregister {V : Type} (w : Wording) (name : List Char) (m : Mapping V) :
    (∀ p : Pred,
      ((¬ ∃ q ∈ m.values, q.1.pyEq p = true) → (m.removeByEquality p).1 = .error .keyError ∧
        m.removeByEqualitySays w name p = some (t!"Matcher " ++ p.rep w ++ t!" not found in " ++ name)) ∧
      ((∃ q ∈ m.values, q.1.pyEq p = true) → (m.removeByEquality p).1 = .ok () ∧ m.removeByEqualitySays w name p = none)) ∧
    (∀ l : List Char,
      ((¬ ∃ q ∈ m.labels, q.1 = l) → (m.removeByLabel l).1 = .error .keyError ∧
        m.removeByLabelSays name l = some (t!"Label '" ++ l ++ t!"' not found in " ++ name)) ∧
      ((∃ q ∈ m.labels, q.1 = l) → m.removeByLabelSays name l = none)) := by
  constructor
  · intro p
    unfold Mapping.removeByEquality Mapping.removeByEqualitySays
    rw [← delPred_absent]
    cases h : Mapping.delPred p m.values with
    | none => exact ⟨fun _ => ⟨rfl, rfl⟩, fun h' => absurd h' ((delPred_absent _).1 h)⟩
    | some vs => exact ⟨(fun h' => by cases h'), fun _ => ⟨rfl, rfl⟩⟩
  · intro l
    unfold Mapping.removeByLabel Mapping.removeByLabelSays
    rw [← lookup_none]
    cases h : m.labels.lookup l with
    | none => exact ⟨fun _ => ⟨rfl, rfl⟩, fun h' => absurd h' ((lookup_none _).1 h)⟩
    | some vs => exact ⟨(fun h' => by cases h'), fun _ => rfl⟩

/-- **C83** (the test of the text).  The lookup of the model, which has only the type string for the test whether the text of a
failed search contains "No matching", is the lookup of the code, unless the texts of matchers contain this. -/
theorem C83_test [Ext] {V : Type} (w : Wording) {name : List Char} (m : Mapping V) (s : TypeStr)
    (hn : ¬ t!"No matching" <:+: name) (hp : ∀ q ∈ m.values, ¬ t!"No matching" <:+: q.1.rep w)
    (he : ∀ q ∈ m.values, q.1.matches s ≠ .error .noEntriesFound ∧ q.1.matches s ≠ .error .multipleEntriesFound) :
    m.getRegistrationWorded w name s = m.getRegistration s := by
  unfold Mapping.getRegistrationWorded Mapping.getRegistration Mapping.find Mapping.findSays
  cases hr : Mapping.results s m.values with
  | error e =>
    obtain ⟨q, hq, h⟩ := results_raise _ hr
    have h1 : e ≠ .noEntriesFound := by rintro rfl; exact (he q hq).1 h
    have h2 : e ≠ .multipleEntriesFound := by rintro rfl; exact (he q hq).2 h
    simp only [error_bind]
    split <;> simp_all
  | ok rs =>
    have hsub := results_sub _ _ hr
    rcases rs with _ | ⟨q, _ | ⟨q', qs⟩⟩
    · simp only [ok_bind, throw_eq_error]
      rw [if_pos (show isInfix t!"No matching" (noEntriesText name s) = true from rfl)]
    · rfl
    · simp only [ok_bind, throw_eq_error]
      have h : isInfix t!"No matching" (multipleText w name s ((q :: q' :: qs).map (·.1))) = isInfix t!"No matching" s := by
        rw [Bool.eq_iff_iff, isInfix_iff, isInfix_iff]
        refine multipleText_quotes hn fun p h => ?_
        obtain ⟨r, hr, rfl⟩ := List.mem_map.1 h
        exact hp r (hsub r hr)
      rw [h]

/-! ## Examples -/

/-- A way of printing strings that meets the hypothesis, and matchers without a text of their own. -/
def Ex.wording : Wording := ⟨fun s => '\'' :: s ++ ['\''], fun _ => t!"<function>"⟩

example : PrintsPlain Ex.wording := fun _ _ => rfl

example : letI := Ex.ext
    encoderSays Ex.wording t!"foo" = some t!"No matching entries for 'foo' in encoder registry" := by decide +kernel

example : letI := Ex.ext
    decoderSays Ex.wording t!"byte" = some t!"No matching entries for 'byte' in decoder registry" ∧
    decoderSays Ex.wording t!"byte[2]" = none := by decide +kernel

/-- The column of a wrong suffix inside counts in the string without abbreviations, which is the one that is quoted. -/
example : letI := Ex.ext
    packedSays Ex.wording t!"(int,uint7)" =
      some t!"For 'uint7' type at column 9 in '(int256,uint7)': integer size out of bounds (max 256 bits)" := by
  decide +kernel

example : letI := Ex.ext
    decoderSays Ex.wording t!"(uint8[],(function8,hash32))" =
      some t!"Cannot create BytesDecoder for type 'function8': expected type with base 'bytes'" ∧
    packedSays Ex.wording t!"(uint8[],(hash32,function8))" = some t!"No matching entries for 'hash32' in encoder registry" := by
  decide +kernel

example : letI := Ex.ext
    encoderSays Ex.wording t!"(uint8,())" = some t!"Zero-sized tuple types \"()\" are not supported." ∧
    encoderSays Ex.wording t!"(uint8,[])" = some t!"Parse error at '[])' (column 8) in type string '(uint8,[])'" ∧
    encoderSays Ex.wording t!"(uint8,(bytes3,int)[4])" = none := by
  decide +kernel

example : letI := Ex.ext
    typeStrSays Ex.wording t!"BytesEncoder" (some t!"bytes") false t!"int" =
      some t!"Cannot create BytesEncoder for type 'int' (normalized to 'int256'): expected type with base 'bytes'" ∧
    typeStrSays Ex.wording t!"BytesEncoder" (some t!"bytes") false t!"bytes4[2]" =
      some t!"Cannot create BytesEncoder for type 'bytes4[2]': expected type with no array dimension list" ∧
    typeStrSays Ex.wording t!"BytesEncoder" (some t!"bytes") false t!"bytes40" =
      some t!"For 'bytes40' type at column 1 in 'bytes40': maximum 32 bytes for fixed-length bytes" ∧
    typeStrSays Ex.wording t!"BytesEncoder" (some t!"bytes") false t!"bytes4" = none ∧
    tupleStrSays Ex.wording t!"TupleEncoder" t!"uint[]" =
      some t!"Cannot create TupleEncoder for non-tuple type 'uint[]' (normalized to 'uint256[]')" := by
  decide +kernel

/-- Two matchers for `uint8`: a label and a class of types. -/
def Ex.doubled : Mapping Nat := ⟨[(⟨0, .equals t!"uint8"⟩, 5), (⟨1, .equals t!"bool"⟩, 6), (⟨2, .baseEquals t!"uint" (some true)⟩, 7)], [(t!"mine", ⟨2, .baseEquals t!"uint" (some true)⟩)]⟩

example : letI := Ex.ext
    (∀ q ∈ Ex.doubled.values, q.1.matches t!"uint8" = .ok (q.1.ident != 1)) ∧
    (Ex.doubled.findSays Ex.wording t!"encoder registry" t!"uint8").map (List.take 116) =
      some t!"Multiple matching entries for 'uint8' in encoder registry: <Equals (== 'uint8')>, <BaseEquals (base == 'uint' and su" := by
  decide +kernel

example : Ex.doubled.addSays Ex.wording t!"encoder registry" ⟨7, .equals t!"uint16"⟩ (some t!"mine") =
      some t!"Matcher <Equals (== 'uint16')> with label 'mine' already exists in encoder registry" ∧
    Ex.doubled.addSays Ex.wording t!"encoder registry" ⟨7, .equals t!"bool"⟩ (some t!"mine") =
      some t!"Matcher <Equals (== 'bool')> already exists in encoder registry" ∧
    Ex.doubled.removeByLabelSays t!"encoder registry" t!"yours" = some t!"Label 'yours' not found in encoder registry" := by
  decide +kernel

example : PlainMatcher (.baseEquals t!"uint" (some true)) ∧ PlainMatcher (.equals t!"bool") :=
  ⟨.base (by simp [IsLetter]), .equals (by simp [IsLetter])⟩

end EthAbi
