import Verif.Spec.AnyTypes
import Verif.Lemmas.Api
import Verif.Lemmas.Errors

/-! # Type arguments of any kind -/
namespace EthAbi
open Spec

theorem charOf_ofChar (c : Char) : charOf? ⟨c.toNat % 0x110000, Nat.mod_lt _ (by decide)⟩ = some c := by
  have h : c.toNat < 0x110000 := by
    have := c.valid
    rcases this with h | h <;> simp only [Char.toNat] at * <;> omega
  have h2 : c.toNat % 0x110000 = c.toNat := Nat.mod_eq_of_lt h
  have h3 : (c.toNat % 0x110000).isValidChar := by rw [h2]; exact c.valid
  unfold charOf?
  simp only
  rw [dif_pos h3]
  congr 1
  apply Char.ext
  apply UInt32.toNat_inj.1
  simp [Char.ofNatAux, h2]

theorem ofChar_charOf {p : CodePoint} {c : Char} (h : charOf? p = some c) :
    p = ⟨c.toNat % 0x110000, Nat.mod_lt _ (by decide)⟩ := by
  unfold charOf? at h
  split at h
  · injection h with h
    subst h
    apply Fin.ext
    simp [Char.ofNatAux, Char.toNat]
    omega
  · cases h

theorem asTypeStr_pyStr (s : TypeStr) : asTypeStr? (pyStr s) = some s := by
  show (ofChars s).mapM charOf? = some s
  induction s with
  | nil => rfl
  | cons c s ih =>
    simp only [ofChars, List.map_cons, List.mapM_cons] at ih ⊢
    rw [charOf_ofChar c, ih]
    rfl

theorem pyStr_asTypeStr {v : PyVal} {s : TypeStr} (h : asTypeStr? v = some s) : v = pyStr s := by
  cases v <;> try cases h
  rename_i p
  unfold pyStr
  congr 1
  simp only [asTypeStr?] at h
  induction p generalizing s with
  | nil => injection h with h; subst h; rfl
  | cons c p ih =>
    simp only [List.mapM_cons, Option.bind_eq_bind, Option.bind_eq_some_iff] at h
    obtain ⟨a, h1, b, h2, h3⟩ := h
    injection h3 with h3
    subst h3
    rw [ih h2, ofChar_charOf h1]
    rfl

theorem parseAny_none [Ext] {v : PyVal} (h : asTypeStr? v = none) :
    (¬ IsStr v ∧ parseAny v = .error .typeError) ∨
      IsStr v ∧ (parseAny v = .error .parseError ∨ parseAny v = .error .valueError) := by
  unfold parseAny
  rw [h]
  cases v
  case str s =>
    refine .inr ⟨⟨s, rfl⟩, ?_⟩
    simp only
    split
    · exact .inr rfl
    · exact .inl rfl
  all_goals exact .inl ⟨fun ⟨_, h⟩ => (by cases h), rfl⟩

theorem hasEmptyParensPy_iff (s : PyStr) : hasEmptyParensPy s = true ↔ HasEmptyParens s := by
  induction s with
  | nil =>
    refine ⟨fun h => (by cases h), ?_⟩
    rintro ⟨a, b, h⟩
    have := congrArg List.length h
    simp [ofChars] at this
  | cons c s ih =>
    cases s with
    | nil =>
      refine ⟨fun h => (by cases h), ?_⟩
      rintro ⟨a, b, h⟩
      have := congrArg List.length h
      simp [ofChars] at this
      omega
    | cons d s =>
      rw [hasEmptyParensPy, Bool.or_eq_true, ih, Bool.and_eq_true, beq_iff_eq, beq_iff_eq]
      constructor
      · rintro (⟨h1, h2⟩ | ⟨a, b, h⟩)
        · refine ⟨[], s, ?_⟩
          obtain ⟨c, hc⟩ := c
          obtain ⟨d, hd⟩ := d
          simp only at h1 h2
          subst h1 h2
          rfl
        · exact ⟨c :: a, b, by rw [h]; rfl⟩
      · rintro ⟨a, b, h⟩
        cases a with
        | nil =>
          left
          simp only [ofChars, List.nil_append, List.map_cons, List.map_nil, List.cons_append, List.cons.injEq] at h
          rw [h.1, h.2.1]
          exact ⟨rfl, rfl⟩
        | cons x a =>
          right
          simp only [List.cons_append, List.cons.injEq] at h
          exact ⟨a, b, h.2⟩

/-- What a text that is no type string leads to. -/
theorem parseAny_surrogate [Ext] {s : PyStr} (h : asTypeStr? (.str s) = none) :
    (HasEmptyParens s → parseAny (.str s) = .error .valueError) ∧
    (¬ HasEmptyParens s → parseAny (.str s) = .error .parseError) := by
  rw [← hasEmptyParensPy_iff]
  have hdef : parseAny (.str s) = if hasEmptyParensPy s then .error .valueError else .error .parseError := by
    unfold parseAny
    rw [h]
  rw [hdef]
  exact ⟨fun h => if_pos h, fun h => if_neg h⟩

theorem onParsedAny_error [Ext] {v : PyVal} {e : Exc} (h : parseAny v = .error e) (test : ABIType → Bool) :
    onParsedAny v test = if e = .parseError || e.isValueError then .ok false else .error e := by
  unfold onParsedAny
  rw [h]

/-- The matchers of the package. -/
def BuiltIn (k : PredKind) : Prop := match k with
  | .baseEquals _ _ => True
  | .hasArrlist => True
  | .isBaseTuple => True
  | _ => False

theorem matchesAny_built [Ext] {p : Pred} (hp : BuiltIn p.kind) {v : PyVal} {e : Exc} (h : parseAny v = .error e) :
    p.matchesAny v = if e = .parseError || e.isValueError then .ok false else .error e := by
  unfold Pred.matchesAny
  cases hk : p.kind <;> rw [hk] at hp <;> first | exact hp.elim | exact onParsedAny_error h _

theorem asTypeStr_none {v : PyVal} (hv : ∀ s, v ≠ pyStr s) : asTypeStr? v = none := by
  cases h : asTypeStr? v with
  | none => rfl
  | some s => exact (hv s (pyStr_asTypeStr h)).elim

theorem parseAny_error [Ext] {v : PyVal} (h : asTypeStr? v = none) : ∃ e, parseAny v = .error e ∧
    (e = .typeError ∧ ¬ IsStr v ∨ (e = .parseError ∨ e = .valueError) ∧ IsStr v) := by
  rcases parseAny_none h with ⟨h1, h2⟩ | ⟨h1, h2 | h2⟩
  · exact ⟨_, h2, .inl ⟨rfl, h1⟩⟩
  · exact ⟨_, h2, .inr ⟨.inl rfl, h1⟩⟩
  · exact ⟨_, h2, .inr ⟨.inr rfl, h1⟩⟩

theorem resultsAny_built [Ext] {V : Type} {v : PyVal} (h : asTypeStr? v = none) {l : List (Pred × V)} (hl : l ≠ [])
    (hp : ∀ q ∈ l, BuiltIn q.1.kind) {e : Exc} (he : parseAny v = .error e) :
    Mapping.resultsAny v l = .error e ∨ Mapping.resultsAny v l = .ok [] := by
  obtain ⟨e', he', hc⟩ := parseAny_error h
  rw [he] at he'
  injection he' with he'
  subst he'
  rcases hc with ⟨rfl, _⟩ | ⟨hc, _⟩
  · left
    cases l with
    | nil => exact (hl rfl).elim
    | cons q l =>
      rw [Mapping.resultsAny, matchesAny_built (hp q (by simp)) he]
      rfl
  · right
    clear hl
    induction l with
    | nil => rfl
    | cons q l ih =>
      rw [Mapping.resultsAny, matchesAny_built (hp q (by simp)) he, ih fun q hq => hp q (by simp [hq])]
      rcases hc with rfl | rfl <;> rfl

theorem getRegistrationAny_built [Ext] {V : Type} {m : Mapping V} {v : PyVal} (h : asTypeStr? v = none)
    (hl : m.values ≠ []) (hp : ∀ q ∈ m.values, BuiltIn q.1.kind) {e : Exc} (he : parseAny v = .error e) :
    m.getRegistrationAny v = .error e := by
  unfold Mapping.getRegistrationAny
  rcases resultsAny_built h hl hp he with h2 | h2
  · rw [h2]; rfl
  · rw [h2]
    simp only [ok_bind, he]
    rfl

theorem built_encoders [Ext] (pk : Bool) : (regBy pk).encoders.values ≠ [] ∧
    ∀ q ∈ (regBy pk).encoders.values, BuiltIn q.1.kind := by
  cases pk
  · refine ⟨by simp [regBy, defaultRegistry, mappingOf, defaultPreds, defaultEncoders], ?_⟩
    simp [regBy, defaultRegistry, mappingOf, defaultPreds, defaultEncoders, BuiltIn, Mapping.empty]
  · refine ⟨by simp [regBy, packedRegistry, mappingOf, defaultPreds, packedEncoders], ?_⟩
    simp [regBy, packedRegistry, mappingOf, defaultPreds, packedEncoders, BuiltIn, Mapping.empty]

theorem built_decoders [Ext] : (defaultRegistry).decoders.values ≠ [] ∧
    ∀ q ∈ (defaultRegistry).decoders.values, BuiltIn q.1.kind := by
  refine ⟨by simp [defaultRegistry, mappingOf, defaultPreds, defaultDecoders], ?_⟩
  simp [defaultRegistry, mappingOf, defaultPreds, defaultDecoders, BuiltIn, Mapping.empty]

theorem getEncoderAny_none [Ext] (pk : Bool) {v : PyVal} (h : asTypeStr? v = none) {e : Exc}
    (he : parseAny v = .error e) : getEncoderAny (regBy pk) v = .error e := by
  unfold getEncoderAny
  rw [h]
  simp only [getRegistrationAny_built h (built_encoders pk).1 (built_encoders pk).2 he]
  rfl

theorem getDecoderAny_none [Ext] {v : PyVal} (h : asTypeStr? v = none) (strict : Bool) {e : Exc}
    (he : parseAny v = .error e) : getDecoderAny defaultRegistry v strict = .error e := by
  unfold getDecoderAny
  rw [h]
  simp only [getRegistrationAny_built h built_decoders.1 built_decoders.2 he]
  rfl

theorem supportedAll_decoders [Ext] {types : List TypeStr} {ts : List Ty} (h : Names types ts) (strict : Bool) :
    ∃ ds, mapPyM (fun s => getDecoder defaultRegistry s strict) types = .ok ds := by
  induction h with
  | nil => exact ⟨[], rfl⟩
  | cons h1 _ ih =>
    obtain ⟨ds, hds⟩ := ih
    exact ⟨_ :: ds, by simp only [mapPyM, getDecoder_supported h1, ok_bind, hds]; rfl⟩

theorem getEncoderAny_some [Ext] (r : Registry) (s : TypeStr) : getEncoderAny r (pyStr s) = getEncoder r s := by
  unfold getEncoderAny
  rw [asTypeStr_pyStr]

theorem getDecoderAny_some [Ext] (r : Registry) (s : TypeStr) (strict : Bool) :
    getDecoderAny r (pyStr s) strict = getDecoder r s strict := by
  unfold getDecoderAny
  rw [asTypeStr_pyStr]

theorem mapPyM_map {α β γ : Type} (f : β → PyM γ) (g : α → β) (l : List α) :
    mapPyM f (l.map g) = mapPyM (fun x => f (g x)) l := by
  induction l with
  | nil => rfl
  | cons a l ih => simp only [List.map_cons, mapPyM, ih]

theorem listLikeItems_of {v : PyVal} {vs : List PyVal} (h : IsListOf v vs) : listLikeItems v = .ok vs := by
  cases h <;> rfl

theorem listLikeItems_or (v : PyVal) : (∃ vs, IsListOf v vs) ∨ listLikeItems v = .error .typeError ∧ ∀ vs, ¬ IsListOf v vs := by
  cases v
  case list vs => exact .inl ⟨vs, .list vs⟩
  case tuple vs => exact .inl ⟨vs, .tuple vs⟩
  all_goals exact .inr ⟨rfl, fun _ h => by cases h⟩

/-- The items are all strings without surrogates, or some item is the first that is not. -/
theorem items_or (vs : List PyVal) : (∃ ss : List TypeStr, vs = ss.map pyStr) ∨
    ∃ (ss : List TypeStr) (x : PyVal) (rest : List PyVal), vs = ss.map pyStr ++ x :: rest ∧ asTypeStr? x = none := by
  induction vs with
  | nil => exact .inl ⟨[], rfl⟩
  | cons v vs ih =>
    cases hv : asTypeStr? v with
    | none => exact .inr ⟨[], v, vs, rfl, hv⟩
    | some s =>
      obtain rfl := pyStr_asTypeStr hv
      rcases ih with ⟨ss, rfl⟩ | ⟨ss, x, rest, rfl, hx⟩
      · exact .inl ⟨s :: ss, rfl⟩
      · exact .inr ⟨s :: ss, x, rest, rfl, hx⟩

theorem mapPyM_stop {α β : Type} {f : α → PyM β} {pre : List α} {x : α} {rest : List α} {e : Exc}
    (hx : f x = .error e) : (∃ ys, mapPyM f pre = .ok ys ∧ mapPyM f (pre ++ x :: rest) = .error e) ∨
      ∃ e', mapPyM f pre = .error e' ∧ mapPyM f (pre ++ x :: rest) = .error e' := by
  induction pre with
  | nil => exact .inl ⟨[], rfl, by simp [mapPyM, hx]⟩
  | cons a pre ih =>
    simp only [List.cons_append, mapPyM]
    rcases ok_or_error (f a) with ⟨b, hb⟩ | ⟨e', he⟩
    · rw [hb]
      simp only [ok_bind]
      rcases ih with ⟨ys, h1, h2⟩ | ⟨e', h1, h2⟩
      · exact .inl ⟨b :: ys, by rw [h1]; rfl, by rw [h2]; rfl⟩
      · exact .inr ⟨e', by rw [h1]; rfl, by rw [h2]; rfl⟩
    · exact .inr ⟨e', by rw [he]; rfl, by rw [he]; rfl⟩

end EthAbi
