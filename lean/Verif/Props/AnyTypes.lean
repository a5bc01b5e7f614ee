import Verif.Lemmas.AnyTypes
import Verif.Lemmas.Outcome
import Verif.Props.Encodable

/-!
# Property C72: type arguments of any kind

`Registry.encodeAny` and the others take any Python values; `encode` and the others of all other theorems take lists of
type strings.  `pyStr s` is the Python `str` with the characters `s`.
-/
namespace EthAbi
open Spec

/-- **C72** (strings).  For a list or tuple of strings the functions are those of all other theorems. -/
theorem C72_strings [Ext] {types : PyVal} {ss : List TypeStr} (ht : IsListOfStr types ss) (args data : PyVal)
    (strict : Bool) (s : TypeStr) (arg : PyVal) :
    defaultRegistry.encodeAny types args = encode ss args ∧
    packedRegistry.encodeAny types args = encodePacked ss args ∧
    defaultRegistry.decodeAny types data strict = decode ss data strict ∧
    defaultRegistry.isEncodableTypeAny (pyStr s) = isEncodableType s ∧
    defaultRegistry.isEncodableAny (pyStr s) arg = isEncodable s arg ∧
    packedRegistry.isEncodableAny (pyStr s) arg = isEncodablePacked s arg := by
  have h1 : ∀ r : Registry, mapPyM (getEncoderAny r) (ss.map pyStr) = mapPyM (getEncoder r) ss := fun r => by
    rw [mapPyM_map]
    exact mapPyM_congr_mem _ fun x _ => getEncoderAny_some r x
  have h2 : mapPyM (fun v => getDecoderAny defaultRegistry v strict) (ss.map pyStr) =
      mapPyM (fun s => getDecoder defaultRegistry s strict) ss := by
    rw [mapPyM_map]
    exact mapPyM_congr_mem _ fun x _ => getDecoderAny_some _ x strict
  have h3 : ∀ r : Registry, hasEncoderAny r (pyStr s) = hasEncoder r s := fun r => by
    unfold hasEncoderAny hasEncoder
    rw [getEncoderAny_some]
    rfl
  refine ⟨?_, ?_, ?_, h3 _, ?_, ?_⟩
  · unfold Registry.encodeAny encode Registry.encode
    rw [listLikeItems_of ht, ← h1]
    rfl
  · unfold Registry.encodeAny encodePacked Registry.encode
    rw [listLikeItems_of ht, ← h1]
    rfl
  · unfold Registry.decodeAny decode Registry.decode Registry.decodeWith
    rw [listLikeItems_of ht, ← h2]
    rfl
  · unfold Registry.isEncodableAny isEncodable Registry.isEncodable Registry.isEncodableTypeAny Registry.isEncodableType
    rw [h3, getEncoderAny_some]
    rfl
  · unfold Registry.isEncodableAny isEncodablePacked Registry.isEncodable Registry.isEncodableTypeAny
      Registry.isEncodableType
    rw [h3, getEncoderAny_some]
    rfl

/-- **C72** (no list).  `types` must be a list or a tuple: a generator, a dict or a single string is a `TypeError`,
whatever the other arguments are. -/
theorem C72_no_list [Ext] {types : PyVal} (ht : ∀ vs, ¬ IsListOf types vs) (args data : PyVal) (strict : Bool) :
    defaultRegistry.encodeAny types args = .error .typeError ∧
    packedRegistry.encodeAny types args = .error .typeError ∧
    defaultRegistry.decodeAny types data strict = .error .typeError := by
  have h : listLikeItems types = .error .typeError := by
    rcases listLikeItems_or types with ⟨vs, h⟩ | h
    · exact (ht vs h).elim
    · exact h.1
  unfold Registry.encodeAny Registry.decodeAny
  rw [h]
  exact ⟨rfl, rfl, rfl⟩

/-- **C72** (no string).  The first item that is no string is a `TypeError`, if the strings before it are supported; a
string with a lone surrogate is a `ParseError`, or a `ValueError` if it contains `()`. -/
theorem C72_no_string [Ext] {types x : PyVal} {ss : List TypeStr} {ts : List Ty} (hT : Names ss ts)
    (ht : BeginsWith types ss x) (hx : ∀ s, x ≠ pyStr s) {args data : PyVal} {vs : List PyVal} {d : Bytes}
    (ha : IsListOf args vs) (hd : IsBytes data d) (strict : Bool) :
    ∃ e, defaultRegistry.encodeAny types args = .error e ∧ packedRegistry.encodeAny types args = .error e ∧
      defaultRegistry.decodeAny types data strict = .error e ∧
      (¬ IsStr x → e = .typeError) ∧
      (∀ s, x = .str s → (HasEmptyParens s → e = .valueError) ∧ (¬ HasEmptyParens s → e = .parseError)) := by
  obtain ⟨rest, ht⟩ := ht
  have hn := asTypeStr_none hx
  obtain ⟨e, he, hc⟩ := parseAny_error hn
  have hE : ∀ pk, (regBy pk).encodeAny types args = .error e := by
    intro pk
    have h1 : mapPyM (getEncoderAny (regBy pk)) (ss.map pyStr) = .ok (encsOf pk ts) := by
      rw [mapPyM_map, ← encoders_supported pk hT]
      exact mapPyM_congr_mem _ fun x _ => getEncoderAny_some _ x
    rcases mapPyM_stop (pre := ss.map pyStr) (rest := rest) (getEncoderAny_none pk hn he) with ⟨ys, -, h3⟩ | ⟨e', h2, -⟩
    · unfold Registry.encodeAny
      rw [listLikeItems_of ht, asListLike_param (isListOf_iff.1 ha)]
      simp only [ok_bind, h3, error_bind]
    · rw [h1] at h2
      cases h2
  have hD : defaultRegistry.decodeAny types data strict = .error e := by
    obtain ⟨ds, h1⟩ : ∃ ds, mapPyM (fun v => getDecoderAny defaultRegistry v strict) (ss.map pyStr) = .ok ds := by
      rcases supportedAll_decoders hT strict with ⟨ds, h⟩
      refine ⟨ds, ?_⟩
      rw [mapPyM_map, ← h]
      exact mapPyM_congr_mem _ fun x _ => getDecoderAny_some _ x strict
    rcases mapPyM_stop (pre := ss.map pyStr) (rest := rest) (f := fun v => getDecoderAny defaultRegistry v strict)
      (getDecoderAny_none hn strict he) with ⟨ys, -, h3⟩ | ⟨e', h2, -⟩
    · unfold Registry.decodeAny
      rw [listLikeItems_of ht]
      have hb : validateBytesParam data = .ok d := by cases hd <;> rfl
      simp only [ok_bind, hb, h3, error_bind]
    · rw [h1] at h2
      cases h2
  refine ⟨e, hE false, hE true, hD, ?_, ?_⟩
  · intro h
    rcases hc with ⟨h1, _⟩ | ⟨_, h2⟩
    · exact h1
    · exact (h h2).elim
  · rintro s rfl
    have := parseAny_surrogate hn
    exact ⟨fun h => Except.error.inj (he.symm.trans (this.1 h)), fun h => Except.error.inj (he.symm.trans (this.2 h))⟩

/-- **C72** (nothing else).  Only lists and tuples of supported type strings are accepted. -/
theorem C72_only_strings [Ext] {types args data : PyVal} {strict : Bool} :
    (∀ b, defaultRegistry.encodeAny types args = .ok b → ∃ ss ts, IsListOfStr types ss ∧ Names ss ts) ∧
    (∀ b, packedRegistry.encodeAny types args = .ok b → ∃ ss ts, IsListOfStr types ss ∧ Names ss ts) ∧
    (∀ v, defaultRegistry.decodeAny types data strict = .ok v → ∃ ss ts, IsListOfStr types ss ∧ Names ss ts) := by
  have key : ∀ (ss : List TypeStr), ((∃ ys, mapPyM (getEncoder defaultRegistry) ss = .ok ys) ∨
      (∃ ys, mapPyM (getEncoder packedRegistry) ss = .ok ys) ∨
      ∃ ys, mapPyM (fun s => getDecoder defaultRegistry s strict) ss = .ok ys) → ∃ ts, Names ss ts := by
    intro ss h
    rcases supportedAll_or ss with h1 | ⟨_, h2, h3⟩
    · exact h1
    · exfalso
      rcases h with ⟨ys, h⟩ | ⟨ys, h⟩ | ⟨ys, h⟩
      · obtain ⟨e, he, _⟩ := h2 false
        cases he.symm.trans h
      · obtain ⟨e, he, _⟩ := h2 true
        cases he.symm.trans h
      · obtain ⟨e, he, _⟩ := h3 strict
        cases he.symm.trans h
  have hE : ∀ pk b, (regBy pk).encodeAny types args = .ok b → ∃ ss ts, IsListOfStr types ss ∧ Names ss ts := by
    intro pk b h
    unfold Registry.encodeAny at h
    obtain ⟨vs, h1, h⟩ := bind_eq_ok.1 h
    obtain ⟨_, _, h⟩ := bind_eq_ok.1 h
    obtain ⟨ys, h2, _⟩ := bind_eq_ok.1 h
    have hl : IsListOf types vs := by
      cases types <;> first | (injection h1 with h1; subst h1; constructor) | cases h1
    rcases items_or vs with ⟨ss, rfl⟩ | ⟨ss, x, rest, rfl, hx⟩
    · rw [mapPyM_map] at h2
      have h3 := (mapPyM_congr_mem ss fun x _ => (getEncoderAny_some (regBy pk) x).symm).trans h2
      obtain ⟨ts, hts⟩ := key ss (by cases pk; exacts [.inl ⟨ys, h3⟩, .inr (.inl ⟨ys, h3⟩)])
      exact ⟨ss, ts, hl, hts⟩
    · exfalso
      obtain ⟨e, he, _⟩ := parseAny_error hx
      rcases mapPyM_stop (pre := ss.map pyStr) (rest := rest) (getEncoderAny_none pk hx he) with ⟨_, -, h3⟩ | ⟨_, -, h3⟩ <;>
        cases h3.symm.trans h2
  refine ⟨hE false, hE true, ?_⟩
  intro v h
  unfold Registry.decodeAny at h
  obtain ⟨vs, h1, h⟩ := bind_eq_ok.1 h
  obtain ⟨_, _, h⟩ := bind_eq_ok.1 h
  obtain ⟨ys, h2, _⟩ := bind_eq_ok.1 h
  have hl : IsListOf types vs := by
    cases types <;> first | (injection h1 with h1; subst h1; constructor) | cases h1
  rcases items_or vs with ⟨ss, rfl⟩ | ⟨ss, x, rest, rfl, hx⟩
  · rw [mapPyM_map] at h2
    have h3 := (mapPyM_congr_mem ss fun x _ => (getDecoderAny_some defaultRegistry x strict).symm).trans h2
    obtain ⟨ts, hts⟩ := key ss (.inr (.inr ⟨ys, h3⟩))
    exact ⟨ss, ts, hl, hts⟩
  · exfalso
    obtain ⟨e, he, _⟩ := parseAny_error hx
    rcases mapPyM_stop (pre := ss.map pyStr) (rest := rest) (f := fun v => getDecoderAny defaultRegistry v strict)
      (getDecoderAny_none hx strict he) with ⟨_, -, h3⟩ | ⟨_, -, h3⟩ <;> cases h3.symm.trans h2

/-- **C72** (questions).  `is_encodable_type` and `is_encodable` answer `False`, and raise nothing, for a type that is no
string or has a lone surrogate. -/
theorem C72_questions [Ext] {v : PyVal} (hv : ∀ s, v ≠ pyStr s) (arg : PyVal) :
    defaultRegistry.isEncodableTypeAny v = .ok false ∧ packedRegistry.isEncodableTypeAny v = .ok false ∧
    defaultRegistry.isEncodableAny v arg = .ok false ∧ packedRegistry.isEncodableAny v arg = .ok false := by
  have hn := asTypeStr_none hv
  obtain ⟨e, he, hc⟩ := parseAny_error hn
  have h : ∀ pk, hasEncoderAny (regBy pk) v = .ok false := by
    intro pk
    unfold hasEncoderAny
    rw [getEncoderAny_none pk hn he]
    rcases hc with ⟨rfl, _⟩ | ⟨rfl | rfl, _⟩ <;> rfl
  have h' : ∀ pk, (regBy pk).isEncodableAny v arg = .ok false := by
    intro pk
    unfold Registry.isEncodableAny Registry.isEncodableTypeAny
    rw [h pk]
    rfl
  exact ⟨h false, h true, h' false, h' true⟩

/-- **C72** (parse).  `grammar.parse` raises `TypeError` exactly for what is no string; a string with a lone surrogate is a
`ParseError`, or a `ValueError` if it contains `()`. -/
theorem C72_parse [Ext] (v : PyVal) : (parseAny v = .error .typeError ↔ ¬ IsStr v) ∧
    (∀ s, parseAny (pyStr s) = parse s) ∧
    ∀ s, v = .str s → (∀ s', v ≠ pyStr s') → (HasEmptyParens s → parseAny v = .error .valueError) ∧
      (¬ HasEmptyParens s → parseAny v = .error .parseError) := by
  have h2 : ∀ s, parseAny (pyStr s) = parse s := fun s => by
    unfold parseAny
    rw [asTypeStr_pyStr]
  refine ⟨?_, h2, fun s hs hv => hs ▸ parseAny_surrogate (asTypeStr_none (fun s' h => hv s' (hs ▸ h)))⟩
  cases h : asTypeStr? v with
  | some s =>
    obtain rfl := pyStr_asTypeStr h
    rw [h2]
    refine ⟨fun h => ?_, fun h => (h ⟨_, rfl⟩).elim⟩
    unfold parse at h
    split at h
    · split at h <;> cases h
    · split at h <;> cases h
  | none =>
    rcases parseAny_none h with ⟨h1, h3⟩ | ⟨h1, h3 | h3⟩
    · exact ⟨fun _ => h1, fun _ => h3⟩
    · exact ⟨fun h => (by rw [h3] at h; cases h), fun h => absurd h1 h⟩
    · exact ⟨fun h => (by rw [h3] at h; cases h), fun h => absurd h1 h⟩

/-! ## The hypotheses are met -/

example : letI := Ex.ext
    defaultRegistry.encodeAny (.tuple [pyStr t!"bool", pyStr t!"uint8"]) (.list [.bool true, .int 7]) =
      .ok (be32 1 ++ be32 7) ∧
    defaultRegistry.encodeAny (pyStr t!"bool") (.list [.bool true]) = .error .typeError ∧
    defaultRegistry.encodeAny (.list [pyStr t!"bool", .int 5]) (.list [.bool true, .int 7]) = .error .typeError ∧
    defaultRegistry.decodeAny (.list [pyStr t!"bool", .bytes [98, 111, 111, 108]]) (.bytes (be32 1 ++ be32 1)) true =
      .error .typeError ∧
    defaultRegistry.encodeAny (.list [.str [⟨0xd800, by decide⟩]]) (.list [.int 7]) = .error .parseError ∧
    defaultRegistry.encodeAny (.list [.str [⟨0xd800, by decide⟩, ⟨40, by decide⟩, ⟨41, by decide⟩]]) (.list [.int 7]) =
      .error .valueError ∧
    defaultRegistry.isEncodableAny (.int 5) (.int 7) = .ok false ∧
    defaultRegistry.isEncodableAny (pyStr t!"uint8") (.int 7) = .ok true := by
  decide +kernel

/-- An item that is no string after one that is, as in `C72_no_string`. -/
theorem Ex.begins [Ext] : Names [t!"bool"] [.bool] ∧ BeginsWith (.list [pyStr t!"bool", .int 5]) [t!"bool"] (.int 5) ∧
    ∀ s, PyVal.int 5 ≠ pyStr s :=
  ⟨.cons ⟨.bool, by decide⟩ .nil, ⟨[], .list _⟩, fun s h => by cases h⟩

end EthAbi
