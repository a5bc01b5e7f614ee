import Verif.Lemmas.Accept
import Verif.Props.Examples

/-!
# C04, C17, C35, C46: what is accepted and how the rest is refused

`NoSurrogates v`: no text in `v` holds a lone surrogate, so it has a UTF-8 form.
`128 * weight v < 2 ^ 256`: the value is not larger than any machine could hold.
-/
namespace EthAbi
open Spec

/-- A text that no Python codec for UTF-8 can encode. -/
def loneSurrogate : PyStr := [⟨0xD800, by decide⟩]

/-! ## C04 -/

/-- **C04, part.**  `is_encodable` says whether `encode` returns, for every type string and value; or
it raises, and so does `encode`: `ValueError` if the value holds an integer of too many digits, `TypeError` if it holds a
`complex` or a `Fraction` where the type has a fixed-point number.  Missing: values that hold a lone surrogate, see
`C04_isEncodable_false`, and an answer in the last two cases, see `C04_raises_false` and `C04_odd_false`. -/
theorem C04_isEncodable_partial [Ext] (s : TypeStr) (v : PyVal) (hs : NoSurrogates v)
    (hw : 128 * weight v < 2 ^ 256) :
    (isEncodable s v = .ok true ∧ ∃ b, encode [s] (.list [v]) = .ok b) ∨
    (isEncodable s v = .ok false ∧ ∃ e, encode [s] (.list [v]) = .error e) ∨
    (isEncodable s v = .error .valueError ∧ ¬ Printable v ∧ ∃ e, encode [s] (.list [v]) = .error e) ∨
    (isEncodable s v = .error .typeError ∧ (∃ t, Supported s t ∧ HoldsOdd t v) ∧
      encode [s] (.list [v]) = .error .typeError) := by
  by_cases h : ∃ t, Supported s t
  · obtain ⟨t, ht⟩ := h
    have he : encode [s] (.list [v]) = _ := encode_one false ht v
    rcases isEncodable_supported false ht v with ⟨h1, h2⟩ | ⟨e, h1, _, h2⟩ | ⟨h1, hp, h2⟩ | ⟨h1, ho, h2⟩
    · obtain ⟨b, hb⟩ := call_accepts (pk := false) (supported_valid ht) h1 hs hw
      exact Or.inl ⟨h2, by rw [he, h1, hb]; exact ⟨_, rfl⟩⟩
    · exact Or.inr (Or.inl ⟨h2, by rw [he, h1]; exact ⟨_, rfl⟩⟩)
    · exact Or.inr (Or.inr (Or.inl ⟨h2, hp, by rw [he, h1]; exact ⟨_, rfl⟩⟩))
    · exact Or.inr (Or.inr (Or.inr ⟨h2, ⟨t, ht, ho⟩, by rw [he, h1]; rfl⟩))
  · simp only [not_exists] at h
    refine Or.inr (Or.inl ⟨isEncodable_unsupported false h v, encode_unsupported false ?_ _⟩)
    intro ts hts
    cases hts with
    | cons h1 _ => exact h _ h1

/-- **C04, one direction in full.**  What `encode` accepts, `is_encodable` accepts. -/
theorem C04_encode_isEncodable [Ext] {s : TypeStr} {v : PyVal} {b : Bytes}
    (h : encode [s] (.list [v]) = .ok b) : isEncodable s v = .ok true := by
  obtain ⟨ts, _, hts, _⟩ := encode_ok (pk := false) h
  cases hts with
  | cons ht _ =>
    have he : encode [s] (.list [v]) = _ := encode_one false ht v
    rcases isEncodable_supported false ht v with ⟨_, h2⟩ | ⟨e, h1, _, _⟩ | ⟨h1, _, _⟩ | ⟨h1, _, _⟩
    · exact h2
    · rw [he, h1] at h; cases h
    · rw [he, h1] at h; cases h
    · rw [he, h1] at h; cases h

/-- **C04, the gap.**  When `is_encodable` says yes, `encode` returns if and only if the value holds
no lone surrogates. -/
theorem C04_gap [Ext] {s : TypeStr} {v : PyVal} (hw : 128 * weight v < 2 ^ 256)
    (h : isEncodable s v = .ok true) :
    (∃ b, encode [s] (.list [v]) = .ok b) ↔ NoSurrogates v := by
  constructor
  · rintro ⟨b, hb⟩
    obtain ⟨ts, _, hts, _⟩ := encode_ok (pk := false) hb
    cases hts with
    | @cons _ t _ _ ht _ =>
      have he : encode [s] (.list [v]) = _ := encode_one false ht v
      rw [he, bind_eq_ok] at hb
      obtain ⟨_, _, hb⟩ := hb
      rw [bind_eq_ok] at hb
      obtain ⟨c, hc, _⟩ := hb
      exact call_noSurrogates false t (supported_valid ht) v c hc
  · intro hs
    rcases C04_isEncodable_partial s v hs hw with ⟨_, h1⟩ | ⟨h1, _⟩ | ⟨h1, _⟩ | ⟨h1, _⟩
    · exact h1
    · rw [h] at h1; cases h1
    · rw [h] at h1; cases h1
    · rw [h] at h1; cases h1

/-- `is_encodable("string", "\\ud800")` is `True` but `encode` raises `UnicodeEncodeError`. -/
theorem C04_isEncodable_false [Ext] : isEncodable t!"string" (.str loneSurrogate) = .ok true ∧
    encode [t!"string"] (.list [.str loneSurrogate]) = .error .unicodeEncodeError := by
  have ht : Supported t!"string" .string := ⟨.string, by decide⟩
  constructor
  · rcases isEncodable_supported false ht (.str loneSurrogate) with ⟨_, h⟩ | ⟨e, h, _⟩ | ⟨h, _⟩ | ⟨h, _⟩
    · exact h
    · cases h
    · cases h
    · cases h
  · refine (encode_one false ht (.str loneSurrogate)).trans ?_
    rfl

/-- An integer of more than `k` digits. -/
theorem unprintable_pow [Ext] {k : Nat} (hk : Ext.maxStrDigits = some k) : ¬ Printable (.int (10 ^ k)) := by
  intro h
  have : ((10 : Int) ^ k).natAbs < 10 ^ k := h k hk
  rw [Int.natAbs_pow] at this
  exact absurd this (lt_irrefl _)

theorem uint8_pow [Ext] {k : Nat} (hk : Ext.maxStrDigits = some k) :
    (encOf false (.uint 8)).validateValue (.int (10 ^ k)) = .error .valueError := by
  have h3 : (10 : Int) ^ 3 ≤ 10 ^ k :=
    pow_le_pow_right₀ (by norm_num) (by have := Ext.maxStrDigits_ge k hk; omega)
  show intValidate (computeUnsignedIntegerBounds 8) (.int (10 ^ k)) = _
  rw [show computeUnsignedIntegerBounds 8 = (0, 255) from rfl,
    intValidate_out (Or.inr (by omega)) (printableInt_of_lt (Nat.pow_pos (by decide)))
      (printableInt_of_lt (lt_of_lt_of_le (show 255 < 10 ^ 3 by decide)
        (Nat.pow_le_pow_right (by decide) (by decide)))),
    shown_not (unprintable_pow hk)]

/-- **C04, negation for integers of too many digits.**  Where Python limits the digits of the integers it
prints to `k`, `is_encodable("uint8", 10 ** k)` raises `ValueError`. -/
theorem C04_raises_false [Ext] {k : Nat} (hk : Ext.maxStrDigits = some k) :
    isEncodable t!"uint8" (.int (10 ^ k)) = .error .valueError ∧
    encode [t!"uint8"] (.list [.int (10 ^ k)]) = .error .valueError := by
  have ht : Supported t!"uint8" (.uint 8) := ⟨.uint (n := 8) (by decide), by decide⟩
  have hv := uint8_pow hk
  constructor
  · rcases isEncodable_supported false ht (.int (10 ^ k)) with ⟨h, _⟩ | ⟨e, h, h', _⟩ | ⟨_, _, h⟩ | ⟨_, h, _⟩
    · rw [hv] at h; cases h
    · rw [hv] at h; cases h; cases h'
    · exact h
    · exact h.elim
  · refine (encode_one false ht (.int (10 ^ k))).trans ?_
    rw [hv]
    rfl

/-- **C04, negation for numbers that Python does not mix with a `Decimal`.**  `is_encodable("fixed128x18", 1j)` and
`is_encodable("fixed128x18", Fraction(1, 2))` raise `TypeError`. -/
theorem C04_odd_false [Ext] : ∀ v ∈ [PyVal.complex, .fraction 1 2], isEncodable t!"fixed128x18" v = .error .typeError ∧
    encode [t!"fixed128x18"] (.list [v]) = .error .typeError := by
  have ht : Supported t!"fixed128x18" (.fixed 128 18) := ⟨.fixed (m := 128) (n := 18) (by decide) (by decide) (by decide), by decide⟩
  intro v hv
  have h1 : (encOf false (.fixed 128 18)).validateValue v = .error .typeError := by
    simp only [List.mem_cons, List.not_mem_nil, or_false] at hv
    rcases hv with rfl | rfl <;> rfl
  constructor
  · rcases isEncodable_supported false ht v with ⟨h, _⟩ | ⟨e, h, h', _⟩ | ⟨h, _⟩ | ⟨_, _, h⟩
    · rw [h1] at h; cases h
    · rw [h1] at h; cases h; cases h'
    · rw [h1] at h; cases h
    · exact h
  · refine (encode_one false ht v).trans ?_
    rw [h1]
    rfl

example : @isEncodable Ex.ext t!"(uint8,string)[]" (.list [.tuple [.int 255, .str (ofChars t!"a")]]) =
    .ok true ∧ @isEncodable Ex.ext t!"(uint8,string)[]" (.list [.tuple [.int 256, .str []]]) = .ok false ∧
    @isEncodable Ex.ext t!"uint9" (.int 1) = .ok false := by decide +kernel

example : (∃ b, @encode Ex.ext [t!"(uint8,string)[]"]
    (.list [.list [.tuple [.int 255, .str (ofChars t!"a")]]]) = .ok b) :=
  letI := Ex.ext
  (C04_gap (by decide) (by decide +kernel)).2 (by simp [NoSurrogates, NoSurrogatesAll]; decide)

/-! ## C17 -/

/-- **C17, part.**  Every exception `encode` raises for supported types and a list of arguments is
an `EncodingError`.  Missing: a `UnicodeEncodeError`, only for arguments that hold a lone
surrogate, see `C17_errors_false`; a `ValueError`, only for arguments that hold an integer of too many digits, see
`C17_digits_false`; and a `TypeError`, only for a `complex` or a `Fraction` where the type has a fixed-point number, see
`C17_odd_false`. -/
theorem C17_errors_partial [Ext] {types : List TypeStr} {ts : List Ty} (hT : Names types ts)
    {args : PyVal} {vs : List PyVal} (ha : IsListOf args vs) {e : Exc}
    (h : encode types args = .error e) :
    e.isEncodingError = true ∨ (e = .unicodeEncodeError ∧ ¬ NoSurrogatesAll vs) ∨
      (e = .valueError ∧ (128 * weight args < 2 ^ 256 → ¬ PrintableAll vs)) ∨
      (e = .typeError ∧ HoldsOddAny ts vs) := by
  have he : encode types args = _ := encode_eq false hT (isListOf_iff.1 ha)
  rw [he] at h
  have hg := top_good false (supportedAll_valid hT)
  cases hval : (mkTuple (encsOf false ts)).validateValue args with
  | error er =>
    have h' : tupleEncode (encsOf false ts) args = .error e := h
    have hval' : tupleValidate (encsOf false ts) args = .error er := hval
    simp only [tupleEncode, hval', error_bind] at h'
    cases h'
    rcases (hg.valErr args _ hval).refusal (boundsPrintableAll_iff.2 fun t ht =>
        valid_bounds t (supportedAll_valid hT t ht)) with (h | ⟨h, hp⟩) | ⟨h, us, hu, ho⟩
    · exact Or.inl h
    · exact Or.inr (Or.inr (Or.inl ⟨h, fun _ h => hp ((printable_list (isListOf_like ha)).2 h)⟩))
    · rw [isListOf_like ha] at hu
      cases hu
      exact Or.inr (Or.inr (Or.inr ⟨h, ho⟩))
  | ok u =>
    rcases hg.total args hval with ⟨b, hb, _⟩ | ⟨h1, h2⟩ | ⟨er, h1, ht, hw⟩
    · rw [h] at hb; cases hb
    · rw [h] at h1
      cases h1
      refine Or.inr (Or.inl ⟨rfl, fun h3 => h2 ((noSurrogates_list (isListOf_like ha)).2 h3)⟩)
    · rw [h] at h1
      cases h1
      rcases ht with rfl | rfl
      · exact Or.inl rfl
      · exact Or.inr (Or.inr (Or.inl ⟨rfl, fun hw' => absurd hw' (by omega)⟩))

/-- A `UnicodeEncodeError`, which is not an `EncodingError`, escapes from `encode`. -/
theorem C17_errors_false [Ext] : ¬ ∀ (types : List TypeStr) (ts : List Ty), Names types ts →
    ∀ (vs : List PyVal) (e : Exc), encode types (.list vs) = .error e → e.isEncodingError = true := by
  intro h
  have := h [t!"string"] [.string] (.cons ⟨.string, by decide⟩ .nil) _ _ C04_isEncodable_false.2
  cases this

/-- Where Python limits the digits of the integers it prints to `k`, `encode(["uint8"], [10 ** k])` raises a
`ValueError` that is not an `EncodingError`. -/
theorem C17_digits_false [Ext] {k : Nat} (hk : Ext.maxStrDigits = some k) :
    ¬ ∀ (types : List TypeStr) (ts : List Ty), Names types ts → ∀ (vs : List PyVal), NoSurrogatesAll vs →
      ∀ e : Exc, encode types (.list vs) = .error e → e.isEncodingError = true := by
  intro h
  have := h [t!"uint8"] [.uint 8] (.cons ⟨.uint (n := 8) (by decide), by decide⟩ .nil)
    [.int (10 ^ k)] (by simp [NoSurrogatesAll, NoSurrogates]) _ (C04_raises_false hk).2
  cases this

/-- A `TypeError` escapes from `encode` for a `complex` and for a `Fraction`. -/
theorem C17_odd_false [Ext] : ∀ v ∈ [PyVal.complex, .fraction 1 2],
    ¬ ∀ (types : List TypeStr) (ts : List Ty), Names types ts → ∀ vs : List PyVal, v ∈ vs →
      ∀ e : Exc, encode types (.list vs) = .error e → e.isEncodingError = true := by
  intro v hv h
  have := h [t!"fixed128x18"] [.fixed 128 18]
    (.cons ⟨.fixed (m := 128) (n := 18) (by decide) (by decide) (by decide), by decide⟩ .nil) [v] (by simp) _ (C04_odd_false v hv).2
  cases this

example : @encode Ex.ext Ex.types (.list [.int 1, .int 2, .int 3, .int 4]) =
    .error .encodingTypeError := by decide +kernel

example : Exc.encodingTypeError.isEncodingError = true ∨ (Exc.encodingTypeError = .unicodeEncodeError ∧
    ¬ NoSurrogatesAll [.int 1, .int 2, .int 3, .int 4]) ∨ (Exc.encodingTypeError = .valueError ∧
    (128 * weight (.list [.int 1, .int 2, .int 3, .int 4]) < 2 ^ 256 → ¬ @PrintableAll Ex.ext [.int 1, .int 2, .int 3, .int 4])) ∨
    (Exc.encodingTypeError = .typeError ∧ HoldsOddAny Ex.tys [.int 1, .int 2, .int 3, .int 4]) :=
  letI := Ex.ext
  C17_errors_partial Ex.names (.list [.int 1, .int 2, .int 3, .int 4]) (by decide +kernel)

/-! ## C35 -/

/-- **C35.**  `is_encodable_packed` and `is_encodable` give the same answer, for every type string and
every value; or both raise `ValueError`, only for values that hold an integer of too many digits; or both raise
`TypeError`, only for a `complex` or a `Fraction` where the type has a fixed-point number. -/
theorem C35_isEncodable [Ext] (s : TypeStr) (v : PyVal) :
    (∃ r, isEncodable s v = .ok r ∧ isEncodablePacked s v = .ok r) ∨
    (¬ Printable v ∧ isEncodable s v = .error .valueError ∧ isEncodablePacked s v = .error .valueError) ∨
    ((∃ t, Supported s t ∧ HoldsOdd t v) ∧ isEncodable s v = .error .typeError ∧
      isEncodablePacked s v = .error .typeError) := by
  by_cases h : ∃ t, Supported s t
  · obtain ⟨t, ht⟩ := h
    have hp := validate_packed t (supported_valid ht) v
    rcases isEncodable_supported false ht v with ⟨h1, h2⟩ | ⟨e, h1, he, h2⟩ | ⟨h1, hpr, h2⟩ | ⟨h1, ho, h2⟩
    · refine .inl ⟨true, h2, ?_⟩
      rcases isEncodable_supported true ht v with ⟨_, h3⟩ | ⟨e, h3, _⟩ | ⟨h3, _⟩ | ⟨h3, _⟩
      · exact h3
      · rw [hp, h1] at h3; cases h3
      · rw [hp, h1] at h3; cases h3
      · rw [hp, h1] at h3; cases h3
    · refine .inl ⟨false, h2, ?_⟩
      rcases isEncodable_supported true ht v with ⟨h3, _⟩ | ⟨e, _, _, h3⟩ | ⟨h3, _⟩ | ⟨h3, _⟩
      · rw [hp, h1] at h3; cases h3
      · exact h3
      · rw [hp, h1] at h3; cases h3; cases he
      · rw [hp, h1] at h3; cases h3; cases he
    · refine .inr (.inl ⟨hpr, h2, ?_⟩)
      rcases isEncodable_supported true ht v with ⟨h3, _⟩ | ⟨e, h3, he, _⟩ | ⟨_, _, h3⟩ | ⟨h3, _⟩
      · rw [hp, h1] at h3; cases h3
      · rw [hp, h1] at h3; cases h3; cases he
      · exact h3
      · rw [hp, h1] at h3; cases h3
    · refine .inr (.inr ⟨⟨t, ht, ho⟩, h2, ?_⟩)
      rcases isEncodable_supported true ht v with ⟨h3, _⟩ | ⟨e, h3, he, _⟩ | ⟨h3, _⟩ | ⟨_, _, h3⟩
      · rw [hp, h1] at h3; cases h3
      · rw [hp, h1] at h3; cases h3; cases he
      · rw [hp, h1] at h3; cases h3
      · exact h3
  · simp only [not_exists] at h
    exact .inl ⟨false, isEncodable_unsupported false h v, isEncodable_unsupported true h v⟩

/-- All cases occur. -/
example : @isEncodablePacked Ex.ext t!"uint8[]" (.list [.int 256]) = .ok false ∧
    @isEncodablePacked Ex.ext t!"uint8[]" (.list [.int (10 ^ 4300)]) = .error .valueError ∧
    @isEncodablePacked Ex.ext t!"ufixed8x1[]" (.seq [.fraction 3 1]) = .error .typeError ∧
    @isEncodablePacked Ex.ext t!"ufixed8x1[]" (.seq [.fraction 300 7]) = .ok false ∧
    @isEncodablePacked Ex.ext t!"uint8[]" (.seq [.int 5]) = .ok true := by
  decide +kernel

/-- What one registry accepts the other accepts. -/
theorem accepts_other [Ext] (pk : Bool) {types : List TypeStr} {args : PyVal}
    (hw : 128 * weight args < 2 ^ 256) {b : Bytes} (h : (regBy pk).encode types args = .ok b) :
    ∃ b', (regBy !pk).encode types args = .ok b' := by
  obtain ⟨ts, vs, hT, ha, _⟩ := encode_ok h
  have hv := supportedAll_valid hT
  rw [encode_eq pk hT ha] at h
  rw [encode_eq (!pk) hT ha]
  have hval := (top_good pk hv).callVal args b h
  have hns := tuple_noSurrogates (fun t ht => call_noSurrogates pk t (hv t ht)) h
  have hval' : (mkTuple (encsOf (!pk) ts)).validateValue args = .ok () := by
    have hp := tupleValidate_packed hv (fun t ht => validate_packed t (hv t ht)) args
    cases pk
    · exact hp.trans hval
    · exact hp.symm.trans hval
  rcases (top_good (!pk) hv).total args hval' with ⟨b', hb', _⟩ | ⟨_, h1⟩ | ⟨_, _, _, h1⟩
  · exact ⟨b', hb'⟩
  · exact absurd hns h1
  · omega

/-- **C35.**  `encode_packed` returns for exactly the arguments for which `encode` returns. -/
theorem C35_encode [Ext] (types : List TypeStr) (args : PyVal) (hw : 128 * weight args < 2 ^ 256) :
    (∃ b, encodePacked types args = .ok b) ↔ ∃ b, encode types args = .ok b :=
  ⟨fun ⟨_, h⟩ => accepts_other true hw h, fun ⟨_, h⟩ => accepts_other false hw h⟩

example : ∃ b, @encodePacked Ex.ext Ex.types (.list Ex.args) = .ok b :=
  letI := Ex.ext
  (C35_encode Ex.types (.list Ex.args) (by decide +kernel)).2 ⟨_, Ex.encodes⟩

/-! ## C46 -/

/-- **C46.**  `encode` and `encode_packed` raise `TypeError` unless `args` is a list or a tuple. -/
theorem C46_args [Ext] (types : List TypeStr) (args : PyVal) (h : ∀ vs, ¬ IsListOf args vs) :
    encode types args = .error .typeError ∧ encodePacked types args = .error .typeError := by
  have : listOrTuple? args = none := by
    cases ha : listOrTuple? args with
    | none => rfl
    | some vs => exact absurd (isListOf_iff.2 ha) (h vs)
  exact ⟨by simp only [encode, Registry.encode, asListLike_none this, error_bind],
    by simp only [encodePacked, Registry.encode, asListLike_none this, error_bind]⟩

/-- **C46.**  `decode` raises `TypeError` unless `data` is `bytes` or `bytearray`. -/
theorem C46_data [Ext] (types : List TypeStr) (data : PyVal) (strict : Bool)
    (h : ∀ d, ¬ IsBytes data d) : decode types data strict = .error .typeError := by
  have : asBytes? data = none := by
    cases hd : asBytes? data with
    | none => rfl
    | some d => exact absurd (isBytes_iff.2 hd) (h d)
  simp only [decode, Registry.decode, Registry.decodeWith, validateBytesParam, this, error_bind]

/-- **C46.**  A wrong number of arguments is a `ValueOutOfBounds`; a `ValueError` if the arguments hold an
integer of too many digits, which the message cannot quote. -/
theorem C46_count [Ext] {types : List TypeStr} {ts : List Ty} (hT : Names types ts) {args : PyVal}
    {vs : List PyVal} (ha : IsListOf args vs) (hn : vs.length ≠ types.length) :
    ∃ e, encode types args = .error e ∧ encodePacked types args = .error e ∧
      (PrintableAll vs → e = .valueOutOfBounds) ∧ (¬ PrintableAll vs → e = .valueError) := by
  have hb := isListOf_like ha
  have ha := isListOf_iff.1 ha
  have hl : types.length = ts.length := List.Forall₂.length_eq hT
  have key : ∀ pk, (mkTuple (encsOf pk ts)).call args = .error (shown args .valueOutOfBounds) := by
    intro pk
    show tupleEncode (encsOf pk ts) args = _
    have : tupleValidate (encsOf pk ts) args = .error (shown args .valueOutOfBounds) := by
      simp only [tupleValidate, hb, encsOf_length, invalidate_eq]
      rw [if_pos (by omega)]
    simp only [tupleEncode, this, error_bind]
  refine ⟨_, (encode_eq false hT ha).trans (key false), (encode_eq true hT ha).trans (key true), ?_, ?_⟩
  · exact fun h => shown_of ((printable_list hb).2 h) _
  · exact fun h => shown_not (fun h' => h ((printable_list hb).1 h')) _

example : @encode Ex.ext Ex.types (.bytes [1]) = .error .typeError ∧
    @encodePacked Ex.ext Ex.types (.bytes [1]) = .error .typeError :=
  letI := Ex.ext
  C46_args _ _ (fun _ h => by cases h)

/-- A `range` or a `deque` is no argument list, though it may stand inside one. -/
example : @encode Ex.ext Ex.types (.seq []) = .error .typeError ∧
    @encodePacked Ex.ext Ex.types (.seq []) = .error .typeError :=
  letI := Ex.ext
  C46_args _ _ (fun _ h => by cases h)

example : @encode Ex.ext [t!"uint8[]"] (.list [.seq [.int 7]]) = .ok (be32 32 ++ be32 1 ++ be32 7) ∧
    @encode Ex.ext [t!"(uint8,bool)"] (.list [.seq [.int 7, .bool true]]) = .ok (be32 7 ++ be32 1) := by
  decide +kernel

example : @decode Ex.ext Ex.types (.str []) true = .error .typeError :=
  letI := Ex.ext
  C46_data _ _ _ (fun _ h => by cases h)

example : @encode Ex.ext Ex.types (.tuple []) = .error .valueOutOfBounds :=
  letI := Ex.ext
  let ⟨_, h, _, h1, _⟩ := C46_count Ex.names (.tuple []) (by decide)
  h1 trivial ▸ h

end EthAbi
