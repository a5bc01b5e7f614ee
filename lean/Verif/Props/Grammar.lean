import Verif.Lemmas.LookupNorm
import Verif.Lemmas.Accept
import Verif.Lemmas.Shadow
import Verif.Props.Examples

/-! # C21–C26, C41, C45: type strings -/
namespace EthAbi
open Spec

/-! ## C21 -/

/-- **C21.**  `parse(s)` returns `t` exactly if `s` is derived from the grammar with the result `t`
and no run of digits in `s` is too long for Python's `int`. -/
theorem C21_parse [Ext] (s : TypeStr) (t : ABIType) :
    parse s = .ok t ↔ Derives t s ∧ DigitRunsFit s := by
  rw [parse_ok_iff]
  exact and_congr_right fun h => numsOk_iff h

/-- **C21.**  The grammar is unambiguous: a string has at most one derivation. -/
theorem C21_unique {s : TypeStr} {t u : ABIType} (ht : Derives t s) (hu : Derives u s) : t = u :=
  derives_unique ht hu

/-- **C21.**  A string outside the grammar raises `ValueError` if it contains `()` and `ParseError`
otherwise. -/
theorem C21_rejects [Ext] {s : TypeStr} (h : ∀ t, ¬ Derives t s) :
    (t!"()" <:+: s → parse s = .error .valueError) ∧
    (¬ t!"()" <:+: s → parse s = .error .parseError) := by
  cases hp : parse s with
  | ok t => exact absurd (parse_ok_iff.1 hp).1 (h t)
  | error e =>
    rcases parse_error hp with ⟨_, t, ht, _⟩ | ⟨_, rfl⟩
    · exact absurd ht (h t)
    · constructor
      · intro h'; rw [if_pos (hasEmptyParens_iff.2 h')]
      · intro h'; rw [if_neg fun h'' => h' (hasEmptyParens_iff.1 h'')]

/-- **C21.**  A string of the grammar with a numeral that `int` does not convert raises
`VisitationError`. -/
theorem C21_too_long [Ext] {s : TypeStr} {t : ABIType} (h : Derives t s) (hf : ¬ DigitRunsFit s) :
    parse s = .error .visitationError := by
  cases hp : parse s with
  | ok u => exact absurd ((C21_parse s u).1 hp).2 hf
  | error e =>
    rcases parse_error hp with ⟨rfl, _⟩ | ⟨h', _⟩
    · rfl
    · exact absurd h (h' t)

/-- `(uint8,fixed128x18[])[3]`. -/
example : @parse Ex.ext t!"(uint8,fixed128x18[])[3]" =
    .ok (.tuple [.basic t!"uint" (.one 8) [], .basic t!"fixed" (.two 128 18) [none]] [some 3]) := by
  rfl

/-- The derivation behind it. -/
example : Derives (.tuple [.basic t!"uint" (.one 8) [], .basic t!"fixed" (.two 128 18) [none]] [some 3])
    t!"(uint8,fixed128x18[])[3]" :=
  letI := Ex.ext
  ((C21_parse _ _).1 rfl).1

/-- `(uint08)` and `()` are outside. -/
example : @parse Ex.ext t!"(uint08)" = .error .parseError ∧ @parse Ex.ext t!"(a,())" = .error .valueError := by
  constructor <;> rfl

theorem ones_numeral (n : Nat) : ∃ m, Numeral m (List.replicate (n + 1) '1') := by
  induction n with
  | zero => exact ⟨_, .one (c := '1') (by decide) (by decide)⟩
  | succ n ih =>
    obtain ⟨m, h⟩ := ih
    rw [List.replicate_succ']
    exact ⟨_, .snoc (c := '1') h (by decide) (by decide)⟩

/-- Under a limit of 640 digits, any array size of more digits. -/
example (n : Nat) (hn : 640 ≤ n) : @parse ⟨fun _ _ => 0, fun _ => false, some 640, by simp, false⟩
    (t!"a[" ++ List.replicate (n + 1) '1' ++ t!"]") = .error .visitationError := by
  letI : Ext := ⟨fun _ _ => 0, fun _ => false, some 640, by simp, false⟩
  obtain ⟨m, hm⟩ := ones_numeral n
  refine C21_too_long (t := .basic t!"a" .none [some m]) ?_ ?_
  · have := Derives.basic (base := t!"a") (s1 := []) (by decide)
      (by simp only [List.mem_singleton, forall_eq]; exact Or.inr ⟨by decide, by decide⟩) .none
      (.sized (s := []) hm .nil)
    simpa using this
  · intro h
    have := h 640 rfl (List.replicate (n + 1) '1') ⟨t!"a[", t!"]", rfl⟩ (by
      intro c hc; rw [List.eq_of_mem_replicate hc]; decide)
    rw [List.length_replicate] at this
    omega

/-! ## C22 -/

/-- **C22.**  `parse(s).to_type_str() == s`. -/
theorem C22_to_type_str [Ext] {s : TypeStr} {t : ABIType} (h : parse s = .ok t) : t.toTypeStr = s :=
  (derives_str (parse_ok_iff.1 h).1).symm

/-- **C22.**  `parse(t.to_type_str())` is `t` again. -/
theorem C22_parse [Ext] {s : TypeStr} {t : ABIType} (h : parse s = .ok t) : parse t.toTypeStr = .ok t := by
  rw [C22_to_type_str h]; exact h

example : (ABIType.tuple [.basic t!"uint" (.one 8) [], .basic t!"fixed" (.two 128 18) [none]] [some 3]).toTypeStr
    = t!"(uint8,fixed128x18[])[3]" :=
  letI := Ex.ext
  C22_to_type_str (s := t!"(uint8,fixed128x18[])[3]") rfl

/-! ## C23 -/

/-- **C23.**  `normalize` is idempotent. -/
theorem C23_idempotent [Ext] (s : TypeStr) : normalize (normalize s) = normalize s := normalize_idem s

/-- **C23.**  `normalize(s)` parses exactly if `s` does, and otherwise raises the same exception. -/
theorem C23_parses [Ext] (s : TypeStr) :
    ((∃ t, parse s = .ok t) ↔ ∃ t, parse (normalize s) = .ok t) ∧
    (∀ e, parse s = .error e ↔ parse (normalize s) = .error e) := by
  rw [parse_normalize]
  cases parse s <;> simp

/-- **C23.**  `normalize(s)` is `s` with the whole words that are abbreviations replaced, and nothing
else changed. -/
theorem C23_words [Ext] (s s' : TypeStr) : normalize s = s' ↔ Replaced s s' :=
  ⟨fun h => h ▸ replaced_self s.length s le_rfl, fun h => (replaced_normalize h).symm⟩

example : @normalize Ex.ext t!"(int,uint8,byte[2],fixed)[]" =
    t!"(int256,uint8,bytes1[2],fixed128x18)[]" := by rfl

/-- Not only type strings are affected; part of a word is not. -/
example : @normalize Ex.ext t!"my_int int-int8" = t!"my_int int256-int8" := by rfl

/-! ## C24 -/

/-- **C24.**  `is_encodable_type` never raises. -/
theorem C24_total [Ext] (s : TypeStr) : ∃ b, isEncodableType s = .ok b := by
  rcases isEncodableType_by false s with ⟨_, h⟩ | ⟨_, h⟩
  · exact ⟨_, h⟩
  · exact ⟨_, h⟩

/-- **C24.**  `is_encodable_type(s)` holds for the names of types, including a `bool` with an
(ignored) size, but not for a bare `byte`. -/
theorem C24_accepts [Ext] (s : TypeStr) :
    isEncodableType s = .ok true ↔ (∃ t, Spells true s t) ∧ s ≠ t!"byte" := by
  rcases isEncodableType_by false s with ⟨⟨t, h1, h2⟩, h⟩ | ⟨h1, h⟩
  · exact ⟨fun _ => ⟨⟨t, h1⟩, h2⟩, fun _ => h⟩
  · refine ⟨fun h' => ?_, fun ⟨⟨t, h2⟩, h3⟩ => absurd ⟨h2, h3⟩ (h1 t)⟩
    have h : isEncodableType s = .ok false := h
    rw [h] at h'
    cases h'

theorem spells_strict_lax [Ext] {s : TypeStr} {t : Ty} (h : Spells false s t) : Spells true s t := by
  refine Spells.rec (motive_1 := fun s t _ => Spells true s t)
    (motive_2 := fun s ts _ => SpellsComps true s ts)
    ?_ ?_ ?_ ?_ ?_ ?_ ?_ ?_ ?_ ?_ ?_ ?_ ?_ ?_ ?_ ?_ ?_ ?_ ?_ ?_ ?_ h
  · exact fun h => .uint h
  · exact fun h => .int h
  · exact .uint256
  · exact .int256
  · exact .address
  · exact .bool
  · exact fun h => by cases h
  · exact fun h1 h2 h3 => .ufixed h1 h2 h3
  · exact fun h1 h2 h3 => .fixed h1 h2 h3
  · exact .ufixed128x18
  · exact .fixed128x18
  · exact fun h1 h2 => .bytesM h1 h2
  · exact .byte
  · exact .function
  · exact .bytes
  · exact .string
  · exact fun _ h1 h2 ih => .sized ih h1 h2
  · exact fun _ ih => .dyn ih
  · exact fun _ ih => .tuple ih
  · exact fun _ ih => .one ih
  · exact fun _ _ ih ih' => .cons ih ih'

theorem spells_lax_strict [Ext] {s : TypeStr} {t : Ty} (h : Spells true s t) :
    ¬ HasSizedBool s → Spells false s t := by
  refine Spells.rec (motive_1 := fun s t _ => ¬ HasSizedBool s → Spells false s t)
    (motive_2 := fun s ts _ => ¬ HasSizedBool s → SpellsComps false s ts)
    ?_ ?_ ?_ ?_ ?_ ?_ ?_ ?_ ?_ ?_ ?_ ?_ ?_ ?_ ?_ ?_ ?_ ?_ ?_ ?_ ?_ h
  · exact fun h _ => .uint h
  · exact fun h _ => .int h
  · exact fun _ => .uint256
  · exact fun _ => .int256
  · exact fun _ => .address
  · exact fun _ => .bool
  · intro sub s _ hs hn hb
    have : ∀ {n w r}, Numeral n w → s = w ++ r → HasSizedBool (t!"bool" ++ s) := by
      intro n w r hn e
      obtain ⟨_, hd, c, cs, rfl, _⟩ := numeral_value hn
      exact ⟨c, isDigit_iff.1 (hd c (by simp)), [], cs ++ r, by simp [e]⟩
    cases hs with
    | none => exact .bool
    | one h => exact absurd (this (r := []) h (by simp)) hb
    | two h1 h2 => exact absurd (this h1 (List.append_assoc ..)) hb
  · exact fun h1 h2 h3 _ => .ufixed h1 h2 h3
  · exact fun h1 h2 h3 _ => .fixed h1 h2 h3
  · exact fun _ => .ufixed128x18
  · exact fun _ => .fixed128x18
  · exact fun h1 h2 _ => .bytesM h1 h2
  · exact fun _ => .byte
  · exact fun _ => .function
  · exact fun _ => .bytes
  · exact fun _ => .string
  · intro s t k _ h1 h2 ih hb
    refine .sized (ih fun ⟨d, h, h'⟩ => hb ⟨d, h, h'.trans ⟨[], _, by simp; rfl⟩⟩) h1 h2
  · intro s t _ ih hb
    exact .dyn (ih fun ⟨d, h, h'⟩ => hb ⟨d, h, h'.trans ⟨[], _, by simp; rfl⟩⟩)
  · intro s ts _ ih hb
    exact .tuple (ih fun ⟨d, h, h'⟩ => hb ⟨d, h, h'.trans ⟨_, _, rfl⟩⟩)
  · exact fun _ ih hb => .one (ih hb)
  · intro s s' t ts _ _ ih ih' hb
    exact .cons (ih fun ⟨d, h, h'⟩ => hb ⟨d, h, h'.trans ⟨[], _, by simp; rfl⟩⟩)
      (ih' fun ⟨d, h, h'⟩ => hb ⟨d, h, h'.trans ⟨s ++ t!",", [], by simp⟩⟩)

/-- **C24, partial.**  Missing: a bare `byte`, and `bool` followed by a digit.  For every other string
`is_encodable_type` says whether it names a type of the ABI specification. -/
theorem C24_supported_partial [Ext] {s : TypeStr} (h1 : s ≠ t!"byte") (h2 : ¬ HasSizedBool s) :
    isEncodableType s = .ok true ↔ ∃ t, Spells false s t := by
  rw [C24_accepts]
  exact ⟨fun ⟨⟨t, h⟩, _⟩ => ⟨t, spells_lax_strict h h2⟩, fun ⟨t, h⟩ => ⟨⟨t, spells_strict_lax h⟩, h1⟩⟩

theorem spells_bool [Ext] {s : TypeStr} {t : Ty} (h : Spells false s t) (ht : t = .bool) :
    s = t!"bool" := by
  cases h <;> first | (cases ht; done) | rfl | skip
  next h _ _ => cases h

/-- `byte` is a name that is refused, although `byte[]` and `(byte)` are accepted. -/
theorem C24_byte_false [Ext] : Spells false t!"byte" (.bytesM 1) ∧ isEncodableType t!"byte" = .ok false ∧
    isEncodableType t!"byte[]" = .ok true ∧ isEncodableType t!"(byte)" = .ok true := by
  refine ⟨.byte, ?_, ?_, ?_⟩
  · rcases isEncodableType_by false t!"byte" with ⟨⟨t, _, h⟩, _⟩ | ⟨_, h⟩
    · exact absurd rfl h
    · exact h
  · exact (C24_accepts _).2 ⟨⟨_, .dyn (s := t!"byte") .byte⟩, by decide⟩
  · exact (C24_accepts _).2 ⟨⟨_, .tuple (s := t!"byte") (.one .byte)⟩, by decide⟩

/-- `bool8` is accepted although it names no type. -/
theorem C24_bool_false [Ext] : isEncodableType t!"bool8" = .ok true ∧ ∀ t, ¬ Spells false t!"bool8" t := by
  have h : Spells true t!"bool8" .bool :=
    .boolSub (s := t!"8") rfl (.one (.one (c := '8') (by decide) (by decide))) (numOk_of_lt (by decide))
  refine ⟨(C24_accepts _).2 ⟨⟨_, h⟩, by decide⟩, fun t ht => ?_⟩
  have := spells_unique h (spells_strict_lax ht)
  subst this
  exact absurd (spells_bool ht rfl) (by decide)

example : @isEncodableType Ex.ext t!"(uint,bool[2])[]" = .ok true :=
  letI := Ex.ext
  (C24_supported_partial (s := t!"(uint,bool[2])[]") (by decide) (by
    rintro ⟨d, hd, h⟩
    have hm : d ∈ t!"(uint,bool[2])[]" := h.subset (by simp)
    simp only [List.mem_cons, List.not_mem_nil, or_false] at hm
    rcases hm with rfl | rfl | rfl | rfl | rfl | rfl | rfl | rfl | rfl | rfl | rfl | rfl | rfl | rfl |
      rfl | rfl <;> first | exact absurd hd (by decide) | exact absurd h (by decide))).2
    ⟨_, .dyn (s := t!"(uint,bool[2])") (.tuple (s := t!"uint,bool[2]")
      (.cons (s := t!"uint") (s' := t!"bool[2]") .uint256
        (.one (.sized (s := t!"bool") (k := 2) .bool (by decide) (by decide)))))⟩

example : @isEncodableType Ex.ext t!"uint7" = .ok false := by rfl

/-! ## C25 -/

/-- **C25.**  The parsed type's `is_dynamic`, that of the encoder and that of the decoder all are
the ABI specification's. -/
theorem C25_dynamic [Ext] {s : TypeStr} {t : Ty} (h : Supported s t) :
    (∃ a, parse s = .ok a ∧ a.isDynamic = t.dynamic) ∧
    (∃ e, getEncoder defaultRegistry s = .ok e ∧ e.isDynamic = some t.dynamic) ∧
    (∀ strict, ∃ d, getDecoder defaultRegistry s strict = .ok d ∧ d.isDynamic = some t.dynamic) := by
  refine ⟨?_, ?_, fun strict => ?_⟩
  · obtain ⟨a, h1, h2, h3⟩ := spells_iff.1 h.1
    exact ⟨a, parse_ok_iff.2 ⟨h1, h2⟩, (normTy_dynamic a).symm.trans (meaning_dynamic _ t h3)⟩
  · exact ⟨_, getEncoder_supported false h, (encOf_good false t (supported_valid h)).isDyn⟩
  · refine ⟨_, getDecoder_supported h strict, ?_⟩
    rw [← (decOf_good t).isDyn]
    unfold Decoder.setStrict
    split
    · split <;> rfl
    · rfl

/-- **C25.**  `encode` puts a value into the tail, with an offset in its head, exactly if the type is
dynamic. -/
theorem C25_placement [Ext] {types : List TypeStr} {ts : List Ty} (hT : Names types ts) {args : PyVal}
    {b : Bytes} (h : encode types args = .ok b) :
    ∃ es, es.map Prod.fst = ts.map (·.dynamic) ∧ b = layout es := by
  obtain ⟨xs, hx, rfl⟩ := shadow_encode hT h
  refine ⟨_, ?_, rfl⟩
  clear hT h
  induction ts generalizing xs with
  | nil => cases xs with
    | nil => rfl
    | cons x xs => exact hx.elim
  | cons t ts ih =>
    cases xs with
    | nil => exact hx.elim
    | cons x xs =>
      simp only [shadows, encAll, List.map_cons, shadow_dynamic]
      rw [ih xs hx.2]

/-- The heads of `encode(["uint8", "bytes"], ...)`: a word in place and an offset. -/
example (b : Bytes) (h : @encode Ex.ext [t!"uint8", t!"bytes"] (.list [.int 3, .bytes [1]]) = .ok b) :
    ∃ es, es.map Prod.fst = [false, true] ∧ b = layout es :=
  letI := Ex.ext
  C25_placement (types := [t!"uint8", t!"bytes"]) (ts := [.uint 8, .bytes])
    (.cons ⟨.uint (n := 8) (by decide), by decide⟩ (.cons ⟨.bytes, by decide⟩ .nil)) h

example : ∃ a, @parse Ex.ext t!"(uint8,bytes)[2]" = .ok a ∧ a.isDynamic = true :=
  letI := Ex.ext
  (C25_dynamic (s := t!"(uint8,bytes)[2]") (t := .sized 2 (.tuple [.uint 8, .bytes]))
    ⟨.sized (s := t!"(uint8,bytes)") (k := 2) (.tuple (s := t!"uint8,bytes")
      (.cons (s := t!"uint8") (s' := t!"bytes") (.uint (n := 8) (by decide)) (.one .bytes)))
      (by decide) (by decide), by decide⟩).1

/-! ## C26 -/

/-- No string is accepted by the matchers of two of these registrations. -/
def Unambiguous [Ext] {V : Type} (qs : List (Pred × V)) : Prop :=
  ∀ s, qs.Pairwise fun q r => ¬ (q.1.matches s = .ok true ∧ r.1.matches s = .ok true)

theorem pairwise_of_filter {α : Type} (p : α → Bool) (l : List α) (h : (l.filter p).length ≤ 1) :
    l.Pairwise fun a b => ¬ (p a = true ∧ p b = true) := by
  induction l with
  | nil => exact .nil
  | cons a l ih =>
    rw [List.filter_cons] at h
    refine .cons ?_ (ih ?_)
    · rintro b hb ⟨h1, h2⟩
      rw [if_pos h1] at h
      have := List.length_pos_of_mem (List.mem_filter.2 ⟨hb, h2⟩)
      simp only [List.length_cons] at h
      omega
    · split at h
      · simp only [List.length_cons] at h; omega
      · exact h

theorem default_unambiguous [Ext] {V : Type} (n : Nat) (u i a b uf f bm by_ fn s arr tup : V) :
    Unambiguous (mappingOf n defaultPreds [u, i, a, b, uf, f, bm, by_, fn, s, arr, tup]).values := by
  intro str
  have hk := default_kinds n [u, i, a, b, uf, f, bm, by_, fn, s, arr, tup]
  cases hp : parse str with
  | ok t =>
    obtain ⟨p, he⟩ := find_pick n u i a b uf f bm by_ fn s arr tup t
    have := pairwise_of_filter (fun q => q.1.kind.test t)
      (mappingOf n defaultPreds [u, i, a, b, uf, f, bm, by_, fn, s, arr, tup]).values (by
        rw [he]; split <;> simp)
    refine List.Pairwise.imp_of_mem ?_ this
    intro q r hq hr h
    have hm : ∀ q ∈ (mappingOf n defaultPreds [u, i, a, b, uf, f, bm, by_, fn, s, arr, tup]).values,
        q.1.matches str = .ok (q.1.kind.test t) := by
      intro q hq
      rcases hk q hq with ⟨b, w, hk⟩ | hk | hk <;>
        simp [Pred.matches, hk, onParsed, hp, PredKind.test]
    rw [hm q hq, hm r hr]
    simpa using h
  | error e =>
    refine List.Pairwise.imp_of_mem ?_ (List.pairwise_of_forall fun _ _ => trivial)
    intro q r hq _ _ ⟨h, _⟩
    have : q.1.matches str = if e = .parseError || e.isValueError then .ok false else .error e := by
      rcases hk q hq with ⟨b, w, hk⟩ | hk | hk <;> simp [Pred.matches, hk, onParsed, hp]
    rw [this] at h
    split at h <;> cases h

/-- **C26.**  No string is accepted by two matchers of the default encoders, of the default decoders,
or of the packed encoders. -/
theorem C26_unambiguous [Ext] : Unambiguous defaultRegistry.encoders.values ∧
    Unambiguous defaultRegistry.decoders.values ∧ Unambiguous packedRegistry.encoders.values :=
  ⟨default_unambiguous 0 _ _ _ _ _ _ _ _ _ _ _ _, default_unambiguous 0 _ _ _ _ _ _ _ _ _ _ _ _,
    default_unambiguous 100 _ _ _ _ _ _ _ _ _ _ _ _⟩

/-- **C26.**  A string has an encoder exactly if it has a decoder. -/
theorem C26_symmetric [Ext] (s : TypeStr) (strict : Bool) :
    (∃ e, getEncoder defaultRegistry s = .ok e) ↔ ∃ d, getDecoder defaultRegistry s strict = .ok d := by
  rcases getEncoder_default s with ⟨t, h1, h2⟩ | ⟨h1, e, h2, _⟩
  · exact ⟨fun _ => ⟨_, getDecoder_supported h1 strict⟩, fun _ => ⟨_, h2⟩⟩
  · rcases getDecoder_default s strict with ⟨t, h3, _⟩ | ⟨_, e', h4, _⟩
    · exact absurd h3 (h1 t)
    · rw [h2, h4]
      exact ⟨fun ⟨_, h⟩ => (by cases h), fun ⟨_, h⟩ => (by cases h)⟩

/-- **C26.**  A lookup in the default registry never raises `MultipleEntriesFound`. -/
theorem C26_no_conflict [Ext] (s : TypeStr) (strict : Bool) :
    getEncoder defaultRegistry s ≠ .error .multipleEntriesFound ∧
    getDecoder defaultRegistry s strict ≠ .error .multipleEntriesFound := by
  have hT : ¬ TypeErr .multipleEntriesFound := by simp [TypeErr]
  constructor
  · intro h
    rcases getEncoder_default s with ⟨t, _, h2⟩ | ⟨_, e, h2, h3⟩
    · rw [h] at h2; cases h2
    · rw [h] at h2; cases h2; exact hT h3
  · intro h
    rcases getDecoder_default s strict with ⟨t, _, h2⟩ | ⟨_, e, h2, h3⟩
    · rw [h] at h2; cases h2
    · rw [h] at h2; cases h2; exact hT h3

/-- There are twelve registrations of each kind, and `bytes4` matches one of them. -/
example : (@defaultRegistry Ex.ext).encoders.values.length = 12 ∧
    ((@defaultRegistry Ex.ext).encoders.values.filter fun q =>
      decide (@Pred.matches Ex.ext q.1 t!"bytes4" = .ok true)).length = 1 := by
  constructor <;> rfl

/-! ## C41 -/

theorem mapPyM_congr {α β : Type} {f : α → PyM β} {g : α → PyM β} {h : α → α} {xs : List α}
    (e : ∀ x ∈ xs, f (h x) = g x) : mapPyM f (xs.map h) = mapPyM g xs := by
  induction xs with
  | nil => rfl
  | cons x xs ih =>
    rw [List.map_cons, mapPyM, mapPyM, e x (by simp), ih fun y hy => e y (by simp [hy])]

theorem encode_normalize [Ext] (pk : Bool) {types : List TypeStr} (h : ∀ s ∈ types, s ≠ t!"byte")
    (args : PyVal) : (regBy pk).encode (types.map normalize) args = (regBy pk).encode types args := by
  unfold Registry.encode
  rw [mapPyM_congr fun s hs => getEncoder_normalize pk (h s hs)]

/-- **C41, partial.**  Missing: an argument of the bare type string `byte`.  `encode`, `decode`,
`is_encodable` and the packed functions do the same, exceptions included, with the abbreviations
replaced anywhere in the type strings. -/
theorem C41_aliases_partial [Ext] {types types' : List TypeStr} (h : List.Forall₂ Replaced types types')
    (hb : ∀ s ∈ types, s ≠ t!"byte") :
    (∀ args, encode types' args = encode types args) ∧
    (∀ args, encodePacked types' args = encodePacked types args) ∧
    (∀ data strict, decode types' data strict = decode types data strict) := by
  have e : types' = types.map normalize := by
    clear hb
    induction h with
    | nil => rfl
    | cons h _ ih => rw [List.map_cons, ← ih, replaced_normalize h]
  subst e
  refine ⟨fun args => encode_normalize false hb args, fun args => encode_normalize true hb args,
    fun data strict => ?_⟩
  unfold decode Registry.decode Registry.decodeWith
  rw [mapPyM_congr (g := fun s => getDecoder defaultRegistry s strict)
    fun s hs => getDecoder_normalize (hb s hs) strict]

/-- **C41, partial.**  Missing: the bare type string `byte`. -/
theorem C41_is_encodable_partial [Ext] {s s' : TypeStr} (h : Replaced s s') (hb : s ≠ t!"byte") (v : PyVal) :
    isEncodableType s' = isEncodableType s ∧ isEncodable s' v = isEncodable s v ∧
    isEncodablePacked s' v = isEncodablePacked s v := by
  have key : ∀ pk, (regBy pk).isEncodableType s' = (regBy pk).isEncodableType s ∧
      (regBy pk).isEncodable s' v = (regBy pk).isEncodable s v := by
    intro pk
    have := getEncoder_normalize pk hb
    rw [← replaced_normalize h] at this
    simp only [Registry.isEncodable, Registry.isEncodableType, hasEncoder, this, and_self]
  exact ⟨(key false).1, (key false).2, (key true).2⟩

/-- A bare `byte` is not `bytes1`: `encode(["byte"], [b"a"])` raises, `encode(["bytes1"], [b"a"])`
does not. -/
theorem C41_byte_false [Ext] : Replaced t!"byte" t!"bytes1" ∧
    (∃ e, encode [t!"byte"] (.list [.bytes [97]]) = .error e) ∧
    (∃ b, encode [t!"bytes1"] (.list [.bytes [97]]) = .ok b) := by
  have h0 : Alias t!"byte" t!"bytes1" := .byte
  refine ⟨Replaced.alias (s := []) (s' := []) h0 (fun c h => by cases h) .nil, ?_, ?_⟩
  · rcases getEncoder_default t!"byte" with ⟨t, h, _⟩ | ⟨_, e, h, _⟩
    · exact absurd rfl h.2
    · refine ⟨e, ?_⟩
      simp only [encode, Registry.encode, validateListLikeParam, mapPyM, h, ok_bind, error_bind]
  · have hT : Names [t!"bytes1"] [.bytesM 1] :=
      .cons ⟨.bytesM (m := 1) (by decide) (by decide), by decide⟩ .nil
    exact ⟨_, encode_of hT (.list _) (xs := [.raw [97]]) rfl (by decide +kernel)⟩

example : @encode Ex.ext [t!"(int,byte)[]", t!"function"]
      (.list [.list [.tuple [.int (-1), .bytes [7]]], .bytes (List.replicate 24 9)]) =
    @encode Ex.ext [t!"(int256,bytes1)[]", t!"bytes24"]
      (.list [.list [.tuple [.int (-1), .bytes [7]]], .bytes (List.replicate 24 9)]) :=
  letI := Ex.ext
  ((C41_aliases_partial (types := [t!"(int,byte)[]", t!"function"])
    (types' := [t!"(int256,bytes1)[]", t!"bytes24"])
    (.cons ((C23_words _ _).1 rfl) (.cons ((C23_words _ _).1 rfl) .nil)) (by decide)).1 _).symm

/-! ## C45 -/

/-- **C45.**  Parsed types are equal (in Python's sense) exactly if the strings are, and exactly if
they are the same type. -/
theorem C45_equality [Ext] {s1 s2 : TypeStr} {t1 t2 : ABIType} (h1 : parse s1 = .ok t1)
    (h2 : parse s2 = .ok t2) : (t1.pyEq t2 = true ↔ s1 = s2) ∧ (s1 = s2 ↔ t1 = t2) := by
  have e1 := C22_to_type_str h1
  have e2 := C22_to_type_str h2
  have hs : s1 = s2 ↔ t1 = t2 := by
    constructor
    · rintro rfl; rw [h1] at h2; exact Except.ok.inj h2
    · rintro rfl; rw [← e1, ← e2]
  refine ⟨⟨fun h => ?_, fun h => ?_⟩, hs⟩
  · rw [← e1, ← e2]
    cases t1 <;> cases t2 <;> first | exact eq_of_beq h | cases h
  · rw [hs] at h
    subst h
    cases t1 <;> exact beq_self_eq_true _

example : (ABIType.basic t!"uint" .none [some 2]).pyEq (.basic t!"uint" .none [none]) = false := by rfl

end EthAbi
