import Verif.Lemmas.Classes
import Verif.Spec.Classes
import Verif.Props.Examples

/-!
# Property C64: `from_type_str` of the library's classes

`encoderFromTypeStr c look s` is `from_type_str(s, registry)` of the encoder class `c`, and `look` is
`registry.get_encoder`; `packedFromTypeStr` and `decoderFromTypeStr` are those of the packed encoders and of the
decoders.
-/
namespace EthAbi
open Spec

/-- **C64** (made).  A class makes, from any name of a type that it is for, the coder that the registry has for the
names of this type. -/
theorem C64_makes [Ext] {c : CoderClass} {s s' : TypeStr} {t : Ty} (hs : Spells true s t) (hc : IsFor c t)
    (hs' : Supported s' t) :
    (∃ e, encoderFromTypeStr c (getEncoder defaultRegistry) s = .ok e ∧ getEncoder defaultRegistry s' = .ok e) ∧
    (∃ e, packedFromTypeStr c (getEncoder packedRegistry) s = .ok e ∧ getEncoder packedRegistry s' = .ok e) ∧
    (∃ d, decoderFromTypeStr c (getDecoder defaultRegistry · true) s = .ok d ∧
      getDecoder defaultRegistry s' true = .ok d) := by
  have hm : made c t = .ok t := by cases hc <;> rfl
  refine ⟨⟨_, ?_, getEncoder_supported false hs'⟩, ⟨_, ?_, getEncoder_supported true hs'⟩,
    ⟨_, ?_, getDecoder_supported hs' true⟩⟩
  · rw [encoder_class hs, hm]; rfl
  · rw [packed_class hs, hm]; rfl
  · rw [decoder_class hs, hm]; rfl

/-- The name of a type that the class is not for should be refused with a `ValueError`.  Missing: the names of
`Overlooked`, for which this is false (`C64_overlooked`). -/
theorem C64_refuses_partial [Ext] {c : CoderClass} {s : TypeStr} {t : Ty} (hs : Spells true s t) (hc : ¬ IsFor c t)
    (ho : ¬ Overlooked c t) :
    encoderFromTypeStr c (getEncoder defaultRegistry) s = .error .valueError ∧
    packedFromTypeStr c (getEncoder packedRegistry) s = .error .valueError ∧
    decoderFromTypeStr c (getDecoder defaultRegistry · true) s = .error .valueError := by
  have hm : made c t = .error .valueError := made_refused hc ho
  refine ⟨?_, ?_, ?_⟩
  · rw [encoder_class hs, hm]; rfl
  · rw [packed_class hs, hm]; rfl
  · rw [decoder_class hs, hm]; rfl

/-- **C64** fails for the names of `Overlooked`.  The class of `bytes` makes its coder from `bytes5`, without the
size.  The class of `bytes5` raises `TypeError` for `bytes`.  The class of tuples makes, from an array of tuples, the
coder of the tuples. -/
theorem C64_overlooked [Ext] {s : TypeStr} :
    (∀ m, Spells true s (.bytesM m) →
      (∃ e, encoderFromTypeStr .byteString (getEncoder defaultRegistry) s = .ok e ∧
        getEncoder defaultRegistry t!"bytes" = .ok e) ∧
      (∃ e, packedFromTypeStr .byteString (getEncoder packedRegistry) s = .ok e ∧
        getEncoder packedRegistry t!"bytes" = .ok e) ∧
      (∃ d, decoderFromTypeStr .byteString (getDecoder defaultRegistry · true) s = .ok d ∧
        getDecoder defaultRegistry t!"bytes" true = .ok d)) ∧
    (Spells true s .bytes →
      encoderFromTypeStr .bytes (getEncoder defaultRegistry) s = .error .typeError ∧
      packedFromTypeStr .bytes (getEncoder packedRegistry) s = .error .typeError ∧
      decoderFromTypeStr .bytes (getDecoder defaultRegistry · true) s = .error .typeError) ∧
    (∀ ts t s', Spells true s t → ArrayOf (.tuple ts) t → Supported s' (.tuple ts) →
      (∃ e, encoderFromTypeStr .tuple (getEncoder defaultRegistry) s = .ok e ∧
        getEncoder defaultRegistry s' = .ok e) ∧
      (∃ e, packedFromTypeStr .tuple (getEncoder packedRegistry) s = .ok e ∧ getEncoder packedRegistry s' = .ok e) ∧
      (∃ d, decoderFromTypeStr .tuple (getDecoder defaultRegistry · true) s = .ok d ∧
        getDecoder defaultRegistry s' true = .ok d)) := by
  refine ⟨fun m hs => ?_, fun hs => ?_, fun ts t s' hs ha hs' => ?_⟩
  · have hb : Supported t!"bytes" .bytes := ⟨.bytes, by decide⟩
    refine ⟨⟨_, ?_, getEncoder_supported false hb⟩, ⟨_, ?_, getEncoder_supported true hb⟩,
      ⟨_, ?_, getDecoder_supported hb true⟩⟩
    · rw [encoder_class hs]; rfl
    · rw [packed_class hs]; rfl
    · rw [decoder_class hs]; rfl
  · refine ⟨?_, ?_, ?_⟩
    · rw [encoder_class hs]; rfl
    · rw [packed_class hs]; rfl
    · rw [decoder_class hs]; rfl
  · have hm : made .tuple t = .ok (.tuple ts) := by rw [made, innermost_arrayOf ha]; rfl
    refine ⟨⟨_, ?_, getEncoder_supported false hs'⟩, ⟨_, ?_, getEncoder_supported true hs'⟩,
      ⟨_, ?_, getDecoder_supported hs' true⟩⟩
    · rw [encoder_class hs, hm]; rfl
    · rw [packed_class hs, hm]; rfl
    · rw [decoder_class hs, hm]; rfl

/-- **C64** (no type).  A string that is not the name of a type is refused by every class. -/
theorem C64_no_type [Ext] (c : CoderClass) {s : TypeStr} (hs : ∀ t, ¬ Spells true s t) :
    (∃ e, encoderFromTypeStr c (getEncoder defaultRegistry) s = .error e ∧ (NoName e ∨ e = .noEntriesFound)) ∧
    (∃ e, packedFromTypeStr c (getEncoder packedRegistry) s = .error e ∧ (NoName e ∨ e = .noEntriesFound)) ∧
    (∃ e, decoderFromTypeStr c (getDecoder defaultRegistry · true) s = .error e ∧ (NoName e ∨ e = .noEntriesFound)) := by
  have key : ∀ {C : Type} {r : PyM C}, (∃ e, r = .error e ∧ TypeErr e) →
      ∃ e, r = .error e ∧ (NoName e ∨ e = .noEntriesFound) := by
    rintro C r ⟨e, he, rfl | rfl | rfl | rfl | rfl⟩
    · exact ⟨_, he, Or.inl .parseError⟩
    · exact ⟨_, he, Or.inl .valueError⟩
    · exact ⟨_, he, Or.inl .visitationError⟩
    · exact ⟨_, he, Or.inl .abiTypeError⟩
    · exact ⟨_, he, Or.inr rfl⟩
  rw [encoderFromTypeStr_plan, packedFromTypeStr_plan, decoderFromTypeStr_plan]
  exact ⟨key ((class_plan (encKit_makes false) c s fun _ => encoder_nested false).2 hs),
    key ((class_plan (encKit_makes true) c s fun _ => encoder_nested true).2 hs),
    key ((class_plan decKit_makes c s fun _ => decoder_nested).2 hs)⟩

/-- **C64** (no lookups).  The classes of elementary types look up nothing in the registry, so it can be any, also
one without registrations. -/
theorem C64_alone [Ext] {c : CoderClass} (h1 : c ≠ .array) (h2 : c ≠ .tuple) (s : TypeStr) :
    (∀ look look', encoderFromTypeStr c look s = encoderFromTypeStr c look' s) ∧
    (∀ look look', packedFromTypeStr c look s = packedFromTypeStr c look' s) ∧
    (∀ look look', decoderFromTypeStr c look s = decoderFromTypeStr c look' s) := by
  refine ⟨fun _ _ => ?_, fun _ _ => ?_, fun _ _ => ?_⟩ <;>
    cases c <;> first | rfl | exact absurd rfl h1 | exact absurd rfl h2

/-- **C64** (classes of one's own).  A `from_type_str` with the decorator `parse_type_str(base, with_arrlist)` for a
word that the library gives no meaning is called for exactly the strings of the grammar with this word, any sub part,
and array dimensions if and only if these are asked for; it gets the parts as they stand in the string. -/
theorem C64_own_class [Ext] {base : List Char} (hb : OwnWord base) (withArrlist : Bool) (s : TypeStr) (a : ABIType) :
    parseTypeStr (some base) withArrlist s = .ok a ↔
      ∃ sub arr w dims, DerivesSub sub w ∧ DerivesDims arr dims ∧ (ABIType.basic base sub arr).numsOk = true ∧
        (arr ≠ [] ↔ withArrlist = true) ∧ s = base ++ w ++ dims ∧ a = .basic base sub arr := by
  rw [own_parse hb]
  constructor
  · intro h
    cases hp : parse s with
    | error e => rw [hp] at h; cases h
    | ok a' =>
      rw [hp] at h
      obtain ⟨hd, hn⟩ := parse_ok_iff.1 hp
      rcases a' with ⟨b, sub, arr⟩ | ⟨cs, arr⟩
      · simp only at h
        split at h
        · next hc =>
          obtain ⟨rfl, hw⟩ := hc
          cases h
          cases hd with
          | basic _ _ h1 h2 => exact ⟨_, _, _, _, h1, h2, hn, hw, rfl, rfl⟩
        · cases h
      · cases h
  · rintro ⟨sub, arr, w, dims, h1, h2, hn, hw, rfl, rfl⟩
    rw [parse_ok_iff.2 ⟨.basic hb.1 hb.2.1 h1 h2, hn⟩]
    simp only [hw, and_self, if_true]

/-- **C64** (classes of one's own, refusals).  Otherwise it is not called, and the caller gets a `ParseError`, a
`ValueError` or a `VisitationError`; it is a `ValueError` for every other string of the grammar. -/
theorem C64_own_refuses [Ext] {base : List Char} (hb : OwnWord base) {withArrlist : Bool} {s : TypeStr} {e : Exc}
    (h : parseTypeStr (some base) withArrlist s = .error e) :
    NoName e ∧ e ≠ .abiTypeError ∧ (∀ a, parse s = .ok a → e = .valueError) := by
  rw [own_parse hb] at h
  cases hp : parse s with
  | error e' =>
    rw [hp] at h
    cases h
    rcases parse_error_exc hp with rfl | rfl | rfl
    · exact ⟨.parseError, by decide, fun a ha => by cases ha⟩
    · exact ⟨.valueError, by decide, fun a ha => by cases ha⟩
    · exact ⟨.visitationError, by decide, fun a ha => by cases ha⟩
  | ok a' =>
    rw [hp] at h
    have : e = .valueError := by
      rcases a' with ⟨b, sub, arr⟩ | ⟨cs, arr⟩
      · simp only at h
        split at h <;> cases h
        rfl
      · cases h; rfl
    subst this
    exact ⟨.valueError, by decide, fun _ _ => rfl⟩

/-! ## Examples -/

example [Ext] : Spells true t!"byte" (.bytesM 1) ∧ IsFor .bytes (.bytesM 1) ∧ Supported t!"bytes1" (.bytesM 1) :=
  ⟨.byte, .bytes, .bytesM (m := 1) (by decide) (by decide), by decide⟩

example [Ext] : Spells true t!"int256" (.int 256) ∧ ¬ IsFor .uint (.int 256) ∧ ¬ Overlooked .uint (.int 256) :=
  ⟨.int (n := 256) (by decide), nofun, nofun⟩

example : OwnWord t!"myint" := ⟨by decide, by simp only [IsLetter]; decide, by decide⟩

/-- The decoder of `byte` with the 32 bytes of `b"a"`, and what the class of `uint8` says to `int8`. -/
example : letI := Ex.ext
    (decoderFromTypeStr .bytes (getDecoder defaultRegistry · true) t!"byte" >>= fun d =>
      (d.call (fun _ => true) ⟨97 :: List.replicate 31 0, 0, [], 0⟩).map (·.1)) = .ok (.bytes [97]) ∧
    (encoderFromTypeStr .uint (getEncoder defaultRegistry) t!"int8" >>= fun e => e.call (.int 1)) =
      .error .valueError := by
  decide +kernel

/-- The coder that the class of tuples makes from the name of an array of tuples takes one tuple. -/
example : letI := Ex.ext
    (encoderFromTypeStr .tuple (getEncoder defaultRegistry) t!"(uint8,bool)[3][]" >>= fun e =>
      e.call (.tuple [.int 1, .bool true])) = .ok (List.replicate 31 0 ++ [1] ++ List.replicate 31 0 ++ [1]) := by
  decide +kernel

end EthAbi
