import Verif.Lemmas.Declined
import Verif.Props.Grammar
import Verif.Props.Encodable

/-!
# C80: which exception a type string without a coder leads to
-/
namespace EthAbi
open Spec

theorem alone_byte {a : ABIType} (hd : Derives a t!"byte") : a = .basic t!"byte" .none [] :=
  derives_unique hd (derives_word (b := t!"byte") (by decide))

theorem refusal_alone {b : List Char} {sub : Sub} {s : TypeStr} (h : s ≠ t!"byte") :
    refusal (.basic b sub []) s = (uncodedExc (normBase b sub)).getD .abiTypeError := by
  unfold refusal
  rw [if_neg h]

theorem refusal_inside {a : ABIType} {s : TypeStr} (h : s ≠ t!"byte") (ha : ¬ Alone a) :
    refusal a s = if (normTy a).validate = .ok () then (firstExc (normTy a)).getD .noEntriesFound else .abiTypeError := by
  unfold refusal
  rw [if_neg h]
  split
  · exact absurd ⟨_, _, rfl⟩ ha
  · rfl

theorem declined_lookup [Ext] {C : Type} {L : PyM C} {s : TypeStr} (h1 : ∀ e, parse s = .error e → L = .error e)
    (h2 : ∀ a, Derives a s → a.numsOk = true → found a s = none → L = .error (refusal a s))
    (h3 : ∀ a, Derives a s → a.numsOk = true → ∀ t, found a s = some t → ∃ c, L = .ok c) (e : Exc) :
    L = .error e ↔ Declined s e := by
  constructor
  · intro hL
    cases hp : parse s with
    | error e' =>
      rw [h1 e' hp] at hL
      cases hL
      by_cases hd : ∃ t, Derives t s
      · obtain ⟨t, ht⟩ := hd
        have hf : ¬ DigitRunsFit s := fun hf => by rw [(C21_parse s t).2 ⟨ht, hf⟩] at hp; cases hp
        rw [C21_too_long ht hf] at hp
        cases hp
        exact .digits ht hf
      · have hd' : ∀ t, ¬ Derives t s := fun t ht => hd ⟨t, ht⟩
        by_cases hparen : t!"()" <:+: s
        · rw [(C21_rejects hd').1 hparen] at hp
          cases hp
          exact .parens hd' hparen
        · rw [(C21_rejects hd').2 hparen] at hp
          cases hp
          exact .grammar hd' hparen
    | ok a =>
      obtain ⟨hd, hn⟩ := parse_ok_iff.1 hp
      have hfit := ((C21_parse s a).1 hp).2
      cases hf : found a s with
      | some t =>
        obtain ⟨c, hc⟩ := h3 a hd hn t hf
        rw [hc] at hL; cases hL
      | none =>
        rw [h2 a hd hn hf] at hL
        cases hL
        by_cases hb : s = t!"byte"
        · subst hb
          exact .byte
        unfold found at hf
        rw [if_neg hb] at hf
        by_cases ha : Alone a
        · obtain ⟨b, sub, rfl⟩ := ha
          rw [refusal_alone hb]
          cases hu : uncodedExc (normBase b sub) with
          | some e => exact .uncoded hd hfit ((uncoded_iff _ _ _).2 hu)
          | none =>
            have hc : Coded (normBase b sub).1 := by
              by_contra hc
              rw [uncodedExc, if_neg hc] at hu
              split at hu <;> cases hu
            have hm : baseTy (normBase b sub).1 (normBase b sub).2 = none := by
              simpa [normTy, meaning, wrapDims] using hf
            have hv : validateBasic (normBase b sub).1 (normBase b sub).2 = .error .abiTypeError := by
              rcases validateBasic_cases (normBase b sub).1 (normBase b sub).2 with hv | hv
              · obtain ⟨t, ht⟩ := coded_type hc hv (fun m h => norm_pos hd h)
                rw [hm] at ht; cases ht
              · exact hv
            have hi := (ill_iff b sub).2 hv
            refine .ill hd hfit ?_ hi
            rcases normBase_cases b sub with ⟨h, _⟩ | ⟨_, h⟩
            · exact absurd h hi.1
            · rwa [h] at hc
        · rw [refusal_inside hb ha]
          split
          · next hv =>
            have hd' := normalize_type hd
            rw [derives_str hd'] at hd'
            obtain ⟨e, he⟩ := firstExc_some (normTy a) hd' hv hf
            rw [he]
            exact .uncodedInside hd hfit ha ((not_ill_iff a).1 hv) ((firstUncoded_iff a e).2 he)
          · next hv =>
            rw [not_ill_iff] at hv
            push Not at hv
            obtain ⟨p, hp, hi⟩ := hv
            exact .illInside hd hfit ha hp hi
  · have num : ∀ {t}, Derives t s → DigitRunsFit s → t.numsOk = true := fun {t} ht hf =>
      (parse_ok_iff.1 ((C21_parse s t).2 ⟨ht, hf⟩)).2
    intro h
    cases h with
    | parens h h' => exact h1 _ ((C21_rejects h).1 h')
    | grammar h h' => exact h1 _ ((C21_rejects h).2 h')
    | digits h h' => exact h1 _ (C21_too_long h h')
    | byte =>
      have hd := derives_word (b := t!"byte") (by decide)
      rw [h2 _ hd rfl rfl]
      rfl
    | @ill _ b sub hd hf hc hi =>
      have hb : s ≠ t!"byte" := by
        rintro rfl
        cases alone_byte hd
        revert hc; decide
      have e : normBase b sub = (b, sub) := by
        rcases normBase_cases b sub with ⟨h, _⟩ | ⟨_, h⟩
        · exact absurd h hi.1
        · exact h
      rw [h2 _ hd (num hd hf), refusal_alone hb, e, uncodedExc, if_pos hc]
      · rfl
      · unfold found
        rw [if_neg hb]
        cases hm : meaning (normTy (.basic b sub [])) with
        | none => rfl
        | some t =>
          have := validate_of_meaning _ _ hm
          rw [not_ill_iff] at this
          exact absurd hi (this (b, sub) (by simp [names]))
    | @uncoded _ b sub _ hd hf hu =>
      have hb : s ≠ t!"byte" := by
        rintro rfl
        cases alone_byte hd
        cases hu with
        | other _ _ h => exact h ⟨rfl, _, .byte⟩
      have hu' := (uncoded_iff _ _ _).1 hu
      rw [h2 _ hd (num hd hf), refusal_alone hb, hu']
      · rfl
      · unfold found
        rw [if_neg hb]
        cases hm : meaning (normTy (.basic b sub [])) with
        | none => rfl
        | some t =>
          have := firstExc_none hm (normBase b sub) (by simp [normTy, names])
          rw [this] at hu'; cases hu'
    | @illInside _ t p hd hf ha hp hi =>
      have hb : s ≠ t!"byte" := by
        rintro rfl
        exact ha ⟨_, _, alone_byte hd⟩
      have hv : (normTy t).validate ≠ .ok () := fun hv => (not_ill_iff t).1 hv p hp hi
      rw [h2 _ hd (num hd hf), refusal_inside hb ha, if_neg hv]
      unfold found
      rw [if_neg hb]
      cases hm : meaning (normTy t) with
      | none => rfl
      | some u => exact absurd (validate_of_meaning _ _ hm) hv
    | @uncodedInside _ t _ hd hf ha hni hu =>
      have hb : s ≠ t!"byte" := by
        rintro rfl
        exact ha ⟨_, _, alone_byte hd⟩
      have hu' := (firstUncoded_iff _ _).1 hu
      rw [h2 _ hd (num hd hf), refusal_inside hb ha, if_pos ((not_ill_iff t).2 hni), hu']
      · rfl
      · unfold found
        rw [if_neg hb]
        cases hm : meaning (normTy t) with
        | none => rfl
        | some u =>
          have : firstExc (normTy t) = none := List.findSome?_eq_none_iff.2 (firstExc_none hm)
          rw [this] at hu'; cases hu'

/-- **C80.**  `get_encoder` raises this exception exactly for the strings the specification names; with the packed registry
as well, and `get_decoder` likewise. -/
theorem C80_lookup [Ext] (s : TypeStr) (e : Exc) :
    (getEncoder defaultRegistry s = .error e ↔ Declined s e) ∧
    (getEncoder packedRegistry s = .error e ↔ Declined s e) ∧
    ∀ strict, getDecoder defaultRegistry s strict = .error e ↔ Declined s e := by
  have enc : ∀ (pk : Bool) (n : Nat),
      getEncoderFuel (mappingOf n defaultPreds (encKit pk).regs) (s.length + 1) s = .error e ↔ Declined s e := by
    intro pk n
    refine declined_lookup ?_ ?_ ?_ e
    · intro e hp
      rw [getEncoderFuel_step]
      exact lookStep_error _ _ _ hp
    · intro a hd hn hf
      exact getEncoderFuel_refusal pk n _ a s hd hn (by have := depth_le hd; omega) hf
    · intro a hd hn t hf
      have := getEncoderFuel_outcome pk n (s.length + 1) a s hd hn (by have := depth_le hd; omega)
      rw [hf] at this
      exact ⟨_, this⟩
  refine ⟨enc false 0, enc true 100, fun strict => ?_⟩
  refine declined_lookup (L := getDecoderFuel (mappingOf 0 defaultPreds (decKit).regs) (s.length + 1) s strict) ?_ ?_ ?_ e
  · intro e hp
    rw [getDecoderFuel_step, lookStep_error _ _ _ hp]
    rfl
  · intro a hd hn hf
    exact getDecoderFuel_refusal 0 _ a s hd hn (by have := depth_le hd; omega) hf strict
  · intro a hd hn t hf
    rcases decoder_lookup 0 s strict with ⟨u, _, h⟩ | ⟨h, _⟩
    · exact ⟨_, h⟩
    · exact absurd ((found_iff hd hn).1 hf) (h t)

/-- **C80.**  Each string that is not the name of a supported type has one exception, and no other string has one. -/
theorem C80_one [Ext] (s : TypeStr) : (∃! e, Declined s e) ↔ ∀ t, ¬ Supported s t := by
  rcases getEncoder_default s with ⟨t, ht, h⟩ | ⟨h, e, he, _⟩
  · constructor
    · rintro ⟨e, he, _⟩
      rw [← (C80_lookup s e).1, h] at he
      cases he
    · intro hn; exact absurd ht (hn t)
  · refine ⟨fun _ => h, fun _ => ⟨e, (C80_lookup s e).1.1 he, fun e' he' => ?_⟩⟩
    have := (C80_lookup s e').1.2 he'
    rw [he] at this
    cases this
    rfl

theorem mapPyM_first {α β : Type} {f : α → PyM β} {pre post : List α} {x : α} {e : Exc}
    (hok : ∀ y ∈ pre, ∃ b, f y = .ok b) (hx : f x = .error e) : mapPyM f (pre ++ x :: post) = .error e := by
  induction pre with
  | nil => rw [List.nil_append, mapPyM, hx]; rfl
  | cons y pre ih =>
    obtain ⟨b, hb⟩ := hok y (by simp)
    rw [List.cons_append, mapPyM, hb, ok_bind, ih fun z hz => hok z (by simp [hz])]
    rfl

/-- **C80.**  `encode`, `encode_packed` and `decode` raise the exception of the first type without a coder, whatever the
arguments, their number or the data are. -/
theorem C80_calls [Ext] {pre post : List TypeStr} {ts : List Ty} (hT : Names pre ts) {s : TypeStr} {e : Exc}
    (hs : Declined s e) :
    (∀ args vs, IsListOf args vs → encode (pre ++ s :: post) args = .error e ∧
      encodePacked (pre ++ s :: post) args = .error e) ∧
    ∀ data d, IsBytes data d → ∀ strict, decode (pre ++ s :: post) data strict = .error e := by
  have hsup : ∀ y ∈ pre, ∃ t, Supported y t := by
    intro y hy
    clear hs
    induction hT with
    | nil => cases hy
    | cons h _ ih =>
      rcases List.mem_cons.1 hy with rfl | hy
      · exact ⟨_, h⟩
      · exact ih hy
  obtain ⟨h1, h2, h3⟩ := C80_lookup s e
  constructor
  · intro args vs ha
    have hl : validateListLikeParam args = .ok () := by cases ha <;> rfl
    have k1 := mapPyM_first (f := getEncoder defaultRegistry) (pre := pre) (post := post) (x := s) (e := e) (by
      intro y hy
      obtain ⟨t, ht⟩ := hsup y hy
      rcases getEncoder_default y with ⟨u, _, h⟩ | ⟨h, _⟩
      · exact ⟨_, h⟩
      · exact absurd ht (h t)) (h1.2 hs)
    have k2 := mapPyM_first (f := getEncoder packedRegistry) (pre := pre) (post := post) (x := s) (e := e) (by
      intro y hy
      obtain ⟨t, ht⟩ := hsup y hy
      rcases getEncoder_packed y with ⟨u, _, h⟩ | ⟨h, _⟩
      · exact ⟨_, h⟩
      · exact absurd ht (h t)) (h2.2 hs)
    constructor
    · unfold encode Registry.encode
      rw [hl, k1]; rfl
    · unfold encodePacked Registry.encode
      rw [hl, k2]; rfl
  · intro data d hd strict
    have hb : validateBytesParam data = .ok d := by cases hd <;> rfl
    have k := mapPyM_first (f := fun s => getDecoder defaultRegistry s strict) (pre := pre) (post := post) (x := s) (e := e) (by
      intro y hy
      obtain ⟨t, ht⟩ := hsup y hy
      rcases getDecoder_default y strict with ⟨u, _, h⟩ | ⟨h, _⟩
      · exact ⟨_, h⟩
      · exact absurd ht (h t)) ((h3 strict).2 hs)
    unfold decode Registry.decode Registry.decodeWith
    rw [hb, ok_bind, k]
    rfl

/-- `(uint8[],(function8,hash32))` is a type of the grammar. -/
theorem nested_function8 : Derives (.tuple [.basic t!"uint" (.one 8) [none],
    .tuple [.basic t!"function" (.one 8) [], .basic t!"hash" (.one 32) []] []] []) t!"(uint8[],(function8,hash32))" :=
  letI := Ex.ext
  ((C21_parse _ _).1 rfl).1

/-- Its exception is that of `function8`, the first name without a coder … -/
theorem declined_function8 : @Declined Ex.ext t!"(uint8[],(function8,hash32))" .valueError := by
  letI := Ex.ext
  have hfit : DigitRunsFit t!"(uint8[],(function8,hash32))" :=
    ((C21_parse _ _).1 (show parse t!"(uint8[],(function8,hash32))" = .ok _ from rfl)).2
  refine .uncodedInside nested_function8 hfit (by rintro ⟨_, _, h⟩; cases h) ?_ ?_
  · intro p hp
    simp only [names, namesAll, List.mem_cons, List.append_nil, List.cons_append, List.nil_append, List.not_mem_nil,
      or_false] at hp
    rintro ⟨_, msg, h⟩
    rcases hp with rfl | rfl | rfl
    · have := breaks_validateBasic h; cases this
    · have := breaks_validateBasic h; cases this
    · have := breaks_validateBasic h; cases this
  · refine ⟨[(t!"uint", .one 8)], t!"function", .one 8, [(t!"hash", .one 32)], rfl, .function (by simp), ?_⟩
    intro p hp e' he'
    cases List.mem_singleton.1 hp
    cases he' with
    | other h _ _ => exact h (.inl rfl)

/-- … so `encode` and `decode` raise it, behind a good type and before a bad one, with arguments that fit nothing. -/
example : letI := Ex.ext
    encode [t!"bool", t!"(uint8[],(function8,hash32))", t!"uint7"] (.list [.none]) = .error .valueError ∧
    decode [t!"bool", t!"(uint8[],(function8,hash32))", t!"uint7"] (.bytes []) true = .error .valueError := by
  letI := Ex.ext
  have hT : Names [t!"bool"] [.bool] := .cons ⟨.bool, by decide⟩ .nil
  exact ⟨((C80_calls hT declined_function8 (post := [t!"uint7"])).1 _ _ (.list [.none])).1,
    (C80_calls hT declined_function8 (post := [t!"uint7"])).2 _ _ (.bytes []) true⟩

/-- The other exceptions. -/
example : letI := Ex.ext
    Declined t!"uint7" .abiTypeError ∧ Declined t!"hash" .noEntriesFound ∧ Declined t!"(hash,foo)" .abiTypeError ∧
    Declined t!"(foo,function8)" .noEntriesFound ∧ Declined t!"(foo,uint7)" .abiTypeError ∧
    Declined t!"byte" .noEntriesFound ∧ Declined t!"byte8[]" .noEntriesFound ∧ Declined t!"function8" .valueError ∧
    Declined t!"uint08" .parseError ∧ Declined t!"(uint08,())" .valueError := by
  letI := Ex.ext
  exact ⟨(C80_lookup _ _).1.1 rfl, (C80_lookup _ _).1.1 rfl,
    (C80_lookup _ _).1.1 rfl, (C80_lookup _ _).1.1 rfl,
    (C80_lookup _ _).1.1 rfl, (C80_lookup _ _).1.1 rfl,
    (C80_lookup _ _).1.1 rfl, (C80_lookup _ _).1.1 rfl,
    (C80_lookup _ _).1.1 rfl, (C80_lookup _ _).1.1 rfl⟩

end EthAbi
