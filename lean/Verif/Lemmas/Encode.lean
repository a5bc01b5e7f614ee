import Verif.Lemmas.SpecFacts

/-! # Every encoder object does what the specification says -/
namespace EthAbi
open Spec

/-- What the arrays and tuples of an encoder `e` of type `t` need. -/
structure EncBase [Ext] (t : Ty) (e : Encoder) (dy : Bool) (encf : Val → Bytes) : Prop where
  isDyn : e.isDynamic = some dy
  valOk : ∀ v x, denote t v = some x → e.validateValue v = .ok ()
  valErr : ∀ v er, e.validateValue v = .error er → Refused t v er
  enc : ∀ v x, denote t v = some x → (encf x).length < 2 ^ 256 → e.call v = .ok (encf x)

/-- What is proved of the encoder object `e` of type `t`. -/
structure EncGood [Ext] (t : Ty) (e : Encoder) (dy : Bool) (encf : Val → Bytes) : Prop
    extends EncBase t e dy encf where
  complete : ∀ v, e.validateValue v = .ok () → OnGrid t v → NoSurrogates v →
    ∃ x, denote t v = some x
  total : ∀ v, e.validateValue v = .ok () →
    (∃ b, e.call v = .ok b ∧ b.length ≤ 128 * weight v) ∨
    (e.call v = .error .unicodeEncodeError ∧ ¬ NoSurrogates v) ∨
    (∃ er, e.call v = .error er ∧ TooBig er ∧ 2 ^ 256 ≤ 128 * weight v)
  callVal : ∀ v b, e.call v = .ok b → e.validateValue v = .ok ()
  callErr : ∀ v er, e.validateValue v = .error er → ∃ er', e.call v = .error er'

theorem weight_pos (v : PyVal) : 1 ≤ weight v := by
  cases v <;> simp [weight] <;> omega

theorem LeafGood.toEnc [Ext] {t : Ty} {e : Encoder} {d : Nat} {f : Val → Bytes}
    (h : LeafGood t e d f) (hd : d ≤ 32) : EncGood t e false f where
  isDyn := h.isDyn
  valOk := h.valOk
  valErr := h.valErr
  enc v x hx _ := h.enc v x hx
  complete v hv hg _ := h.complete v hv hg
  total v hv := by
    obtain ⟨b, h1, h2⟩ := h.total v hv
    have := weight_pos v
    exact Or.inl ⟨b, h1, by omega⟩
  callVal := h.callVal
  callErr v er he := by
    rcases ok_or_error (e.call v) with ⟨b, hb⟩ | h'
    · rw [h.callVal v b hb] at he; cases he
    · exact h'

theorem EncGood.congr [Ext] {t : Ty} {e : Encoder} {dy : Bool} {f g : Val → Bytes}
    (h : EncGood t e dy f) (hfg : ∀ x, Val.Of t x → f x = g x) : EncGood t e dy g where
  isDyn := h.isDyn
  valOk := h.valOk
  valErr := h.valErr
  enc v x hx hl := by
    have := hfg x (denote_of t v x hx)
    rw [← this] at hl ⊢
    exact h.enc v x hx hl
  complete := h.complete
  total := h.total
  callVal := h.callVal
  callErr := h.callErr

theorem EncBase.dyn_eq [Ext] {t : Ty} {e : Encoder} {dy : Bool} {f : Val → Bytes}
    (h : EncBase t e dy f) : e.dyn = dy := by
  simp [Encoder.dyn, h.isDyn]

theorem EncBase.validateOrCall_eq [Ext] {t : Ty} {e : Encoder} {dy : Bool} {f : Val → Bytes}
    (h : EncBase t e dy f) (v : PyVal) : validateOrCall e v = e.validateValue v := by
  unfold validateOrCall
  split
  · next heq =>
    exact absurd rfl (h.valErr v _ heq).ne_attribute
  · rfl

/-! ## `bytes` and `string` -/

theorem lengthPrefixed_eq [Ext] (b : Bytes) :
    lengthPrefixed b = if b.length < 2 ^ 256 then .ok (be32 b.length ++ padRight32 b)
      else .error (shown (.int b.length) .valueOutOfBounds) := by
  simp only [lengthPrefixed, encodeUint256_eq, zpadRight_ceil32]
  split <;> rfl

theorem weight_asBytes {v : PyVal} {b : Bytes} (h : asBytes? v = some b) : weight v = 1 + b.length := by
  cases v <;> simp [asBytes?] at h <;> subst h <;> rfl

theorem bytes_good [Ext] : EncGood .bytes byteStringEncoder true (Spec.enc .bytes) where
  isDyn := rfl
  valOk v x h := by
    simp only [denote, Option.map_eq_some_iff] at h
    obtain ⟨b, hb, rfl⟩ := h
    simp [byteStringEncoder, Encoder.validateValue, byteStringValidate, hb]
  valErr v er h := by
    simp only [byteStringEncoder, Encoder.validateValue, byteStringValidate, invalidate_eq] at h
    split at h <;> cases h
    exact (shown_refusal _ rfl).of _
  enc v x h hl := by
    simp only [denote, Option.map_eq_some_iff] at h
    obtain ⟨b, hb, rfl⟩ := h
    have hlen : b.length < 2 ^ 256 := by
      have := padRight32_len b
      simp only [Spec.enc, List.length_append, be32_length] at hl
      omega
    simp only [byteStringEncoder, byteStringValidate, bytesEncodeFn, hb, ok_bind,
      lengthPrefixed_eq, if_pos hlen, Spec.enc]
  complete v h _ _ := by
    simp only [byteStringEncoder, Encoder.validateValue, byteStringValidate, invalidate_eq] at h
    split at h
    · next b hb => exact ⟨.raw b, by simp [denote, hb]⟩
    · cases h
  total v h := by
    simp only [byteStringEncoder, Encoder.validateValue, byteStringValidate, invalidate_eq] at h
    split at h
    · next b hb =>
      have hw := weight_asBytes hb
      have hp := padRight32_len b
      simp only [byteStringEncoder, byteStringValidate, bytesEncodeFn, hb, ok_bind,
        lengthPrefixed_eq]
      by_cases hlen : b.length < 2 ^ 256
      · refine Or.inl ⟨_, by rw [if_pos hlen], ?_⟩
        simp only [List.length_append, be32_length]; omega
      · exact Or.inr (Or.inr ⟨_, by rw [if_neg hlen], shown_tooBig _, by omega⟩)
    · cases h
  callVal v b h := by
    simp only [byteStringEncoder, bind_eq_ok] at h
    obtain ⟨_, h1, _⟩ := h
    exact h1
  callErr v er h := ⟨er, by
    simp only [byteStringEncoder, Encoder.validateValue] at h ⊢
    rw [h]; rfl⟩

theorem packedBytes_good [Ext] : EncGood .bytes packedByteStringEncoder false (encPacked .bytes) where
  isDyn := rfl
  valOk v x h := by
    simp only [denote, Option.map_eq_some_iff] at h
    obtain ⟨b, hb, rfl⟩ := h
    simp [packedByteStringEncoder, Encoder.validateValue, byteStringValidate, hb]
  valErr v er h := by
    simp only [packedByteStringEncoder, Encoder.validateValue, byteStringValidate, invalidate_eq] at h
    split at h <;> cases h
    exact (shown_refusal _ rfl).of _
  enc v x h hl := by
    simp only [denote, Option.map_eq_some_iff] at h
    obtain ⟨b, hb, rfl⟩ := h
    simp only [packedByteStringEncoder, byteStringValidate, bytesEncodeFn, hb, ok_bind, encPacked]
  complete v h _ _ := by
    simp only [packedByteStringEncoder, Encoder.validateValue, byteStringValidate, invalidate_eq] at h
    split at h
    · next b hb => exact ⟨.raw b, by simp [denote, hb]⟩
    · cases h
  total v h := by
    simp only [packedByteStringEncoder, Encoder.validateValue, byteStringValidate, invalidate_eq] at h
    split at h
    · next b hb =>
      have hw := weight_asBytes hb
      simp only [packedByteStringEncoder, byteStringValidate, bytesEncodeFn, hb, ok_bind]
      exact Or.inl ⟨_, rfl, by omega⟩
    · cases h
  callVal v b h := by
    simp only [packedByteStringEncoder, bind_eq_ok] at h
    obtain ⟨_, h1, _⟩ := h
    exact h1
  callErr v er h := ⟨er, by
    simp only [packedByteStringEncoder, Encoder.validateValue] at h ⊢
    rw [h]; rfl⟩

theorem utf8Char_length {c : CodePoint} {b : Bytes} (h : utf8Char c = some b) : b.length ≤ 4 := by
  unfold utf8Char at h
  simp only at h
  repeat' split at h
  all_goals simp at h
  all_goals subst h; simp

theorem utf8Encode_length {s : PyStr} {b : Bytes} (h : utf8Encode? s = some b) :
    b.length ≤ 4 * s.length := by
  induction s generalizing b with
  | nil => simp [utf8Encode?] at h; subst h; simp
  | cons c s ih =>
    simp only [utf8Encode?, Option.bind_eq_bind, Option.bind_eq_some_iff] at h
    obtain ⟨x, h1, y, h2, h3⟩ := h
    cases h3
    have := utf8Char_length h1
    have := ih h2
    simp only [List.length_append, List.length_cons]
    omega

theorem asText_eq {v : PyVal} {s : PyStr} (h : asText? v = some s) : v = .str s := by
  cases v <;> simp [asText?] at h
  subst h; rfl

theorem string_good [Ext] : EncGood .string textStringEncoder true (Spec.enc .string) where
  isDyn := rfl
  valOk v x h := by
    cases v <;> simp only [denote] at h <;> try cases h
    rfl
  valErr v er h := by
    simp only [textStringEncoder, Encoder.validateValue, textValidate, invalidate_eq] at h
    split at h <;> cases h
    exact (shown_refusal _ rfl).of _
  enc v x h hl := by
    cases v <;> simp only [denote] at h <;> try cases h
    rename_i s
    split at h
    · next hs =>
      cases h
      obtain ⟨b, hb⟩ := Option.isSome_iff_exists.1 hs
      have hlen : b.length < 2 ^ 256 := by
        have := padRight32_len b
        simp only [Spec.enc, hb, List.length_append, be32_length] at hl
        omega
      simp only [textStringEncoder, textValidate, textEncodeFn, asText?, ok_bind, utf8Encode, hb,
        lengthPrefixed_eq, if_pos hlen, Spec.enc]
    · cases h
  complete v h _ hns := by
    simp only [textStringEncoder, Encoder.validateValue, textValidate, invalidate_eq] at h
    split at h
    · next s hs =>
      have := asText_eq hs
      subst this
      simp only [NoSurrogates] at hns
      exact ⟨.text s, by simp [denote, hns]⟩
    · cases h
  total v h := by
    simp only [textStringEncoder, Encoder.validateValue, textValidate, invalidate_eq] at h
    split at h
    · next s hs =>
      have := asText_eq hs
      subst this
      simp only [textStringEncoder, textValidate, textEncodeFn, asText?, ok_bind, utf8Encode,
        weight, NoSurrogates]
      cases hb : utf8Encode? s with
      | none => exact Or.inr (Or.inl ⟨rfl, by simp⟩)
      | some b =>
        have hw := utf8Encode_length hb
        have hp := padRight32_len b
        simp only [ok_bind, lengthPrefixed_eq]
        by_cases hlen : b.length < 2 ^ 256
        · refine Or.inl ⟨_, by rw [if_pos hlen], ?_⟩
          simp only [List.length_append, be32_length]; omega
        · exact Or.inr (Or.inr ⟨_, by rw [if_neg hlen], shown_tooBig _, by omega⟩)
    · cases h
  callVal v b h := by
    simp only [textStringEncoder, bind_eq_ok] at h
    obtain ⟨_, h1, _⟩ := h
    exact h1
  callErr v er h := ⟨er, by
    simp only [textStringEncoder, Encoder.validateValue] at h ⊢
    rw [h]; rfl⟩

theorem packedString_good [Ext] :
    EncGood .string packedTextStringEncoder false (encPacked .string) where
  isDyn := rfl
  valOk v x h := by
    cases v <;> simp only [denote] at h <;> try cases h
    rfl
  valErr v er h := by
    simp only [packedTextStringEncoder, Encoder.validateValue, textValidate, invalidate_eq] at h
    split at h <;> cases h
    exact (shown_refusal _ rfl).of _
  enc v x h hl := by
    cases v <;> simp only [denote] at h <;> try cases h
    rename_i s
    split at h
    · next hs =>
      cases h
      obtain ⟨b, hb⟩ := Option.isSome_iff_exists.1 hs
      simp only [packedTextStringEncoder, textValidate, textEncodeFn, asText?, ok_bind, utf8Encode,
        hb, encPacked, textBytes, Option.getD_some]
    · cases h
  complete v h _ hns := by
    simp only [packedTextStringEncoder, Encoder.validateValue, textValidate, invalidate_eq] at h
    split at h
    · next s hs =>
      have := asText_eq hs
      subst this
      simp only [NoSurrogates] at hns
      exact ⟨.text s, by simp [denote, hns]⟩
    · cases h
  total v h := by
    simp only [packedTextStringEncoder, Encoder.validateValue, textValidate, invalidate_eq] at h
    split at h
    · next s hs =>
      have := asText_eq hs
      subst this
      simp only [packedTextStringEncoder, textValidate, textEncodeFn, asText?, ok_bind, utf8Encode,
        weight, NoSurrogates]
      cases hb : utf8Encode? s with
      | none => exact Or.inr (Or.inl ⟨rfl, by simp⟩)
      | some b =>
        have hw := utf8Encode_length hb
        exact Or.inl ⟨_, rfl, by omega⟩
    · cases h
  callVal v b h := by
    simp only [packedTextStringEncoder, bind_eq_ok] at h
    obtain ⟨_, h1, _⟩ := h
    exact h1
  callErr v er h := ⟨er, by
    simp only [packedTextStringEncoder, Encoder.validateValue] at h ⊢
    rw [h]; rfl⟩

/-! ## Arrays -/

theorem asListLike_weight {v : PyVal} {vs : List PyVal} (h : asListLike? v = some vs) :
    weight v = 1 + weights vs ∧ (NoSurrogates v ↔ NoSurrogatesAll vs) ∧ pyLen v = .ok vs.length := by
  cases v <;> simp [asListLike?] at h <;> subst h <;> simp [weight, NoSurrogates, pyLen]

theorem noSurrogatesAll_iff {vs : List PyVal} : NoSurrogatesAll vs ↔ ∀ v ∈ vs, NoSurrogates v := by
  induction vs with
  | nil => simp [NoSurrogatesAll]
  | cons v vs ih => simp [NoSurrogatesAll, ih]

theorem weight_le_weights {v : PyVal} {vs : List PyVal} (h : v ∈ vs) : weight v ≤ weights vs := by
  induction vs with
  | nil => simp at h
  | cons u us ih =>
    rcases List.mem_cons.1 h with rfl | h
    · simp [weights]; omega
    · have := ih h; simp [weights]; omega

theorem length_le_weights (vs : List PyVal) : vs.length ≤ weights vs := by
  induction vs with
  | nil => simp
  | cons u us ih => simp [weights]; omega

/-- How a validated encoder can end. -/
def TotalAt (e : Encoder) (v : PyVal) : Prop :=
  (∃ b, e.call v = .ok b ∧ b.length ≤ 128 * weight v) ∨
  (e.call v = .error .unicodeEncodeError ∧ ¬ NoSurrogates v) ∨
  (∃ er, e.call v = .error er ∧ TooBig er ∧ 2 ^ 256 ≤ 128 * weight v)

theorem callAll_total {es : List Encoder} {vs : List PyVal} (h : List.Forall₂ TotalAt es vs) :
    (∃ bs, callAll es vs = .ok bs ∧ (layout (elems es bs)).length ≤ 128 * weights vs) ∨
    (callAll es vs = .error .unicodeEncodeError ∧ ¬ NoSurrogatesAll vs) ∨
    (∃ er, callAll es vs = .error er ∧ TooBig er ∧ 2 ^ 256 ≤ 128 * weights vs) := by
  simp only [layout_length]
  induction h with
  | nil => exact Or.inl ⟨[], rfl, by simp [elems, headSize, tails]⟩
  | @cons e v es vs h1 _ ih =>
    have hw : weights (v :: vs) = 1 + weight v + weights vs := rfl
    have hn : NoSurrogatesAll (v :: vs) = (NoSurrogates v ∧ NoSurrogatesAll vs) := by
      simp [NoSurrogatesAll]
    rw [hw, hn]
    rcases h1 with ⟨b, hb, hbl⟩ | ⟨h1, h2⟩ | ⟨er, h1, ht, h2⟩
    · rcases ih with ⟨bs, hbs, hbsl⟩ | ⟨h3, h4⟩ | ⟨er, h3, ht, h4⟩
      · refine Or.inl ⟨b :: bs, by simp [callAll, hb, hbs], ?_⟩
        simp only [elems, headSize, tails, List.length_append]
        cases e.dyn <;> simp <;> omega
      · exact Or.inr (Or.inl ⟨by simp [callAll, hb, h3], fun h => h4 h.2⟩)
      · exact Or.inr (Or.inr ⟨er, by simp [callAll, hb, h3], ht, by omega⟩)
    · exact Or.inr (Or.inl ⟨by simp [callAll, h1], fun h => h2 h.1⟩)
    · exact Or.inr (Or.inr ⟨er, by simp [callAll, h1], ht, by omega⟩)

theorem ok_unit {x : PyM Unit} : (∃ a, x = .ok a) ↔ x = .ok () :=
  ⟨fun ⟨_, h⟩ => h, fun h => ⟨_, h⟩⟩

theorem unit_bind_ok {x : PyM Unit} {β : Type} {f : Unit → PyM β} {b : β} :
    (x >>= f) = .ok b ↔ x = .ok () ∧ f () = .ok b := by
  rw [bind_eq_ok]
  exact ⟨fun ⟨_, h⟩ => h, fun h => ⟨_, h⟩⟩

theorem arrayValidateItems_ok {item : Encoder} {vs : List PyVal} :
    arrayValidateItems item vs = .ok () ↔ ∀ u ∈ vs, item.validateValue u = .ok () := by
  induction vs with
  | nil => simp [arrayValidateItems]
  | cons v vs ih => simp [arrayValidateItems, unit_bind_ok, ih]

theorem arrayValidateItems_error {item : Encoder} {vs : List PyVal} {er : Exc}
    (h : arrayValidateItems item vs = .error er) :
    ∃ u ∈ vs, item.validateValue u = .error er := by
  induction vs with
  | nil => simp [arrayValidateItems] at h
  | cons v vs ih =>
    simp only [arrayValidateItems, bind_eq_error] at h
    rcases h with h | ⟨_, _, h⟩
    · exact ⟨v, by simp, h⟩
    · obtain ⟨u, hu, h⟩ := ih h
      exact ⟨u, by simp [hu], h⟩

theorem arrayValidate_ok [Ext] {item : Encoder} {v : PyVal} :
    arrayValidate item v = .ok () ↔
      ∃ vs, asListLike? v = some vs ∧ ∀ u ∈ vs, item.validateValue u = .ok () := by
  unfold arrayValidate
  cases asListLike? v with
  | none => simp [invalidate_eq]
  | some vs => simp [arrayValidateItems_ok]

theorem sizedArrayValidate_ok [Ext] {item : Encoder} {sz : Option Nat} {v : PyVal} :
    sizedArrayValidate item sz v = .ok () ↔
      ∃ vs, asListLike? v = some vs ∧ (∀ u ∈ vs, item.validateValue u = .ok ()) ∧
        (∀ n, sz = some n → vs.length = n) := by
  constructor
  · intro h
    simp only [sizedArrayValidate, bind_eq_ok] at h
    obtain ⟨_, h1, h2⟩ := h
    obtain ⟨vs, hv, hi⟩ := arrayValidate_ok.1 h1
    refine ⟨vs, hv, hi, ?_⟩
    intro n hn
    subst hn
    simp only [(asListLike_weight hv).2.2, ok_bind] at h2
    split at h2
    · rw [invalidate_eq] at h2; cases h2
    · omega
  · rintro ⟨vs, hv, hi, hn⟩
    simp only [sizedArrayValidate, arrayValidate_ok.2 ⟨vs, hv, hi⟩, ok_bind]
    cases sz with
    | none => rfl
    | some n => simp [(asListLike_weight hv).2.2, hn n rfl]

theorem arrayValidate_error [Ext] {t : Ty} {item : Encoder} {dy : Bool} {f : Val → Bytes}
    (h : EncBase t item dy f) {v : PyVal} {er : Exc} (he : arrayValidate item v = .error er) :
    Refused (.dyn t) v er := by
  unfold arrayValidate at he
  split at he
  · rw [invalidate_eq] at he; cases he; exact (shown_refusal _ rfl).of _
  · next vs hv =>
    obtain ⟨u, hm, hu⟩ := arrayValidateItems_error he
    exact (h.valErr u er hu).item hv hm id fun ho => ⟨vs, hv, u, hm, ho⟩

theorem sizedArrayValidate_error [Ext] {t : Ty} {item : Encoder} {dy : Bool} {f : Val → Bytes}
    (h : EncBase t item dy f) {sz : Option Nat} {v : PyVal} {er : Exc}
    (he : sizedArrayValidate item sz v = .error er) : Refused (.dyn t) v er := by
  simp only [sizedArrayValidate, bind_eq_error] at he
  rcases he with he | ⟨_, h1, he⟩
  · exact arrayValidate_error h he
  · obtain ⟨vs, hv, _⟩ := arrayValidate_ok.1 h1
    cases sz with
    | none => cases he
    | some n =>
      simp only [(asListLike_weight hv).2.2, ok_bind] at he
      split at he
      · rw [invalidate_eq] at he; cases he; exact (shown_refusal _ rfl).of _
      · cases he

theorem callAll_enc [Ext] {t : Ty} {item : Encoder} {dy : Bool} {f : Val → Bytes}
    (h : EncBase t item dy f) {vs : List PyVal} {xs : List Val}
    (h2 : List.Forall₂ (fun v x => denote t v = some x) vs xs)
    (hl : ∀ x ∈ xs, (f x).length < 2 ^ 256) :
    callAll (vs.map fun _ => item) vs = .ok (xs.map f) := by
  induction h2 with
  | nil => rfl
  | @cons v x vs xs h1 _ ih =>
    simp only [List.map_cons, callAll, h.enc v x h1 (hl x (by simp)),
      ih (fun y hy => hl y (by simp [hy])), ok_bind, pure_eq_ok]

theorem elems_map {item : Encoder} {f : Val → Bytes} {vs : List PyVal} {xs : List Val}
    (hl : vs.length = xs.length) :
    elems (vs.map fun _ => item) (xs.map f) = xs.map fun x => (item.dyn, f x) := by
  induction xs generalizing vs with
  | nil =>
    cases vs with
    | nil => rfl
    | cons v vs => simp at hl
  | cons x xs ih =>
    cases vs with
    | nil => simp at hl
    | cons v vs =>
      simp only [List.length_cons, Nat.add_right_cancel_iff] at hl
      simp only [List.map_cons, elems, ih hl]

/-- `encode_elements` on an argument that denotes a sequence. -/
theorem encodeElements_enc [Ext] {t : Ty} {item : Encoder} {dy : Bool} {f : Val → Bytes}
    (h : EncBase t item dy f) {validate : PyVal → PyM Unit} {v : PyVal} {vs : List PyVal}
    {xs : List Val} (hv : asListLike? v = some vs) (hval : validate v = .ok ())
    (h2 : List.Forall₂ (fun v x => denote t v = some x) vs xs)
    (hl : (layout (xs.map fun x => (dy, f x))).length < 2 ^ 256) :
    encodeElements validate item v = .ok (layout (xs.map fun x => (dy, f x))) := by
  have hlen := h2.length_eq
  have hm : ∀ x ∈ xs, (f x).length < 2 ^ 256 := by
    intro x hx
    have := elem_length_le (es := xs.map fun x => (dy, f x)) (a := (dy, f x))
      (List.mem_map.2 ⟨x, hx, rfl⟩)
    simp only at this
    omega
  have hc := callAll_enc h h2 hm
  have he := elems_map (item := item) (f := f) hlen
  rw [h.dyn_eq] at he
  rcases encodeElements_spec hv hval hc with h3 | ⟨_, _, _, h3⟩
  · rw [h3, he]
  · rw [he] at h3; omega

/-- How `encode_elements` can end on a validated argument. -/
theorem encodeElements_total [Ext] {t : Ty} {item : Encoder} {dy : Bool} {f : Val → Bytes}
    (h : EncGood t item dy f) {validate : PyVal → PyM Unit} {v : PyVal} {vs : List PyVal}
    (hv : asListLike? v = some vs) (hval : validate v = .ok ())
    (hi : ∀ u ∈ vs, item.validateValue u = .ok ()) :
    (∃ b, encodeElements validate item v = .ok b ∧ b.length ≤ 128 * weights vs) ∨
    (encodeElements validate item v = .error .unicodeEncodeError ∧ ¬ NoSurrogates v) ∨
    (∃ er, encodeElements validate item v = .error er ∧ TooBig er ∧ 2 ^ 256 ≤ 128 * weights vs) := by
  obtain ⟨_, hn, _⟩ := asListLike_weight hv
  rw [hn]
  have hF : List.Forall₂ TotalAt (vs.map fun _ => item) vs := by
    clear * - h hi
    induction vs with
    | nil => exact .nil
    | cons u us ih =>
      exact .cons (h.total u (hi u (by simp))) (ih (fun w hw => hi w (by simp [hw])))
  have herr : ∀ er, callAll (vs.map fun _ => item) vs = .error er →
      encodeElements validate item v = .error er := by
    intro er he
    simp only [encodeElements, hval, hv, ok_bind, encodeAll_eq, he, error_bind]
  rcases callAll_total hF with ⟨bs, hbs, hl⟩ | ⟨h1, h2⟩ | ⟨er, h1, ht, h2⟩
  · rcases encodeElements_spec hv hval hbs with h3 | ⟨er, h3, ht, h4⟩
    · exact Or.inl ⟨_, h3, hl⟩
    · exact Or.inr (Or.inr ⟨er, h3, ht, by omega⟩)
  · exact Or.inr (Or.inl ⟨herr _ h1, h2⟩)
  · exact Or.inr (Or.inr ⟨er, herr _ h1, ht, h2⟩)

theorem encodeElements_val [Ext] {validate : PyVal → PyM Unit} {item : Encoder} {v : PyVal} {b : Bytes}
    (h : encodeElements validate item v = .ok b) : validate v = .ok () := by
  simp only [encodeElements, bind_eq_ok] at h
  obtain ⟨_, h1, _⟩ := h
  exact h1

theorem items_complete [Ext] {t : Ty} {item : Encoder} {dy : Bool} {f : Val → Bytes}
    (h : EncGood t item dy f) {vs : List PyVal}
    (hi : ∀ u ∈ vs, item.validateValue u = .ok ()) (hg : ∀ u ∈ vs, OnGrid t u)
    (hn : ∀ u ∈ vs, NoSurrogates u) :
    ∃ xs, List.Forall₂ (fun v x => denote t v = some x) vs xs := by
  induction vs with
  | nil => exact ⟨[], .nil⟩
  | cons v vs ih =>
    obtain ⟨xs, hxs⟩ := ih (fun u hu => hi u (by simp [hu])) (fun u hu => hg u (by simp [hu]))
      (fun u hu => hn u (by simp [hu]))
    obtain ⟨x, hx⟩ := h.complete v (hi v (by simp)) (hg v (by simp)) (hn v (by simp))
    exact ⟨x :: xs, .cons hx hxs⟩

theorem items_valOk [Ext] {t : Ty} {item : Encoder} {dy : Bool} {f : Val → Bytes}
    (h : EncBase t item dy f) {vs : List PyVal} {xs : List Val}
    (h2 : List.Forall₂ (fun v x => denote t v = some x) vs xs) :
    ∀ u ∈ vs, item.validateValue u = .ok () := by
  induction h2 with
  | nil => simp
  | @cons v x vs xs h1 _ ih =>
    intro u hu
    rcases List.mem_cons.1 hu with rfl | hu
    · exact h.valOk _ x h1
    · exact ih u hu

/-- Both `SizedArrayEncoder` and the sized `PackedArrayEncoder`. -/
theorem sizedLike_good [Ext] {t : Ty} {item : Encoder} {dy : Bool} {f : Val → Bytes}
    (h : EncGood t item dy f) (k : Nat) {e : Encoder} (hd : e.isDynamic = some dy)
    (hval : e.validate = some (sizedArrayValidate item (some k)))
    (hcall : e.call = encodeElements (sizedArrayValidate item (some k)) item) :
    EncGood (.sized k t) e dy (fun x => match x with
      | .seq xs => layout (xs.map fun x => (dy, f x))
      | _ => []) := by
  have hvv : ∀ v, e.validateValue v = sizedArrayValidate item (some k) v := by
    intro v; simp [Encoder.validateValue, hval]
  refine ⟨⟨?_, ?_, ?_, ?_⟩, ?_, ?_, ?_, ?_⟩
  · exact hd
  · intro v x hx
    obtain ⟨vs, xs, hv, h2, hk, rfl⟩ := denote_sized.1 hx
    rw [hvv, sizedArrayValidate_ok]
    exact ⟨vs, hv, items_valOk h.toEncBase h2, fun n hn => by cases hn; exact hk⟩
  · intro v er he
    rw [hvv] at he
    exact sizedArrayValidate_error h.toEncBase he
  · intro v x hx hl
    obtain ⟨vs, xs, hv, h2, hk, rfl⟩ := denote_sized.1 hx
    rw [hcall]
    exact encodeElements_enc h.toEncBase hv (sizedArrayValidate_ok.2
      ⟨vs, hv, items_valOk h.toEncBase h2, fun n hn => by cases hn; exact hk⟩) h2 hl
  · intro v he hg hn
    rw [hvv, sizedArrayValidate_ok] at he
    obtain ⟨vs, hv, hi, hk⟩ := he
    simp only [OnGrid] at hg
    rw [(asListLike_weight hv).2.1, noSurrogatesAll_iff] at hn
    obtain ⟨xs, hxs⟩ := items_complete h hi (hg vs hv) hn
    exact ⟨.seq xs, denote_sized.2 ⟨vs, xs, hv, hxs, hk k rfl, rfl⟩⟩
  · intro v he
    rw [hvv] at he
    obtain ⟨vs, hv, hi, hk⟩ := sizedArrayValidate_ok.1 he
    rw [hcall, (asListLike_weight hv).1]
    rcases encodeElements_total h hv he hi with ⟨b, h1, h2⟩ | h1 | ⟨er, h1, ht, h2⟩
    · exact Or.inl ⟨b, h1, by omega⟩
    · exact Or.inr (Or.inl h1)
    · exact Or.inr (Or.inr ⟨er, h1, ht, by omega⟩)
  · intro v b hb
    rw [hcall] at hb
    rw [hvv]
    exact encodeElements_val hb
  · intro v er he
    rw [hvv] at he
    exact ⟨er, by rw [hcall]; simp only [encodeElements, he, error_bind]⟩

/-- `DynamicArrayEncoder`. -/
theorem dynArray_good [Ext] {t : Ty} {item : Encoder} {dy : Bool} {f : Val → Bytes}
    (h : EncGood t item dy f) (hpos : ∀ x, Val.Of t x → 32 ≤ (f x).length) :
    EncGood (.dyn t) (mkDynamicArray item) true (fun x => match x with
      | .seq xs => be32 xs.length ++ layout (xs.map fun x => (dy, f x))
      | _ => []) := by
  have hvv : ∀ v, (mkDynamicArray item).validateValue v = arrayValidate item v := fun _ => rfl
  refine ⟨⟨?_, ?_, ?_, ?_⟩, ?_, ?_, ?_, ?_⟩
  · rfl
  · intro v x hx
    obtain ⟨vs, xs, hv, h2, rfl⟩ := denote_dyn.1 hx
    rw [hvv, arrayValidate_ok]
    exact ⟨vs, hv, items_valOk h.toEncBase h2⟩
  · intro v er he
    rw [hvv] at he
    exact arrayValidate_error h.toEncBase he
  · intro v x hx hl
    obtain ⟨vs, xs, hv, h2, rfl⟩ := denote_dyn.1 hx
    simp only [List.length_append, be32_length] at hl
    have hlen := h2.length_eq
    have hn : vs.length < 2 ^ 256 := by
      have := headSize_pos (es := xs.map fun x => (dy, f x)) (by
        intro a ha
        obtain ⟨x, hx, rfl⟩ := List.mem_map.1 ha
        obtain ⟨u, _, hu⟩ := forall₂_mem_right h2 hx
        exact hpos x (denote_of t u x hu))
      rw [List.length_map] at this
      rw [layout_length] at hl
      omega
    simp only [mkDynamicArray, (asListLike_weight hv).2.2, ok_bind, encodeUint256_eq,
      encodeElements_enc h.toEncBase hv (arrayValidate_ok.2 ⟨vs, hv, items_valOk h.toEncBase h2⟩) h2 (by omega),
      pure_eq_ok]
    rw [if_pos hn, hlen, ok_bind]
  · intro v he hg hn
    rw [hvv, arrayValidate_ok] at he
    obtain ⟨vs, hv, hi⟩ := he
    simp only [OnGrid] at hg
    rw [(asListLike_weight hv).2.1, noSurrogatesAll_iff] at hn
    obtain ⟨xs, hxs⟩ := items_complete h hi (hg vs hv) hn
    exact ⟨.seq xs, denote_dyn.2 ⟨vs, xs, hv, hxs, rfl⟩⟩
  · intro v he
    rw [hvv] at he
    obtain ⟨vs, hv, hi⟩ := arrayValidate_ok.1 he
    have hwl := length_le_weights vs
    simp only [mkDynamicArray, (asListLike_weight hv).1, (asListLike_weight hv).2.2, ok_bind, encodeUint256_eq]
    by_cases hn : vs.length < 2 ^ 256
    · rw [if_pos hn, ok_bind]
      rcases encodeElements_total h hv he hi with ⟨b, h1, h2⟩ | ⟨h1, h2⟩ | ⟨er, h1, ht, h2⟩
      · refine Or.inl ⟨_, by rw [h1]; rfl, ?_⟩
        simp only [List.length_append, be32_length]; omega
      · exact Or.inr (Or.inl ⟨by rw [h1]; rfl, h2⟩)
      · exact Or.inr (Or.inr ⟨er, by rw [h1]; rfl, ht, by omega⟩)
    · rw [if_neg hn]
      exact Or.inr (Or.inr ⟨_, rfl, shown_tooBig _, by omega⟩)
  · intro v b hb
    simp only [mkDynamicArray, bind_eq_ok] at hb
    obtain ⟨_, _, _, _, _, hb, _⟩ := hb
    exact encodeElements_val hb
  · intro v er he
    rw [hvv] at he
    rcases ok_or_error ((mkDynamicArray item).call v) with ⟨b, hb⟩ | h'
    · simp only [mkDynamicArray, bind_eq_ok] at hb
      obtain ⟨_, _, _, _, _, hb, _⟩ := hb
      rw [encodeElements_val hb] at he; cases he
    · exact h'

/-- The unsized `PackedArrayEncoder`. -/
theorem packedDyn_good [Ext] {t : Ty} {item : Encoder} {dy : Bool} {f : Val → Bytes}
    (h : EncGood t item dy f) :
    EncGood (.dyn t) (mkPackedArray none item) false (fun x => match x with
      | .seq xs => layout (xs.map fun x => (dy, f x))
      | _ => []) := by
  have hvv : ∀ v, (mkPackedArray none item).validateValue v = sizedArrayValidate item none v :=
    fun _ => rfl
  refine ⟨⟨?_, ?_, ?_, ?_⟩, ?_, ?_, ?_, ?_⟩
  · rfl
  · intro v x hx
    obtain ⟨vs, xs, hv, h2, rfl⟩ := denote_dyn.1 hx
    rw [hvv, sizedArrayValidate_ok]
    exact ⟨vs, hv, items_valOk h.toEncBase h2, fun n hn => by cases hn⟩
  · intro v er he
    rw [hvv] at he
    exact sizedArrayValidate_error h.toEncBase he
  · intro v x hx hl
    obtain ⟨vs, xs, hv, h2, rfl⟩ := denote_dyn.1 hx
    exact encodeElements_enc h.toEncBase hv (sizedArrayValidate_ok.2
      ⟨vs, hv, items_valOk h.toEncBase h2, fun n hn => by cases hn⟩) h2 hl
  · intro v he hg hn
    rw [hvv, sizedArrayValidate_ok] at he
    obtain ⟨vs, hv, hi, hk⟩ := he
    simp only [OnGrid] at hg
    rw [(asListLike_weight hv).2.1, noSurrogatesAll_iff] at hn
    obtain ⟨xs, hxs⟩ := items_complete h hi (hg vs hv) hn
    exact ⟨.seq xs, denote_dyn.2 ⟨vs, xs, hv, hxs, rfl⟩⟩
  · intro v he
    rw [hvv] at he
    obtain ⟨vs, hv, hi, hk⟩ := sizedArrayValidate_ok.1 he
    rw [(asListLike_weight hv).1]
    rcases encodeElements_total h hv he hi with ⟨b, h1, h2⟩ | h1 | ⟨er, h1, ht, h2⟩
    · exact Or.inl ⟨b, h1, by omega⟩
    · exact Or.inr (Or.inl h1)
    · exact Or.inr (Or.inr ⟨er, h1, ht, by omega⟩)
  · intro v b hb
    exact encodeElements_val hb
  · intro v er he
    rw [hvv] at he
    exact ⟨er, by simp only [mkPackedArray, encodeElements, he, error_bind]⟩

/-! ## Tuples -/

/-- The encodings of the components. -/
def encBys (pk : Bool) : List Ty → List Val → List Bytes
  | t :: ts, x :: xs => encBy pk t x :: encBys pk ts xs
  | _, _ => []

theorem tuple_good [Ext] (pk : Bool) (ts : List Ty)
    (h : ∀ t ∈ ts, EncGood t (encOf pk t) (dynBy pk t) (encBy pk t)) :
    EncGood (.tuple ts) (mkTuple (encsOf pk ts)) (ts.any (dynBy pk)) (fun x => match x with
      | .seq xs => layout (elems (encsOf pk ts) (encBys pk ts xs))
      | _ => []) := by
  have hvv : ∀ v, (mkTuple (encsOf pk ts)).validateValue v = tupleValidate (encsOf pk ts) v :=
    fun _ => rfl
  have hlen : (encsOf pk ts).length = ts.length := by
    clear h hvv
    induction ts with
    | nil => rfl
    | cons t ts ih => simp [encsOf, ih]
  have hval : ∀ v, tupleValidate (encsOf pk ts) v = .ok () ↔ ∃ vs, asListLike? v = some vs ∧
      List.Forall₂ (fun t u => (encOf pk t).validateValue u = .ok ()) ts vs := by
    intro v
    have hit : ∀ vs : List PyVal, vs.length = ts.length →
        (tupleValidateItems vs (encsOf pk ts) = .ok () ↔
          List.Forall₂ (fun t u => (encOf pk t).validateValue u = .ok ()) ts vs) := by
      clear hlen hvv
      intro vs hl
      induction ts generalizing vs with
      | nil =>
        cases vs with
        | nil => simp [tupleValidateItems, encsOf]
        | cons v vs => simp at hl
      | cons t ts ih =>
        cases vs with
        | nil => simp at hl
        | cons u us =>
          simp only [List.length_cons, Nat.add_right_cancel_iff] at hl
          simp only [encsOf, tupleValidateItems, unit_bind_ok, (h t (by simp)).validateOrCall_eq,
            ih (fun t ht => h t (by simp [ht])) us hl, List.forall₂_cons]
    unfold tupleValidate
    cases hv : asListLike? v with
    | none => simp [invalidate_eq]
    | some vs =>
      simp only [Option.some.injEq, exists_eq_left']
      split
      · next hl =>
        constructor
        · intro h'; rw [invalidate_eq] at h'; cases h'
        · intro h'; have := h'.length_eq; omega
      · next hl => rw [hit vs (by omega)]
  have hden : ∀ vs xs, denoteAll ts vs = some xs →
      List.Forall₂ (fun t u => (encOf pk t).validateValue u = .ok ()) ts vs := by
    clear hval hvv hlen
    intro vs xs hd
    induction ts generalizing vs xs with
    | nil =>
      cases vs with
      | nil => exact .nil
      | cons v vs => cases hd
    | cons t ts ih =>
      cases vs with
      | nil => cases hd
      | cons u us =>
        obtain ⟨y, ys, h1, h2, rfl⟩ := denoteAll_cons.1 hd
        exact .cons ((h t (by simp)).valOk u y h1) (ih (fun t ht => h t (by simp [ht])) us ys h2)
  refine ⟨⟨?_, ?_, ?_, ?_⟩, ?_, ?_, ?_, ?_⟩
  · simp only [mkTuple]
    congr 1
    clear hval hden hvv hlen
    induction ts with
    | nil => rfl
    | cons t ts ih =>
      simp only [encsOf, List.any_cons, (h t (by simp)).dyn_eq, ih (fun t ht => h t (by simp [ht]))]
  · intro v x hx
    obtain ⟨vs, xs, hv, h2, rfl⟩ := denote_tuple.1 hx
    rw [hvv, hval]
    exact ⟨vs, hv, hden vs xs h2⟩
  · intro v er he
    rw [hvv] at he
    unfold tupleValidate at he
    split at he
    · rw [invalidate_eq] at he; cases he; exact (shown_refusal _ rfl).of _
    · split at he
      · rw [invalidate_eq] at he; cases he; exact (shown_refusal _ rfl).of _
      · clear hval hden hvv hlen
        rename_i vs hv hl
        suffices hs : ∃ u t, (t, u) ∈ ts.zip vs ∧ Refused t u er by
          obtain ⟨u, t, ht, hr⟩ := hs
          exact hr.item hv (List.of_mem_zip ht).2 (fun hb => boundsPrintableAll_iff.1 hb t (List.of_mem_zip ht).1)
            fun ho => ⟨vs, hv, holdsOddAny_of ht ho⟩
        clear hl hv
        induction ts generalizing vs with
        | nil => cases vs <;> cases he
        | cons t ts ih =>
          cases vs with
          | nil => cases he
          | cons u us =>
            simp only [encsOf, tupleValidateItems, bind_eq_error, (h t (by simp)).validateOrCall_eq] at he
            rcases he with he | ⟨_, _, he⟩
            · exact ⟨u, t, by simp, (h t (by simp)).valErr u er he⟩
            · obtain ⟨u', t', ht, hr⟩ := ih (fun t ht => h t (by simp [ht])) us he
              exact ⟨u', t', by simp [ht], hr⟩
  · intro v x hx hl
    obtain ⟨vs, xs, hv, h2, rfl⟩ := denote_tuple.1 hx
    have hok := (hval v).2 ⟨vs, hv, hden vs xs h2⟩
    simp only at hl
    have hm : ∀ a ∈ elems (encsOf pk ts) (encBys pk ts xs), a.2.length < 2 ^ 256 := by
      intro a ha
      have := elem_length_le ha
      omega
    have hc : callAll (encsOf pk ts) vs = .ok (encBys pk ts xs) := by
      clear hok hl hval hden hvv hlen hv hx
      induction ts generalizing vs xs with
      | nil => cases vs <;> rfl
      | cons t ts ih =>
        cases vs with
        | nil => cases h2
        | cons u us =>
          obtain ⟨y, ys, h3, h4, rfl⟩ := denoteAll_cons.1 h2
          simp only [encsOf, encBys, elems, List.mem_cons, forall_eq_or_imp] at hm
          simp only [encsOf, encBys, callAll, (h t (by simp)).enc u y h3 hm.1, ok_bind,
            ih (fun t ht => h t (by simp [ht])) us ys h4 hm.2, pure_eq_ok]
    rcases tupleEncode_spec hv hok hc with h3 | ⟨_, h3⟩
    · exact h3
    · omega
  · intro v he hg hn
    rw [hvv, hval] at he
    obtain ⟨vs, hv, hi⟩ := he
    simp only [OnGrid] at hg
    replace hg := hg vs hv
    rw [(asListLike_weight hv).2.1] at hn
    suffices ∃ xs, denoteAll ts vs = some xs by
      obtain ⟨xs, hxs⟩ := this
      exact ⟨.seq xs, denote_tuple.2 ⟨vs, xs, hv, hxs, rfl⟩⟩
    clear hval hden hvv hlen hv
    induction ts generalizing vs with
    | nil =>
      cases hi
      exact ⟨[], rfl⟩
    | cons t ts ih =>
      cases hi with
      | @cons _ u _ us h1 h2 =>
        simp only [OnGridAll] at hg
        simp only [NoSurrogatesAll] at hn
        obtain ⟨x, hx⟩ := (h t (by simp)).complete u h1 hg.1 hn.1
        obtain ⟨xs, hxs⟩ := ih (fun t ht => h t (by simp [ht])) us hn.2 h2 hg.2
        exact ⟨x :: xs, denoteAll_cons.2 ⟨x, xs, hx, hxs, rfl⟩⟩
  · intro v he
    rw [hvv] at he
    obtain ⟨vs, hv, hi⟩ := (hval v).1 he
    have hF : List.Forall₂ TotalAt (encsOf pk ts) vs := by
      clear hval hden hvv hlen hv he
      induction ts generalizing vs with
      | nil => cases hi; exact .nil
      | cons t ts ih =>
        cases hi with
        | @cons _ u _ us h1 h2 =>
          exact .cons ((h t (by simp)).total u h1) (ih (fun t ht => h t (by simp [ht])) us h2)
    have herr : ∀ er, callAll (encsOf pk ts) vs = .error er →
        (mkTuple (encsOf pk ts)).call v = .error er := by
      intro er h'
      simp only [mkTuple, tupleEncode, he, hv, ok_bind, tupleChunks_eq, h', error_bind]
    rw [(asListLike_weight hv).1, (asListLike_weight hv).2.1]
    rcases callAll_total hF with ⟨bs, hbs, hl⟩ | ⟨h1, h2⟩ | ⟨er, h1, ht, h2⟩
    · rcases tupleEncode_spec hv he hbs with h3 | ⟨er, h3, ht, h4⟩
      · exact Or.inl ⟨_, h3, by omega⟩
      · exact Or.inr (Or.inr ⟨er, h3, ht, by omega⟩)
    · exact Or.inr (Or.inl ⟨herr _ h1, h2⟩)
    · exact Or.inr (Or.inr ⟨er, herr _ h1, ht, by omega⟩)
  · intro v b hb
    simp only [mkTuple, tupleEncode, bind_eq_ok] at hb
    obtain ⟨_, h1, _⟩ := hb
    exact h1
  · intro v er he
    rw [hvv] at he
    exact ⟨er, by simp only [mkTuple, tupleEncode, he, error_bind]⟩

/-! ## All types -/

theorem padRight32_short {b : Bytes} {m : Nat} (hb : b.length = m) (h0 : 0 < m) (h : m ≤ 32) :
    padRight32 b = b ++ List.replicate (32 - m) 0 := by
  subst hb
  unfold padRight32
  congr 2
  omega

theorem anyDynamic_eq (ts : List Ty) : Ty.anyDynamic ts = ts.any (·.dynamic) := by
  induction ts with
  | nil => rfl
  | cons t ts ih => simp [Ty.anyDynamic, ih]

theorem elems_std [Ext] (ts : List Ty) (xs : List Val)
    (h : ∀ t ∈ ts, EncGood t (encOf false t) (dynBy false t) (encBy false t)) :
    elems (encsOf false ts) (encBys false ts xs) = encAll ts xs := by
  induction ts generalizing xs with
  | nil => simp [encsOf, encBys, elems, encAll]
  | cons t ts ih =>
    cases xs with
    | nil => simp [encsOf, encBys, elems, encAll]
    | cons x xs =>
      simp only [encsOf, encBys, elems, encAll, (h t (by simp)).dyn_eq,
        ih xs (fun t ht => h t (by simp [ht]))]
      rfl

theorem elems_packed [Ext] (ts : List Ty) (xs : List Val)
    (h : ∀ t ∈ ts, EncGood t (encOf true t) (dynBy true t) (encBy true t)) :
    layout (elems (encsOf true ts) (encBys true ts xs)) = encPackedAll ts xs := by
  rw [layout_static]
  · clear h
    induction ts generalizing xs with
    | nil => simp [encsOf, encBys, elems, encPackedAll]
    | cons t ts ih =>
      cases xs with
      | nil => simp [encsOf, encBys, elems, encPackedAll]
      | cons x xs =>
        simp only [encsOf, encBys, elems, encPackedAll, List.map_cons, List.flatten_cons, ih xs]
        rfl
  · intro a ha
    induction ts generalizing xs with
    | nil => simp [encsOf, encBys, elems] at ha
    | cons t ts ih =>
      cases xs with
      | nil => simp [encsOf, encBys, elems] at ha
      | cons x xs =>
        simp only [encsOf, encBys, elems, List.mem_cons] at ha
        rcases ha with rfl | ha
        · exact (h t (by simp)).dyn_eq
        · exact ih xs (fun t ht => h t (by simp [ht])) ha

/-- The encoder object of a valid type does what the specification says, in both modes. -/
theorem encOf_good [Ext] (pk : Bool) (t : Ty) : t.Valid →
    EncGood t (encOf pk t) (dynBy pk t) (encBy pk t) := by
  refine Spec.Ty.ind (P := fun t => t.Valid →
    EncGood t (encOf pk t) (dynBy pk t) (encBy pk t)) ?_ ?_ ?_ ?_ ?_ ?_ ?_ ?_ ?_ ?_ ?_ ?_ t
  · intro n hv
    simp only [Ty.Valid, validBits] at hv
    cases pk
    · refine ((uint_good (n := n) (d := 32) (by omega) (by omega)).toEnc (by omega)).congr ?_
      intro x hx; cases x <;> simp [encBy, Spec.enc, wordOf_eq]
    · refine ((uint_good (n := n) (d := n / 8) (by omega) (by omega)).toEnc (by omega)).congr ?_
      intro x hx; cases x <;> simp [encBy, encPacked]
  · intro n hv
    simp only [Ty.Valid] at hv
    have hv' := hv
    simp only [validBits] at hv'
    cases pk
    · refine ((sint_good (n := n) (d := 32) hv.1 hv.2.2 (by have := hv.2.1; omega)).toEnc (by omega)).congr ?_
      intro x hx; cases x <;> simp [encBy, Spec.enc, wordOf_eq]
    · refine ((sint_good (n := n) (d := n / 8) hv.1 hv.2.2 (by omega)).toEnc (by omega)).congr ?_
      intro x hx; cases x <;> simp [encBy, encPacked]
  · intro _
    cases pk
    · refine ((address_good (d := 32) (by omega)).toEnc (by omega)).congr ?_
      intro x hx; cases x <;> simp [encBy, Spec.enc]
    · refine ((address_good (d := 20) (by omega)).toEnc (by omega)).congr ?_
      intro x hx; cases x <;> simp [encBy, encPacked]
  · intro _
    cases pk
    · refine ((bool_good (d := 32) (by omega)).toEnc (by omega)).congr ?_
      intro x hx; cases x <;> simp [encBy, Spec.enc, wordOf_eq]
    · refine ((bool_good (d := 1) (by omega)).toEnc (by omega)).congr ?_
      intro x hx; cases x <;> simp [encBy, encPacked]
  · intro m n hv
    simp only [Ty.Valid] at hv
    have hv' := hv.1
    simp only [validBits] at hv'
    cases pk
    · refine ((ufixed_good (m := m) (n := n) (d := 32) hv.1 hv.2.2 (by omega)).toEnc (by omega)).congr ?_
      intro x hx; cases x <;> simp [encBy, Spec.enc, wordOf_eq]
    · refine ((ufixed_good (m := m) (n := n) (d := m / 8) hv.1 hv.2.2 (by omega)).toEnc (by omega)).congr ?_
      intro x hx; cases x <;> simp [encBy, encPacked]
  · intro m n hv
    simp only [Ty.Valid] at hv
    have hv' := hv.1
    simp only [validBits] at hv'
    cases pk
    · refine ((sfixed_good (m := m) (n := n) (d := 32) hv.1 hv.2.2 (by omega)).toEnc (by omega)).congr ?_
      intro x hx; cases x <;> simp [encBy, Spec.enc, wordOf_eq]
    · refine ((sfixed_good (m := m) (n := n) (d := m / 8) hv.1 hv.2.2 (by omega)).toEnc (by omega)).congr ?_
      intro x hx; cases x <;> simp [encBy, encPacked]
  · intro m hv
    simp only [Ty.Valid] at hv
    cases pk
    · refine ((bytesM_good (m := m) (d := 32) (by omega)).toEnc (by omega)).congr ?_
      intro x hx
      cases x <;> simp [Val.Of] at hx
      simp only [encBy, Spec.enc, padRight32_short hx hv.1 hv.2]
      rfl
    · refine ((bytesM_good (m := m) (d := m) (by omega)).toEnc (by omega)).congr ?_
      intro x hx; cases x <;> simp [encBy, encPacked]
  · intro _
    cases pk
    · exact bytes_good
    · exact packedBytes_good
  · intro _
    cases pk
    · exact string_good
    · exact packedString_good
  · intro k t ih hv
    simp only [Ty.Valid] at hv
    have ih := ih hv.2
    cases pk
    · refine (sizedLike_good ih k (e := encOf false (.sized k t)) ?_ rfl rfl).congr ?_
      · simp only [encOf, Bool.false_eq_true, if_false, sizedEnc, ih.dyn_eq]
      · intro x hx; cases x <;> simp [Val.Of] at hx
        rfl
    · refine (sizedLike_good ih k (e := encOf true (.sized k t)) rfl rfl rfl).congr ?_
      intro x hx; cases x <;> simp [Val.Of] at hx
      simp only [encBy, if_true, encPacked]
      rw [layout_static (by intro a ha; obtain ⟨_, _, rfl⟩ := List.mem_map.1 ha; rfl), List.map_map]
      rfl
  · intro t ih hv
    simp only [Ty.Valid] at hv
    have ih := ih hv
    cases pk
    · refine (dynArray_good ih ?_).congr ?_
      · intro x hx
        exact (enc_length t hv x hx).2.1
      · intro x hx; cases x <;> simp only [Val.Of] at hx
        rfl
    · refine (packedDyn_good ih).congr ?_
      intro x hx; cases x <;> simp only [Val.Of] at hx
      simp only [encBy, if_true, encPacked]
      rw [layout_static (by intro a ha; obtain ⟨_, _, rfl⟩ := List.mem_map.1 ha; rfl), List.map_map]
      rfl
  · intro ts ih hv
    simp only [Ty.Valid, Spec.Ty.allValid_iff] at hv
    have ih' : ∀ t ∈ ts, EncGood t (encOf pk t) (dynBy pk t) (encBy pk t) :=
      fun t ht => ih t ht (hv.2 t ht)
    have hd : ts.any (dynBy pk) = dynBy pk (.tuple ts) := by
      cases pk
      · have : dynBy false = fun t : Ty => t.dynamic := by funext t; simp [dynBy]
        simp only [this, Ty.dynamic, anyDynamic_eq]
      · simp [dynBy]
    rw [← hd]
    refine (tuple_good pk ts ih').congr ?_
    intro x hx
    cases x <;> simp only [Val.Of] at hx
    cases pk
    · simp only [elems_std ts _ ih']
      rfl
    · simp only [elems_packed ts _ ih']
      rfl

/-- The bounds of the types of the ABI are printed. -/
theorem valid_bounds [Ext] (t : Ty) : t.Valid → BoundsPrintable t := by
  have hle : ∀ n, n ≤ 256 → (2 : Int) ^ n ≤ 2 ^ 256 := fun n h => pow_le_pow_right₀ (by norm_num) h
  have hpos : ∀ n : Nat, (0 : Int) < 2 ^ n := fun n => by positivity
  refine Spec.Ty.ind (P := fun t => t.Valid → BoundsPrintable t) ?_ ?_ ?_ ?_ ?_ ?_ ?_ ?_ ?_ ?_ ?_ ?_ t
  · intro n hv
    simp only [Ty.Valid, validBits] at hv
    exact printable_bound (by have := hpos n; omega) (by have := hle n hv.2.1; omega)
  · intro n hv
    simp only [Ty.Valid, validBits] at hv
    exact printable_bound (by have := hpos (n - 1); omega) (hle (n - 1) (by omega))
  iterate 7
    intros
    exact trivial
  · intro k t ih hv
    simp only [Ty.Valid] at hv
    exact ih hv.2
  · intro t ih hv
    simp only [Ty.Valid] at hv
    exact ih hv
  · intro ts ih hv
    simp only [Ty.Valid, Spec.Ty.allValid_iff] at hv
    exact boundsPrintableAll_iff.2 fun t ht => ih t ht (hv.2 t ht)

end EthAbi
