import Verif.Lemmas.Built
import Verif.Spec.Text

/-! # Decoders that differ in what they make of the bytes they read -/
namespace EthAbi
open Spec

/-- What two decoders that read the same may do: the second has the related value, or one of the
exceptions `K` where there is none. -/
def Rel {α β : Type} (K : Exc → Prop) (R : α → β → Prop) :
    PyM (α × Stream) → PyM (β × Stream) → Prop
  | .ok (v, st), .ok (w, st') => st = st' ∧ R v w
  | .ok (v, _), .error e => K e ∧ ∀ w, ¬R v w
  | .error e, .error e' => e' = e ∨ K e'
  | .error _, .ok _ => False

theorem rel_error {α β : Type} {K : Exc → Prop} {R : α → β → Prop} (e : Exc) :
    Rel K R (.error e) (.error e) := .inl rfl

theorem rel_same {α β γ : Type} {K : Exc → Prop} {R : α → β → Prop} (x : PyM γ)
    {f : γ → PyM (α × Stream)} {g : γ → PyM (β × Stream)} (h : ∀ a, x = .ok a → Rel K R (f a) (g a)) :
    Rel K R (x >>= f) (x >>= g) := by
  cases x with
  | error e => exact .inl rfl
  | ok a => exact h a rfl

theorem rel_bind {α β γ δ : Type} {K : Exc → Prop} {R : α → β → Prop} {S : γ → δ → Prop}
    {x : PyM (α × Stream)} {y : PyM (β × Stream)} (h : Rel K R x y)
    {f : α × Stream → PyM (γ × Stream)} {g : β × Stream → PyM (δ × Stream)}
    (hfg : ∀ v w st, R v w → Rel K S (f (v, st)) (g (w, st)))
    (hno : ∀ v st v' st', f (v, st) = .ok (v', st') → (∀ w, ¬R v w) → ∀ w, ¬S v' w) :
    Rel K S (x >>= f) (y >>= g) := by
  rcases x with e | ⟨v, st⟩ <;> rcases y with e' | ⟨w, st'⟩
  · exact h
  · exact h.elim
  · obtain ⟨h1, h2⟩ := h
    show Rel K S (f (v, st)) (.error e')
    generalize hx : f (v, st) = x
    rcases x with e | ⟨v', st'⟩
    · exact .inr h1
    · exact ⟨h1, hno _ _ _ _ hx h2⟩
  · obtain ⟨rfl, h2⟩ := h
    exact hfg v w st h2

/-- All registered objects are strict. -/
abbrev allStrict : Flags := fun _ => true

/-- The two decoders differ only in the values. -/
structure Like (K : Exc → Prop) (R : PyVal → PyVal → Prop) (d d' : Decoder) : Prop where
  attr : d'.isDynamic = d.isDynamic
  static : d.dyn = false → d' = d
  call : ∀ st, Rel K R (d.call allStrict st) (d'.call allStrict st)

/-- The same after wrapping. -/
structure WLike (K : Exc → Prop) (R : PyVal → PyVal → Prop) (w w' : Decoder) : Prop where
  shape : w' = w ∨ ∃ d d', w = headTail d ∧ w' = headTail d'
  call : ∀ st, Rel K R (w.call allStrict st) (w'.call allStrict st)

theorem Like.refl {d : Decoder} {K : Exc → Prop} : Like K Eq d d := by
  refine ⟨rfl, fun _ => rfl, fun st => ?_⟩
  generalize d.call allStrict st = x
  rcases x with e | ⟨v, st'⟩
  · exact .inl rfl
  · exact ⟨rfl, rfl⟩

theorem headTail_like {K : Exc → Prop} {R : PyVal → PyVal → Prop} {d d' : Decoder}
    (h : ∀ st, Rel K R (d.call allStrict st) (d'.call allStrict st)) (st : Stream) :
    Rel K R ((headTail d).call allStrict st) ((headTail d').call allStrict st) := by
  show Rel K R (_ >>= _) (_ >>= _)
  refine rel_same _ fun a _ => ?_
  refine rel_same _ fun st _ => ?_
  refine rel_bind (h st) (fun v w st hR => ?_) (fun v st v' st' hf hn => ?_)
  · refine rel_same _ fun st _ => ?_
    exact ⟨rfl, hR⟩
  · obtain ⟨st2, _, h2⟩ := bind_eq_ok.1 hf
    injection h2 with h2
    injection h2 with h2
    subst h2
    exact hn

theorem wrapDyn_like {K : Exc → Prop} {R : PyVal → PyVal → Prop} {d d' : Decoder} (h : Like K R d d') :
    WLike K R (wrapDyn d) (wrapDyn d') ∧ (wrapDyn d').dyn = (wrapDyn d).dyn := by
  have hd : d'.dyn = d.dyn := by unfold Decoder.dyn; rw [h.attr]
  cases hx : d.dyn with
  | false =>
    have := h.static hx
    subst this
    exact ⟨⟨.inl rfl, by rw [wrapDyn, hx]; exact h.call⟩, rfl⟩
  | true =>
    rw [wrapDyn, wrapDyn, hd, hx, if_pos rfl, if_pos rfl]
    exact ⟨⟨.inr ⟨d, d', rfl, rfl⟩, headTail_like h.call⟩, rfl⟩

/-- The decoders of a tuple. -/
inductive Likes (K : Exc → Prop) : List (PyVal → PyVal → Prop) → List Decoder → List Decoder → Prop
  | nil : Likes K [] [] []
  | cons {R : PyVal → PyVal → Prop} {Rs : List (PyVal → PyVal → Prop)} {d d' : Decoder}
      {ds ds' : List Decoder} : Like K R d d' → Likes K Rs ds ds' →
      Likes K (R :: Rs) (d :: ds) (d' :: ds')

theorem lenOfHead_like {K : Exc → Prop} {Rs : List (PyVal → PyVal → Prop)} {ds ds' : List Decoder}
    (h : Likes K Rs ds ds') : lenOfHead (ds'.map wrapDyn) = lenOfHead (ds.map wrapDyn) := by
  induction h with
  | nil => rfl
  | @cons R Rs d d' ds ds' h1 _ ih =>
    simp only [lenOfHead, List.map_cons, List.sum_cons] at ih ⊢
    rw [ih]
    rcases (wrapDyn_like h1).1.shape with hw | ⟨x, y, hx, hy⟩
    · rw [hw]
    · rw [hx, hy]; rfl

theorem checkLoop_like {K : Exc → Prop} {Rs : List (PyVal → PyVal → Prop)} {ds ds' : List Decoder}
    (h : Likes K Rs ds ds') (cur lim : Nat) (st : Stream) :
    tupleCheckLoop allStrict cur lim (ds'.map wrapDyn) st =
      tupleCheckLoop allStrict cur lim (ds.map wrapDyn) st := by
  induction h generalizing st with
  | nil => rfl
  | @cons R Rs d d' ds ds' h1 _ ih =>
    simp only [List.map_cons, tupleCheckLoop]
    have ih' : tupleCheckLoop allStrict cur lim (List.map wrapDyn ds') =
        tupleCheckLoop allStrict cur lim (List.map wrapDyn ds) := funext ih
    rw [ih']
    rcases (wrapDyn_like h1).1.shape with hw | ⟨x, y, hx, hy⟩
    · rw [hw]
    · rw [hx, hy]; rfl

theorem decodeEach_like {K : Exc → Prop} {Rs : List (PyVal → PyVal → Prop)} {ds ds' : List Decoder}
    (h : Likes K Rs ds ds') (st : Stream) :
    Rel K (Each Rs) (decodeEach allStrict (ds.map wrapDyn) st)
      (decodeEach allStrict (ds'.map wrapDyn) st) := by
  induction h generalizing st with
  | nil => exact ⟨rfl, .nil⟩
  | @cons R Rs d d' ds ds' h1 _ ih =>
    show Rel K _ (_ >>= _) (_ >>= _)
    refine rel_bind ((wrapDyn_like h1).1.call st) (fun v w st hR => ?_) (fun v st v' st' hf hn => ?_)
    · refine rel_bind (ih st) (fun vs ws st hRs => ⟨rfl, .cons hR hRs⟩) (fun vs st v' st' hf hn => ?_)
      injection hf with hf
      injection hf with hf
      subst hf
      rintro ws (_ | ⟨_, hw⟩)
      exact hn _ hw
    · obtain ⟨⟨vs, st2⟩, _, h2⟩ := bind_eq_ok.1 hf
      injection h2 with h2
      injection h2 with h2
      subst h2
      rintro ws (_ | ⟨hw, _⟩)
      exact hn _ hw

theorem isSeqOf_tuple {vs us : List PyVal} (h : IsSeqOf (.tuple vs) us) : us = vs := by
  cases h; rfl

theorem tupleDecode_like {K : Exc → Prop} {Rs : List (PyVal → PyVal → Prop)} {ds ds' : List Decoder}
    (h : Likes K Rs ds ds') : Like K (TupleOf Rs) (mkTupleD ds) (mkTupleD ds') := by
  have hany : (ds'.map wrapDyn).any (·.dyn) = (ds.map wrapDyn).any (·.dyn) := by
    induction h with
    | nil => rfl
    | cons h1 _ ih => simp only [List.map_cons, List.any_cons, ih, (wrapDyn_like h1).2]
  refine ⟨by simp only [mkTupleD, hany], ?_, fun st => ?_⟩
  · intro hs
    replace hs : (ds.map wrapDyn).any (·.dyn) = false := hs
    have : ds' = ds := by
      clear hany
      induction h with
      | nil => rfl
      | @cons R Rs d d' ds ds' h1 _ ih =>
        simp only [List.map_cons, List.any_cons, Bool.or_eq_false_iff] at hs
        have h3 : d.dyn = false := by
          cases hx : d.dyn with
          | false => rfl
          | true =>
            have := hs.1
            rw [wrapDyn, hx, if_pos rfl] at this
            cases this
        rw [h1.static h3, ih hs.2]
    rw [this]
  · show Rel K _ (tupleDecode allStrict (ds.map wrapDyn) st) (tupleDecode allStrict (ds'.map wrapDyn) st)
    have hv : tupleValidatePointers allStrict (ds'.map wrapDyn) st =
        tupleValidatePointers allStrict (ds.map wrapDyn) st := by
      simp only [tupleValidatePointers, lenOfHead_like h, checkLoop_like h]
    simp only [tupleDecode, hv]
    refine rel_same _ fun st _ => ?_
    refine rel_bind (decodeEach_like h st) (fun v w st hR => ⟨rfl, v, w, .tuple _, rfl, hR⟩) ?_
    intro vs st v' st' hf hn
    injection hf with hf
    injection hf with hf
    subst hf
    rintro w ⟨us, ws, h1, _, h3⟩
    rw [isSeqOf_tuple h1] at h3
    exact hn _ h3

theorem decodeN_like {K : Exc → Prop} {R : PyVal → PyVal → Prop} {d d' : Decoder}
    (h : ∀ st, Rel K R (d.call allStrict st) (d'.call allStrict st)) (n : Nat) (st : Stream) :
    Rel K (List.Forall₂ R) (decodeN allStrict d n st) (decodeN allStrict d' n st) := by
  induction n generalizing st with
  | zero => exact ⟨rfl, .nil⟩
  | succ n ih =>
    show Rel K _ (_ >>= _) (_ >>= _)
    refine rel_bind (h st) (fun v w st hR => ?_) (fun v st v' st' hf hn => ?_)
    · refine rel_bind (ih st) (fun vs ws st hRs => ⟨rfl, .cons hR hRs⟩) (fun vs st v' st' hf hn => ?_)
      injection hf with hf
      injection hf with hf
      subst hf
      rintro ws (_ | ⟨_, hw⟩)
      exact hn _ hw
    · obtain ⟨⟨vs, st2⟩, _, h2⟩ := bind_eq_ok.1 hf
      injection h2 with h2
      injection h2 with h2
      subst h2
      rintro ws (_ | ⟨hw, _⟩)
      exact hn _ hw

theorem tuple_no {R : PyVal → PyVal → Prop} {vs : List PyVal} (hn : ∀ ws, ¬List.Forall₂ R vs ws)
    (w : PyVal) : ¬ListOf R (.tuple vs) w := by
  rintro ⟨us, ws, h1, _, h3⟩
  rw [isSeqOf_tuple h1] at h3
  exact hn _ h3

theorem arrayValidate_like {K : Exc → Prop} {R : PyVal → PyVal → Prop} {w w' : Decoder}
    (h : WLike K R w w') (n : Nat) (st : Stream) :
    arrayValidatePointers w' n st = arrayValidatePointers w n st := by
  rcases h.shape with hw | ⟨x, y, hx, hy⟩
  · rw [hw]
  · rw [hx, hy]; rfl

theorem wrapItem_like {K : Exc → Prop} {R : PyVal → PyVal → Prop} {d d' : Decoder}
    (h : Like K R d d') (ha : d.isDynamic ≠ none) : ∃ w w', wrapItem d = .ok w ∧ wrapItem d' = .ok w' ∧
      WLike K R w w' ∧ w'.isDynamic = w.isDynamic ∧ (w.dyn = false → w' = w) ∧ w.isDynamic ≠ none := by
  cases hx : d.isDynamic with
  | none => exact absurd hx ha
  | some b =>
    have hb : d.dyn = b := by unfold Decoder.dyn; rw [hx]; rfl
    cases b with
    | false =>
      have := h.static hb
      subst this
      refine ⟨d', d', by simp [wrapItem, hx], by simp [wrapItem, hx], ⟨.inl rfl, h.call⟩, rfl,
        fun _ => rfl, by simp [hx]⟩
    | true =>
      refine ⟨headTail d, headTail d', by simp [wrapItem, hx], by simp [wrapItem, h.attr, hx],
        ⟨.inr ⟨d, d', rfl, rfl⟩, headTail_like h.call⟩, rfl, ?_, by simp [headTail]⟩
      intro h; cases h

theorem sized_like {K : Exc → Prop} {R : PyVal → PyVal → Prop} {d d' : Decoder} (h : Like K R d d')
    (ha : d.isDynamic ≠ none) (n : Nat) : ∃ D D', mkSizedArrayD n d = .ok D ∧
      mkSizedArrayD n d' = .ok D' ∧ Like K (ListOf R) D D' ∧ D.isDynamic ≠ none ∧
      D.strict = .own true ∧ D'.strict = .own true := by
  obtain ⟨w, w', h1, h2, h3, h4, h5, h6⟩ := wrapItem_like h ha
  refine ⟨⟨w.isDynamic, false, some n, .own true, fun fl _ st => sizedArrayDecode fl w n st⟩,
    ⟨w'.isDynamic, false, some n, .own true, fun fl _ st => sizedArrayDecode fl w' n st⟩,
    by simp only [mkSizedArrayD, h1, ok_bind]; rfl, by simp only [mkSizedArrayD, h2, ok_bind]; rfl, ⟨h4, fun hs => ?_, fun st => ?_⟩, h6, rfl, rfl⟩
  · rw [h5 hs]
  · show Rel K _ (sizedArrayDecode allStrict w n st) (sizedArrayDecode allStrict w' n st)
    simp only [sizedArrayDecode, arrayValidate_like h3]
    refine rel_same _ fun st _ => ?_
    refine rel_bind (decodeN_like h3.call n st) (fun v w st hR => ⟨rfl, v, w, .tuple _, rfl, hR⟩) ?_
    intro vs st v' st' hf hn
    injection hf with hf
    injection hf with hf
    subst hf
    exact tuple_no hn

theorem dyn_like {K : Exc → Prop} {R : PyVal → PyVal → Prop} {d d' : Decoder} (h : Like K R d d')
    (ha : d.isDynamic ≠ none) : ∃ D D', mkDynamicArrayD d = .ok D ∧
      mkDynamicArrayD d' = .ok D' ∧ Like K (ListOf R) D D' ∧ D.isDynamic ≠ none ∧
      D.strict = .own true ∧ D'.strict = .own true := by
  obtain ⟨w, w', h1, h2, h3, _, _, _⟩ := wrapItem_like h ha
  refine ⟨⟨some true, false, none, .own true, fun fl _ st => dynamicArrayDecode fl w st⟩,
    ⟨some true, false, none, .own true, fun fl _ st => dynamicArrayDecode fl w' st⟩,
    by simp only [mkDynamicArrayD, h1, ok_bind]; rfl, by simp only [mkDynamicArrayD, h2, ok_bind]; rfl, ⟨rfl, fun hs => (by cases hs), fun st => ?_⟩,
    by simp, rfl, rfl⟩
  show Rel K _ (dynamicArrayDecode allStrict w st) (dynamicArrayDecode allStrict w' st)
  simp only [dynamicArrayDecode, arrayValidate_like h3]
  refine rel_same _ fun p _ => ?_
  obtain ⟨n, st⟩ := p
  refine rel_same _ fun st _ => ?_
  refine rel_same _ fun st _ => ?_
  refine rel_bind (decodeN_like h3.call n st) (fun v w st hR => ?_) ?_
  · refine rel_same _ fun st _ => ?_
    exact ⟨rfl, v, w, .tuple _, rfl, hR⟩
  · intro vs st v' st' hf hn
    obtain ⟨st2, _, h2⟩ := bind_eq_ok.1 hf
    injection h2 with h2
    injection h2 with h2
    subst h2
    exact tuple_no hn

theorem text_like (f : Bytes → PyM PyStr) (i : Nat) :
    Like (fun e => ∃ b, f b = .error e) (AsText f) (byteStringDecoder (.own true))
      (stringDecoderWith f (.shared i)) := by
  refine ⟨rfl, fun h => (by cases h), fun st => ?_⟩
  show Rel _ _ (_ >>= _) (_ >>= _)
  refine rel_same _ fun p _ => ?_
  obtain ⟨b, st⟩ := p
  show Rel _ _ (.ok (PyVal.bytes b, st)) (f b >>= _)
  cases hf : f b with
  | ok t => exact ⟨rfl, b, t, rfl, hf, rfl⟩
  | error e =>
    refine ⟨⟨b, hf⟩, ?_⟩
    rintro w ⟨b', t, hb, ht, _⟩
    injection hb with hb
    subst hb
    rw [hf] at ht
    cases ht

section lookups
variable [Ext]

theorem onlyMatch_at {V : Type} {m : Mapping V} {s : TypeStr} {v : V} (k : Nat) {p : Pred}
    (h : m.values[k]? = some (p, v)) (hp : p.matches s = .ok true)
    (hq : ∀ q ∈ m.values.take k ++ m.values.drop (k + 1), q.1.matches s = .ok false) :
    OnlyMatch m s v := by
  refine ⟨m.values.take k, p, m.values.drop (k + 1), ?_, hp, hq⟩
  obtain ⟨hk, he⟩ := List.getElem?_eq_some_iff.1 h
  rw [← he, ← List.drop_eq_getElem_cons hk, List.take_append_drop]

/-- `get_decoder(s)` returns `d`. -/
abbrev Gets (g : Registry) (s : TypeStr) (d : Decoder) : Prop :=
  ComesTo (fun n => getDecoderFuel g.decoders n s true) (.ok d)

theorem gets_array {g : Registry} {s w : TypeStr} {dim : Option Nat} (hs : Wellformed s)
    (hw : DerivesDims [dim] w) (hn : arrNumsOk [dim] = true) {d D : Decoder}
    (h : Gets g s d) (ha : DecodedAsArray g (s ++ w)) (hD : mkArrayD dim d = .ok D)
    (hst : D.strict = .own true) : Gets g (s ++ w) D := by
  obtain ⟨_, hplan⟩ := array_ask hs hw hn
  obtain ⟨m, h2⟩ := h
  refine ⟨m + 1, fun f hf => ?_⟩
  obtain ⟨f, rfl⟩ : ∃ f', f = f' + 1 := ⟨f - 1, by omega⟩
  have h2 : getDecoderFuel g.decoders f s true = .ok d := h2 f (by omega)
  show getDecoderFuel g.decoders (f + 1) (s ++ w) true = _
  rw [serves_exec_dec ha, hplan]
  simp only [Plan.exec, h2, hD, ok_bind, own_setStrict hst]
  rfl

theorem gets_tuple {g : Registry} {ss : List TypeStr} {s : TypeStr} (h : Joined ss s)
    (hw : ∀ x ∈ ss, Wellformed x) {ds : List Decoder} (hd : List.Forall₂ (Gets g) ss ds)
    (ha : DecodedAsTuple g (t!"(" ++ s ++ t!")")) : Gets g (t!"(" ++ s ++ t!")") (mkTupleD ds) := by
  obtain ⟨_, hplan⟩ := tuple_ask h hw
  obtain ⟨m, h2⟩ := comesTo_all (look := fun n s => getDecoderFuel g.decoders n s true) hd
  refine ⟨m + 1, fun f hf => ?_⟩
  obtain ⟨f, rfl⟩ : ∃ f', f = f' + 1 := ⟨f - 1, by omega⟩
  show getDecoderFuel g.decoders (f + 1) _ true = _
  rw [serves_exec_dec ha, hplan, exec_askAll_ok (h2 f (by omega))]
  simp only [Plan.exec, ok_bind, own_setStrict (d := mkTupleD ds) rfl]
  rfl

theorem gets_bytes {g : Registry} (h : DecodesBytes g) : Gets g t!"bytes" (byteStringDecoder (.own true)) := by
  refine ⟨1, fun f hf => ?_⟩
  obtain ⟨f, rfl⟩ : ∃ f', f = f' + 1 := ⟨f - 1, by omega⟩
  show getDecoderFuel g.decoders (f + 1) _ true = _
  rw [serves_exec_dec h]
  rw [basicPlan_eq _ (derives_word (b := t!"bytes") (by decide)) rfl]
  rfl

theorem gets_name {g : Registry} {name : TypeStr} {f : Bytes → PyM PyStr} {i : Nat}
    (h : OnlyMatch g.decoders name (.obj (stringDecoderWith f (.shared i)))) :
    Gets g name (stringDecoderWith f (.shared i)) := by
  refine ⟨1, fun n hn => ?_⟩
  obtain ⟨n, rfl⟩ : ∃ n', n = n' + 1 := ⟨n - 1, by omega⟩
  show getDecoderFuel g.decoders (n + 1) _ true = _
  rw [getDecoderFuel, (getRegistration_ok _ _ _).2 ((find_iff _ _ _).2 h)]
  rfl

/-- What is shown of the two types. -/
def TextOk (g : Registry) (K : Exc → Prop) (attr : Bool) (s s' : TypeStr)
    (R : PyVal → PyVal → Prop) : Prop :=
  ∃ d d', Gets g s' d ∧ Gets g s d' ∧ (attr = true → d.isDynamic ≠ none) ∧ Like K R d d'

/-- What is shown of the components of the two tuples. -/
def TextAllOk (g : Registry) (K : Exc → Prop) (s s' : TypeStr) (Rs : List (PyVal → PyVal → Prop)) :
    Prop :=
  ∃ ss ss' ds ds', Joined ss s ∧ Joined ss' s' ∧ (∀ x ∈ ss, Wellformed x) ∧ (∀ x ∈ ss', Wellformed x) ∧
    List.Forall₂ (Gets g) ss' ds ∧ List.Forall₂ (Gets g) ss ds' ∧ Likes K Rs ds ds'

theorem text_ok {g : Registry} {name : TypeStr} {f : Bytes → PyM PyStr} {i : Nat}
    (hn : OnlyMatch g.decoders name (.obj (stringDecoderWith f (.shared i)))) (hb : DecodesBytes g)
    {attr : Bool} {s s' : TypeStr} {R : PyVal → PyVal → Prop} (h : TextFor g name f attr s s' R) :
    TextOk g (fun e => ∃ b, f b = .error e) attr s s' R := by
  refine TextFor.rec (motive_1 := fun attr s s' R _ => TextOk g (fun e => ∃ b, f b = .error e) attr s s' R)
    (motive_2 := fun s s' Rs _ => TextAllOk g (fun e => ∃ b, f b = .error e) s s' Rs)
    ?_ ?_ ?_ ?_ ?_ ?_ ?_ h
  · exact ⟨_, _, gets_bytes hb, gets_name hn, fun _ => by simp [byteStringDecoder], text_like f i⟩
  · intro attr s d h1 h2
    exact ⟨d, d, h1, h1, h2, Like.refl⟩
  · rintro s s' R k _ w1 w2 hk hno a1 a2 ⟨d, d', h1, h2, h3, h4⟩
    obtain ⟨D, D', g1, g2, g3, g4, g5, g6⟩ := sized_like h4 (h3 rfl) k
    have hw := dims_one hk
    have hno : arrNumsOk [some k] = true := by simp [arrNumsOk, hno]
    exact ⟨D, D', gets_array w2 hw hno h1 a2 g1 g5, gets_array w1 hw hno h2 a1 g2 g6, fun _ => g4, g3⟩
  · rintro s s' R _ w1 w2 a1 a2 ⟨d, d', h1, h2, h3, h4⟩
    obtain ⟨D, D', g1, g2, g3, g4, g5, g6⟩ := dyn_like h4 (h3 rfl)
    have hw : DerivesDims [none] t!"[]" := DerivesDims.dynamic DerivesDims.nil
    exact ⟨D, D', gets_array w2 hw rfl h1 a2 g1 g5, gets_array w1 hw rfl h2 a1 g2 g6, fun _ => g4, g3⟩
  · rintro s s' Rs _ a1 a2 ⟨ss, ss', ds, ds', j1, j2, w1, w2, h1, h2, h3⟩
    exact ⟨_, _, gets_tuple j2 w2 h1 a2, gets_tuple j1 w1 h2 a1, fun _ => by simp [mkTupleD],
      tupleDecode_like h3⟩
  · rintro attr s s' R _ w1 w2 ⟨d, d', h1, h2, _, h4⟩
    exact ⟨[s], [s'], [d], [d'], .one, .one, by simpa using w1, by simpa using w2, .cons h1 .nil,
      .cons h2 .nil, .cons h4 .nil⟩
  · rintro attr s s' u u' R Rs _ w1 w2 _ ⟨d, d', h1, h2, _, h4⟩ ⟨ss, ss', ds, ds', j1, j2, x1, x2, y1, y2, y3⟩
    refine ⟨s :: ss, s' :: ss', d :: ds, d' :: ds', .cons j1, .cons j2, ?_, ?_, .cons h1 y1, .cons h2 y2,
      .cons h4 y3⟩
    · rintro x hx
      rcases List.mem_cons.1 hx with rfl | hx
      · exact w1
      · exact x1 x hx
    · rintro x hx
      rcases List.mem_cons.1 hx with rfl | hx
      · exact w2
      · exact x2 x hx

theorem textList_ok {g : Registry} {name : TypeStr} {f : Bytes → PyM PyStr} {i : Nat}
    (hn : OnlyMatch g.decoders name (.obj (stringDecoderWith f (.shared i)))) (hb : DecodesBytes g)
    {types types' : List TypeStr} {Rs : List (PyVal → PyVal → Prop)}
    (h : TextForList g name f types types' Rs) : ∃ ds ds', List.Forall₂ (Gets g) types' ds ∧
      List.Forall₂ (Gets g) types ds' ∧ Likes (fun e => ∃ b, f b = .error e) Rs ds ds' := by
  induction h with
  | nil => exact ⟨[], [], .nil, .nil, .nil⟩
  | cons h1 _ ih =>
    obtain ⟨d, d', x1, x2, _, x3⟩ := text_ok hn hb h1
    obtain ⟨ds, ds', y1, y2, y3⟩ := ih
    exact ⟨d :: ds, d' :: ds', .cons x1 y1, .cons x2 y2, .cons x3 y3⟩

/-- No bytes are read in two ways. -/
def Functional (R : PyVal → PyVal → Prop) : Prop := ∀ v w w', R v w → R v w' → w = w'

omit [Ext] in
theorem forall₂_functional {R : PyVal → PyVal → Prop} (h : Functional R) {vs ws ws' : List PyVal}
    (h1 : List.Forall₂ R vs ws) (h2 : List.Forall₂ R vs ws') : ws = ws' := by
  induction h1 generalizing ws' with
  | nil => cases h2; rfl
  | cons a _ ih =>
    cases h2 with
    | cons b c => rw [h _ _ _ a b, ih c]

omit [Ext] in
theorem isSeqOf_unique {v : PyVal} {vs us : List PyVal} (h : IsSeqOf v vs) (h' : IsSeqOf v us) :
    vs = us := by
  cases h <;> cases h' <;> rfl

theorem text_functional {g : Registry} {name : TypeStr} {f : Bytes → PyM PyStr}
    {attr : Bool} {s s' : TypeStr} {R : PyVal → PyVal → Prop} (h : TextFor g name f attr s s' R) :
    Functional R := by
  refine TextFor.rec (motive_1 := fun attr s s' R _ => Functional R)
    (motive_2 := fun s s' Rs _ => ∀ vs ws ws', Each Rs vs ws → Each Rs vs ws' → ws = ws')
    ?_ ?_ ?_ ?_ ?_ ?_ ?_ h
  · rintro v w w' ⟨b, t, rfl, h1, rfl⟩ ⟨b', t', hb, h2, rfl⟩
    injection hb with hb
    subst hb
    rw [h1] at h2
    injection h2 with h2
    rw [h2]
  · rintro attr s d _ _ v w w' rfl rfl; rfl
  · rintro s s' R k _ _ _ _ _ _ _ ih v w w' ⟨vs, ws, h1, rfl, h2⟩ ⟨us, xs, h3, rfl, h4⟩
    rw [isSeqOf_unique h3 h1] at h4
    rw [forall₂_functional ih h2 h4]
  · rintro s s' R _ _ _ _ _ ih v w w' ⟨vs, ws, h1, rfl, h2⟩ ⟨us, xs, h3, rfl, h4⟩
    rw [isSeqOf_unique h3 h1] at h4
    rw [forall₂_functional ih h2 h4]
  · rintro s s' Rs _ _ _ ih v w w' ⟨vs, ws, h1, rfl, h2⟩ ⟨us, xs, h3, rfl, h4⟩
    rw [isSeqOf_unique h3 h1] at h4
    rw [ih _ _ _ h2 h4]
  · rintro attr s s' R _ _ _ ih vs ws ws' h1 h2
    cases h1 with
    | cons a b =>
      cases b
      cases h2 with
      | cons c d =>
        cases d
        rw [ih _ _ _ a c]
  · rintro attr s s' u u' R Rs _ _ _ _ ih ihs vs ws ws' h1 h2
    cases h1 with
    | cons a b =>
      cases h2 with
      | cons c d => rw [ih _ _ _ a c, ihs _ _ _ b d]

theorem textList_functional {g : Registry} {name : TypeStr} {f : Bytes → PyM PyStr}
    {types types' : List TypeStr} {Rs : List (PyVal → PyVal → Prop)}
    (h : TextForList g name f types types' Rs) {vs ws ws' : List PyVal} (h1 : Each Rs vs ws)
    (h2 : Each Rs vs ws') : ws = ws' := by
  induction h generalizing vs ws ws' with
  | nil => cases h1; cases h2; rfl
  | cons hR _ ih =>
    cases h1 with
    | cons a b =>
      cases h2 with
      | cons c d => rw [text_functional hR _ _ _ a c, ih b d]

theorem decodeAt_gets {g : Registry} {types : List TypeStr} {ds : List Decoder}
    (h : List.Forall₂ (Gets g) types ds) (data : PyVal) :
    ComesTo (fun n => decodeAt g allStrict n types data true) (do
      let b ← validateBytesParam data
      let (v, _) ← (mkTupleD ds).call allStrict (Stream.init b)
      return v) := by
  obtain ⟨n, hn⟩ := comesTo_all (look := fun n s => getDecoderFuel g.decoders n s true) h
  refine ⟨n, fun f hf => ?_⟩
  have : mapPyM (fun s => getDecoderFuel g.decoders f s true) types = .ok ds := mapPyM_ok.2 (hn f hf)
  simp only [decodeAt, this, ok_bind]

/-- The outcomes of the two calls. -/
theorem decode_like {K : Exc → Prop} {Rs : List (PyVal → PyVal → Prop)} {ds ds' : List Decoder}
    (h : Likes K Rs ds ds') (data : PyVal) (x y : PyM PyVal)
    (hx : x = do
      let b ← validateBytesParam data
      let (v, _) ← (mkTupleD ds).call allStrict (Stream.init b)
      return v)
    (hy : y = do
      let b ← validateBytesParam data
      let (v, _) ← (mkTupleD ds').call allStrict (Stream.init b)
      return v) :
    (∃ vs ws, x = .ok (.tuple vs) ∧ y = .ok (.tuple ws) ∧ Each Rs vs ws) ∨
    (∃ vs e, x = .ok (.tuple vs) ∧ y = .error e ∧ K e ∧ ∀ ws, ¬Each Rs vs ws) ∨
    (∃ e e', x = .error e ∧ y = .error e' ∧ (e' = e ∨ K e')) := by
  cases hd : validateBytesParam data with
  | error e =>
    rw [hd] at hx hy
    exact .inr (.inr ⟨e, e, hx, hy, .inl rfl⟩)
  | ok b =>
    rw [hd] at hx hy
    simp only [ok_bind] at hx hy
    have hr := (tupleDecode_like h).call (Stream.init b)
    have hshape : ∀ v st, (mkTupleD ds).call allStrict (Stream.init b) = .ok (v, st) → ∃ vs, v = .tuple vs := by
      intro v st hv
      obtain ⟨_, _, h1⟩ := bind_eq_ok.1 (show tupleDecode allStrict (ds.map wrapDyn) _ = _ from hv)
      obtain ⟨⟨vs, _⟩, _, h2⟩ := bind_eq_ok.1 h1
      injection h2 with h2
      injection h2 with h2
      exact ⟨vs, h2.symm⟩
    generalize (mkTupleD ds).call allStrict (Stream.init b) = p at hr hx hshape
    generalize (mkTupleD ds').call allStrict (Stream.init b) = q at hr hy
    rcases p with e | ⟨v, st⟩ <;> rcases q with e' | ⟨w, st'⟩
    · exact .inr (.inr ⟨e, e', hx, hy, hr⟩)
    · exact hr.elim
    · obtain ⟨vs, rfl⟩ := hshape v st rfl
      exact .inr (.inl ⟨vs, e', hx, hy, hr.1, fun ws hw => hr.2 _ ⟨vs, ws, .tuple _, rfl, hw⟩⟩)
    · obtain ⟨_, vs, ws, h1, rfl, h3⟩ := hr
      obtain ⟨us, rfl⟩ := hshape v st rfl
      rw [isSeqOf_tuple h1] at h3
      exact .inl ⟨us, ws, hx, hy, h3⟩

end lookups
end EthAbi
