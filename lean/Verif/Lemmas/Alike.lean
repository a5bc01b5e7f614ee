import Verif.Spec.Alike
import Verif.Lemmas.DecimalValue
import Verif.Lemmas.Accept
import Verif.Lemmas.Layout

/-! # Values that differ in form only are treated alike by the encoder objects -/
namespace EthAbi
open Spec

/-- The encoder object does the same with both values, except that the exceptions may differ where a
value cannot be quoted. -/
def Same [Ext] (e : Encoder) (v v' : PyVal) : Prop :=
  SameResult v v' (e.validateValue v) (e.validateValue v') ∧ SameResult v v' (e.call v) (e.call v')

theorem Same.rfl' [Ext] {e : Encoder} {v : PyVal} : Same e v v := ⟨.rfl', .rfl'⟩

theorem Same.symm [Ext] {e : Encoder} {v v' : PyVal} (h : Same e v v') : Same e v' v :=
  ⟨h.1.symm, h.2.symm⟩

/-- The object does not distinguish `bytes` and `bytearray`, nor lists, tuples and other sequences. -/
structure FormFree [Ext] (e : Encoder) : Prop where
  bytes : ∀ b, Same e (.bytes b) (.bytearray b)
  items : ∀ {v v' vs}, IsSeqOf v vs → IsSeqOf v' vs → Same e v v'

theorem FormFree.of_bytes [Ext] {e : Encoder} (h : FormFree e) {v v' : PyVal} {b : Bytes} (h1 : IsBytes v b)
    (h2 : IsBytes v' b) : Same e v v' := by
  cases h1 <;> cases h2
  · exact .rfl'
  · exact h.bytes b
  · exact (h.bytes b).symm
  · exact .rfl'

theorem FormFree.of_items [Ext] {e : Encoder} (h : FormFree e) {v v' : PyVal} {vs : List PyVal} (h1 : IsSeqOf v vs)
    (h2 : IsSeqOf v' vs) : Same e v v' := h.items h1 h2

theorem formFree [Ext] (pk : Bool) (t : Ty) : FormFree (encOf pk t) := by
  cases t with
  | bytes => cases pk <;> exact ⟨fun _ => ⟨.inl rfl, .inl rfl⟩, fun h h' => by cases h <;> cases h' <;> exact ⟨.inl rfl, .inl rfl⟩⟩
  | string => cases pk <;> exact ⟨fun _ => ⟨.inl rfl, .inl rfl⟩, fun h h' => by cases h <;> cases h' <;> exact ⟨.inl rfl, .inl rfl⟩⟩
  | sized k t => cases pk <;> exact ⟨fun _ => ⟨.inl rfl, .inl rfl⟩, fun h h' => by cases h <;> cases h' <;> exact ⟨.inl rfl, .inl rfl⟩⟩
  | dyn t => cases pk <;> exact ⟨fun _ => ⟨.inl rfl, .inl rfl⟩, fun h h' => by cases h <;> cases h' <;> exact ⟨.inl rfl, .inl rfl⟩⟩
  | _ => exact ⟨fun _ => ⟨.inl rfl, .inl rfl⟩, fun h h' => by cases h <;> cases h' <;> exact ⟨.inl rfl, .inl rfl⟩⟩

/-- `SameResult` for the items of a list. -/
def AgreeAll [Ext] {α : Type} (vs vs' : List PyVal) (r r' : PyM α) : Prop :=
  r = r' ∨ ((∃ e, r = .error e) ∧ (∃ e, r' = .error e) ∧ ¬ (PrintableAll vs ∧ PrintableAll vs'))

theorem AgreeAll.rfl' [Ext] {α : Type} {vs vs' : List PyVal} {r : PyM α} : AgreeAll vs vs' r r := .inl rfl

theorem SameResult.head [Ext] {α : Type} {v v' : PyVal} {vs vs' : List PyVal} {r r' : PyM α}
    (h : SameResult v v' r r') : AgreeAll (v :: vs) (v' :: vs') r r' := by
  rcases h with h | ⟨h1, h2, h3⟩
  · exact .inl h
  · exact .inr ⟨h1, h2, fun h => h3 ⟨h.1.1, h.2.1⟩⟩

theorem AgreeAll.tail [Ext] {α : Type} {v v' : PyVal} {vs vs' : List PyVal} {r r' : PyM α}
    (h : AgreeAll vs vs' r r') : AgreeAll (v :: vs) (v' :: vs') r r' := by
  rcases h with h | ⟨h1, h2, h3⟩
  · exact .inl h
  · exact .inr ⟨h1, h2, fun h => h3 ⟨h.1.2, h.2.2⟩⟩

theorem AgreeAll.bind [Ext] {α β : Type} {vs vs' : List PyVal} {r r' : PyM α} {f f' : α → PyM β}
    (h : AgreeAll vs vs' r r') (hf : ∀ a, r = .ok a → AgreeAll vs vs' (f a) (f' a)) :
    AgreeAll vs vs' (r >>= f) (r' >>= f') := by
  rcases h with rfl | ⟨⟨e, rfl⟩, ⟨e', rfl⟩, h⟩
  · cases r with
    | error e => exact .inl rfl
    | ok a => exact hf a rfl
  · exact .inr ⟨⟨e, rfl⟩, ⟨e', rfl⟩, h⟩

theorem AgreeAll.list [Ext] {α : Type} {v v' : PyVal} {vs vs' : List PyVal} {r r' : PyM α}
    (h1 : IsSeqOf v vs) (h2 : IsSeqOf v' vs') (h : AgreeAll vs vs' r r') : SameResult v v' r r' := by
  rcases h with h | ⟨h3, h4, h5⟩
  · exact .inl h
  · exact .inr ⟨h3, h4, fun h => h5 ⟨(printable_list (isSeqOf_iff.1 h1)).1 h.1,
      (printable_list (isSeqOf_iff.1 h2)).1 h.2⟩⟩

theorem SameResult.all [Ext] {α : Type} {v v' : PyVal} {vs vs' : List PyVal} {r r' : PyM α}
    (h : SameResult v v' r r') (h1 : IsSeqOf v vs) (h2 : IsSeqOf v' vs') : AgreeAll vs vs' r r' := by
  rcases h with h | ⟨h3, h4, h5⟩
  · exact .inl h
  · exact .inr ⟨h3, h4, fun h => h5 ⟨(printable_list (isSeqOf_iff.1 h1)).2 h.1,
      (printable_list (isSeqOf_iff.1 h2)).2 h.2⟩⟩

/-- Lists whose items the object treats alike. -/
inductive SameItems [Ext] (e : Encoder) : List PyVal → List PyVal → Prop where
  | nil : SameItems e [] []
  | cons {v v' : PyVal} {vs vs' : List PyVal} : Same e v v' → SameItems e vs vs' →
      SameItems e (v :: vs) (v' :: vs')

theorem SameItems.length [Ext] {e : Encoder} {vs vs' : List PyVal} (h : SameItems e vs vs') :
    vs.length = vs'.length := by
  induction h with
  | nil => rfl
  | cons _ _ ih => simp [ih]

theorem SameItems.validate [Ext] {e : Encoder} {vs vs' : List PyVal} (h : SameItems e vs vs') :
    AgreeAll vs vs' (arrayValidateItems e vs) (arrayValidateItems e vs') := by
  induction h with
  | nil => exact .rfl'
  | cons h _ ih => exact h.1.head.bind fun _ _ => ih.tail

theorem SameItems.encode [Ext] {e : Encoder} {vs vs' : List PyVal} (h : SameItems e vs vs') :
    AgreeAll vs vs' (encodeAll e vs) (encodeAll e vs') := by
  induction h with
  | nil => exact .rfl'
  | cons h _ ih => exact h.2.head.bind fun _ _ => ih.tail.bind fun _ _ => .rfl'

theorem pyLen_of {v : PyVal} {vs : List PyVal} (h : IsSeqOf v vs) : pyLen v = .ok vs.length := by
  cases h <;> rfl

theorem SameItems.array [Ext] {e : Encoder} {v v' : PyVal} {vs vs' : List PyVal} (h1 : IsSeqOf v vs)
    (h2 : IsSeqOf v' vs') (h : SameItems e vs vs') :
    SameResult v v' (arrayValidate e v) (arrayValidate e v') := by
  unfold arrayValidate
  rw [isSeqOf_iff.1 h1, isSeqOf_iff.1 h2]
  exact AgreeAll.list h1 h2 h.validate

theorem SameItems.sized [Ext] {e : Encoder} {v v' : PyVal} {vs vs' : List PyVal} (h1 : IsSeqOf v vs)
    (h2 : IsSeqOf v' vs') (h : SameItems e vs vs') (k : Option Nat) :
    SameResult v v' (sizedArrayValidate e k v) (sizedArrayValidate e k v') := by
  unfold sizedArrayValidate
  refine (h.array h1 h2).bind fun _ _ => ?_
  rw [pyLen_of h1, pyLen_of h2, h.length]
  simp only [ok_bind]
  split
  · exact .rfl'
  · split
    · rw [invalidate_eq, invalidate_eq]
      exact .shown _
    · exact .rfl'

theorem SameItems.elements [Ext] {e : Encoder} {v v' : PyVal} {vs vs' : List PyVal} (h1 : IsSeqOf v vs)
    (h2 : IsSeqOf v' vs') (h : SameItems e vs vs') {validate : PyVal → PyM Unit}
    (hv : SameResult v v' (validate v) (validate v')) :
    SameResult v v' (encodeElements validate e v) (encodeElements validate e v') := by
  unfold encodeElements
  refine hv.bind fun _ _ => ?_
  rw [isSeqOf_iff.1 h1, isSeqOf_iff.1 h2]
  refine AgreeAll.list h1 h2 (h.encode.bind fun _ _ => ?_)
  rw [h.length]
  exact .rfl'

/-- The same for the components of a tuple. -/
inductive SameComps [Ext] : List Encoder → List PyVal → List PyVal → Prop where
  | rest {vs : List PyVal} : SameComps [] vs vs
  | short {es : List Encoder} : SameComps es [] []
  | cons {e : Encoder} {es : List Encoder} {v v' : PyVal} {vs vs' : List PyVal} : Same e v v' →
      (∀ u, validateOrCall e u = e.validateValue u) → SameComps es vs vs' → SameComps (e :: es) (v :: vs) (v' :: vs')

theorem SameComps.length [Ext] {es : List Encoder} {vs vs' : List PyVal} (h : SameComps es vs vs') :
    vs.length = vs'.length := by
  induction h with
  | rest => rfl
  | short => rfl
  | cons _ _ _ ih => simp [ih]

theorem SameComps.validate [Ext] {es : List Encoder} {vs vs' : List PyVal} (h : SameComps es vs vs') :
    AgreeAll vs vs' (tupleValidateItems vs es) (tupleValidateItems vs' es) := by
  induction h with
  | rest => exact .rfl'
  | short => exact .rfl'
  | cons h hv _ ih =>
    simp only [tupleValidateItems, hv]
    exact h.1.head.bind fun _ _ => ih.tail

theorem SameComps.chunks [Ext] {es : List Encoder} {vs vs' : List PyVal} (h : SameComps es vs vs') :
    AgreeAll vs vs' (tupleChunks vs es) (tupleChunks vs' es) := by
  induction h with
  | rest => exact .rfl'
  | short => exact .rfl'
  | cons h _ _ ih => exact h.2.head.bind fun _ _ => ih.tail.bind fun _ _ => .rfl'

theorem SameComps.tuple [Ext] {es : List Encoder} {v v' : PyVal} {vs vs' : List PyVal} (h1 : IsSeqOf v vs)
    (h2 : IsSeqOf v' vs') (h : SameComps es vs vs') : Same (mkTuple es) v v' := by
  have hv : SameResult v v' (tupleValidate es v) (tupleValidate es v') := by
    unfold tupleValidate
    rw [isSeqOf_iff.1 h1, isSeqOf_iff.1 h2]
    simp only [h.length]
    split
    · rw [invalidate_eq, invalidate_eq]
      exact .shown _
    · exact AgreeAll.list h1 h2 h.validate
  refine ⟨hv, ?_⟩
  show SameResult v v' (tupleEncode es v) (tupleEncode es v')
  unfold tupleEncode
  refine hv.bind fun _ _ => ?_
  rw [isSeqOf_iff.1 h1, isSeqOf_iff.1 h2]
  exact AgreeAll.list h1 h2 (h.chunks.bind fun _ _ => .rfl')

mutual
theorem alike_same [Ext] (pk : Bool) {t : Ty} {v v' : PyVal} (h : Alike t v v') (hv : t.Valid) :
    Same (encOf pk t) v v' := by
  cases h with
  | same => exact .rfl'
  | bytes h1 h2 => exact (formFree pk t).of_bytes h1 h2
  | items h1 h2 => exact (formFree pk t).of_items h1 h2
  | ufixed h1 h2 h => exact ⟨fixedValidate_same _ _ h1 h2 h, ufixedEncode_same _ _ _ h1 h2 h⟩
  | fixed h1 h2 h => exact ⟨fixedValidate_same _ _ h1 h2 h, sfixedEncode_same _ _ _ _ h1 h2 h⟩
  | @address _ _ b h1 h2 =>
    have hg := address_good (d := if pk then 20 else 32) (by cases pk <;> simp)
    have d1 : denote .address v = some (.raw b) := by simp [denote, h1]
    have d2 : denote .address v' = some (.raw b) := by simp [denote, h2]
    exact ⟨.inl ((hg.valOk _ _ d1).trans (hg.valOk _ _ d2).symm),
      .inl ((hg.enc _ _ d1).trans (hg.enc _ _ d2).symm)⟩
  | @sized k t _ _ vs vs' h1 h2 h =>
    have hs := alikeEach_same pk h hv.2
    have hz := hs.sized h1 h2 (some k)
    cases pk
    · exact ⟨hz, hs.elements h1 h2 hz⟩
    · exact ⟨hz, hs.elements h1 h2 hz⟩
  | @dyn t _ _ vs vs' h1 h2 h =>
    have hv : t.Valid := hv
    have hs := alikeEach_same pk h hv
    cases pk
    · refine ⟨hs.array h1 h2, ?_⟩
      show SameResult v v' ((mkDynamicArray _).call v) ((mkDynamicArray _).call v')
      simp only [mkDynamicArray, pyLen_of h1, pyLen_of h2, hs.length]
      refine SameResult.bind .rfl' fun _ _ => ?_
      exact SameResult.bind .rfl' fun _ _ => SameResult.bind (hs.elements h1 h2 (hs.array h1 h2)) fun _ _ => .rfl'
    · have hz := hs.sized h1 h2 none
      exact ⟨hz, hs.elements h1 h2 hz⟩
  | tuple h1 h2 h => exact (alikeAll_same pk h hv.2).tuple h1 h2
theorem alikeEach_same [Ext] (pk : Bool) {t : Ty} {vs vs' : List PyVal} (h : AlikeEach t vs vs')
    (hv : t.Valid) : SameItems (encOf pk t) vs vs' := by
  cases h with
  | nil => exact .nil
  | cons h1 h2 => exact .cons (alike_same pk h1 hv) (alikeEach_same pk h2 hv)
theorem alikeAll_same [Ext] (pk : Bool) {ts : List Ty} {vs vs' : List PyVal} (h : AlikeAll ts vs vs')
    (hv : Ty.AllValid ts) : SameComps (encsOf pk ts) vs vs' := by
  cases h with
  | rest => exact .rest
  | short => exact .short
  | cons h1 h2 =>
    exact .cons (alike_same pk h1 hv.1) (fun u => (encOf_good pk _ hv.1).toEncBase.validateOrCall_eq u) (alikeAll_same pk h2 hv.2)
end

end EthAbi
