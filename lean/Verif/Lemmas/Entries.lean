import Verif.Spec.Entries
import Verif.Spec.Registry
import Verif.Lemmas.Registered

/-! # The two dicts of a mapping hold a list of entries -/
namespace EthAbi
open Spec

section
variable {V : Type}

/-- The dict of matchers. -/
def valuesOf (b : List (Entry V)) : List (Pred × V) := b.map fun e => (e.matcher, e.coder)

/-- The dict of labels. -/
def labelsOf (b : List (Entry V)) : List (List Char × Pred) :=
  b.filterMap fun e => e.label.map fun l => (l, e.matcher)

/-- The dicts hold these entries, with distinct matchers and labels. -/
structure Holds (m : Mapping V) (b : List (Entry V)) : Prop where
  values : m.values = valuesOf b
  labels : m.labels = labelsOf b
  matchers : b.Pairwise fun e f => e.matcher.pyEq f.matcher = false
  distinct : b.Pairwise fun e f => e.label = none ∨ e.label ≠ f.label

theorem holds_empty : Holds (Mapping.empty : Mapping V) [] := ⟨rfl, rfl, .nil, .nil⟩

theorem mem_labelsOf {b : List (Entry V)} {l : List Char} {p : Pred} :
    (l, p) ∈ labelsOf b ↔ ∃ e ∈ b, e.label = some l ∧ e.matcher = p := by
  unfold labelsOf
  rw [List.mem_filterMap]
  constructor
  · rintro ⟨e, he, h⟩
    cases hl : e.label with
    | none => rw [hl] at h; cases h
    | some k =>
      rw [hl] at h
      simp only [Option.map_some, Option.some.injEq, Prod.mk.injEq] at h
      exact ⟨e, he, by rw [h.1] at hl; exact hl, h.2⟩
  · rintro ⟨e, he, h1, h2⟩
    exact ⟨e, he, by rw [h1, h2]; rfl⟩

theorem Holds.hasPred {m : Mapping V} {b : List (Entry V)} (h : Holds m b) (p : Pred) :
    m.hasPred p = b.any fun e => e.matcher.pyEq p := by
  unfold Mapping.hasPred
  rw [h.values, valuesOf, List.any_map]
  rfl

theorem Holds.hasLabel {m : Mapping V} {b : List (Entry V)} (h : Holds m b) (l : List Char) :
    m.hasLabel l = b.any fun e => e.label == some l := by
  unfold Mapping.hasLabel
  rw [h.labels, Bool.eq_iff_iff, List.any_eq_true, List.any_eq_true]
  constructor
  · rintro ⟨⟨k, p⟩, hx, e⟩
    obtain ⟨e', he, h1, _⟩ := mem_labelsOf.1 hx
    simp only [beq_iff_eq] at e
    exact ⟨e', he, by rw [h1, e]; simp⟩
  · rintro ⟨e, he, h1⟩
    simp only [beq_iff_eq] at h1
    exact ⟨(l, e.matcher), mem_labelsOf.2 ⟨e, he, h1, rfl⟩, by simp⟩

theorem Holds.add {m : Mapping V} {b : List (Entry V)} (h : Holds m b) (p : Pred) (v : V)
    (label : Option (List Char)) :
    let r := if b.any (fun e => e.matcher.pyEq p) || (label.isSome && b.any fun e => e.label == label) then
        ((.error .valueError, b) : PyM Unit × List (Entry V))
      else (.ok (), b ++ [⟨p, label, v⟩])
    (m.add p v label).1 = r.1 ∧ Holds (m.add p v label).2 r.2 := by
  have hp := h.hasPred p
  unfold Mapping.add
  rw [hp]
  cases hb : b.any fun e => e.matcher.pyEq p with
  | true => simp only [Bool.true_or, if_true]; exact ⟨trivial, h⟩
  | false =>
    have hm : ∀ e ∈ b, e.matcher.pyEq p = false := by
      intro e he
      have := List.any_eq_false.1 hb e he
      simpa using this
    have hmm : (b ++ [(⟨p, label, v⟩ : Entry V)]).Pairwise fun e f => e.matcher.pyEq f.matcher = false := by
      rw [List.pairwise_append]
      refine ⟨h.matchers, List.pairwise_singleton _ _, ?_⟩
      intro e he f hf
      rw [List.mem_singleton.1 hf]
      exact hm e he
    cases label with
    | none =>
      simp only [Option.isSome_none, Bool.false_and, Bool.or_false, Bool.false_eq_true, if_false]
      refine ⟨trivial, ?_, ?_, hmm, ?_⟩
      · simp [h.values, valuesOf]
      · simp [h.labels, labelsOf]
      · rw [List.pairwise_append]
        refine ⟨h.distinct, List.pairwise_singleton _ _, ?_⟩
        intro e he f hf
        rw [List.mem_singleton.1 hf]
        cases e.label <;> simp
    | some l =>
      have hl := h.hasLabel l
      simp only [Option.isSome_some, Bool.true_and, Bool.false_or, Bool.false_eq_true, if_false]
      rw [hl]
      cases hbl : b.any fun e => e.label == some l with
      | true => simp only [if_true]; exact ⟨trivial, h⟩
      | false =>
        simp only [Bool.false_eq_true, if_false]
        refine ⟨trivial, ?_, ?_, hmm, ?_⟩
        · simp [h.values, valuesOf]
        · simp [h.labels, labelsOf]
        · rw [List.pairwise_append]
          refine ⟨h.distinct, List.pairwise_singleton _ _, ?_⟩
          intro e he f hf
          rw [List.mem_singleton.1 hf]
          refine Or.inr ?_
          have := List.any_eq_false.1 hbl e he
          simpa using this

theorem Holds.register {m : Mapping V} {b : List (Entry V)} (h : Holds m b) (l : LookupArg) (v : V)
    (label : Option (List Char)) :
    (m.register l v label).1 = (Entries.register b l v label).1 ∧
      Holds (m.register l v label).2 (Entries.register b l v label).2 := by
  cases l with
  | pred p => exact h.add p v label
  | str s i => exact h.add ⟨i, .equals s⟩ v (some s)
  | other => exact ⟨rfl, h⟩

/-- Without the entry `e`. -/
theorem Holds.without {b1 b2 : List (Entry V)} {e : Entry V}
    (hm : (b1 ++ e :: b2).Pairwise fun e f => e.matcher.pyEq f.matcher = false)
    (hd : (b1 ++ e :: b2).Pairwise fun e f => e.label = none ∨ e.label ≠ f.label) :
    Holds (⟨valuesOf (b1 ++ b2), labelsOf (b1 ++ b2)⟩ : Mapping V) (b1 ++ b2) :=
  ⟨rfl, rfl, hm.sublist (by simp), hd.sublist (by simp)⟩

theorem split_of_any {α : Type} {b : List α} {f : α → Bool} (h : b.any f = true) :
    ∃ b1 e b2, b = b1 ++ e :: b2 ∧ f e = true ∧ ∀ x ∈ b1, f x = false := by
  induction b with
  | nil => cases h
  | cons a b ih =>
    cases ha : f a with
    | true => exact ⟨[], a, b, rfl, ha, by simp⟩
    | false =>
      rw [List.any_cons, ha, Bool.false_or] at h
      obtain ⟨b1, e, b2, rfl, h2, h3⟩ := ih h
      refine ⟨a :: b1, e, b2, rfl, h2, ?_⟩
      intro x hx
      rcases List.mem_cons.1 hx with rfl | hx
      · exact ha
      · exact h3 x hx

theorem delPred_split {p : Pred} {b1 b2 : List (Entry V)} {e : Entry V} (he : e.matcher.pyEq p = true)
    (h1 : ∀ x ∈ b1, x.matcher.pyEq p = false) :
    Mapping.delPred p (valuesOf (b1 ++ e :: b2)) = some (valuesOf (b1 ++ b2)) := by
  induction b1 with
  | nil => simp [valuesOf, Mapping.delPred, he]
  | cons a b1 ih =>
    have ha := h1 a (by simp)
    have := ih fun x hx => h1 x (by simp [hx])
    simp only [valuesOf, List.map_append, List.map_cons, List.cons_append] at this ⊢
    simp only [Mapping.delPred, ha, Bool.false_eq_true, if_false, this, Option.map_some]

theorem delPred_none {p : Pred} {b : List (Entry V)} (h : ∀ x ∈ b, x.matcher.pyEq p = false) :
    Mapping.delPred p (valuesOf b) = none := by
  induction b with
  | nil => rfl
  | cons a b ih =>
    have := ih fun x hx => h x (by simp [hx])
    simp only [valuesOf, List.map_cons] at this ⊢
    simp only [Mapping.delPred, h a (by simp), Bool.false_eq_true, if_false, this, Option.map_none]

theorem filter_split {b1 b2 : List (Entry V)} {e : Entry V} {f : Entry V → Bool} (he : f e = true)
    (h : ∀ x ∈ b1 ++ b2, f x = false) : (b1 ++ e :: b2).filter (fun x => !f x) = b1 ++ b2 := by
  rw [List.filter_append, List.filter_cons, he]
  simp only [Bool.not_true, Bool.false_eq_true, if_false]
  rw [List.filter_eq_self.2 (fun x hx => by rw [h x (by simp [hx])]; rfl),
    List.filter_eq_self.2 (fun x hx => by rw [h x (by simp [hx])]; rfl)]

theorem labelsOf_append (b1 b2 : List (Entry V)) : labelsOf (b1 ++ b2) = labelsOf b1 ++ labelsOf b2 := by
  simp [labelsOf]

theorem labelsOf_cons (e : Entry V) (b : List (Entry V)) :
    labelsOf (e :: b) = (e.label.map fun l => (l, e.matcher)).toList ++ labelsOf b := by
  unfold labelsOf
  rw [List.filterMap_cons]
  cases e.label <;> rfl

theorem delLabelOf_split {p : Pred} {a c : List (List Char × Pred)} {x : List Char × Pred}
    (hx : x.2.ident = p.ident) (ha : ∀ q ∈ a, q.2.ident ≠ p.ident) :
    Mapping.delLabelOf p (a ++ x :: c) = a ++ c := by
  induction a with
  | nil => simp [Mapping.delLabelOf, hx]
  | cons q a ih =>
    rw [List.cons_append, Mapping.delLabelOf, if_neg (ha q (by simp)), ih fun y hy => ha y (by simp [hy])]
    rfl

theorem Holds.unregister {m : Mapping V} {b : List (Entry V)} (h : Holds m b) (l : LookupArg)
    (hl : Entries.Direct b l) :
    (m.unregister l).1 = (Entries.unregister b l).1 ∧ Holds (m.unregister l).2 (Entries.unregister b l).2 := by
  cases l with
  | other => exact ⟨rfl, h⟩
  | pred p =>
    have hI : Entries.Itself b p := hl
    simp only [Mapping.unregister, Entries.unregister, Mapping.removeByEquality]
    rw [h.values]
    cases hb : b.any fun e => e.matcher.pyEq p with
    | false =>
      rw [delPred_none fun x hx => by simpa using List.any_eq_false.1 hb x hx]
      simp only [Bool.false_eq_true, if_false]
      exact ⟨trivial, h⟩
    | true =>
      obtain ⟨b1, e, b2, rfl, he, h1⟩ := split_of_any hb
      have hm := h.matchers
      rw [List.pairwise_append, List.pairwise_cons] at hm
      have hother : ∀ x ∈ b1 ++ b2, x.matcher.pyEq p = false := by
        intro x hx
        rcases List.mem_append.1 hx with hx | hx
        · exact h1 x hx
        · have := hm.2.1.1 x hx
          rw [← this, pred_trans he, pred_symm]
      rw [delPred_split he h1]
      simp only [if_true]
      refine ⟨trivial, ?_⟩
      rw [filter_split (f := fun e => e.matcher.pyEq p) he hother]
      have hlab : Mapping.delLabelOf p m.labels = labelsOf (b1 ++ b2) := by
        have hne : ∀ q ∈ labelsOf (b1 ++ b2), q.2.ident ≠ p.ident := by
          rintro ⟨k, q⟩ hq hi
          obtain ⟨x, hx, _, hxm⟩ := mem_labelsOf.1 hq
          simp only at hi
          subst hxm
          have hx' : x ∈ b1 ++ e :: b2 := by
            rcases List.mem_append.1 hx with hx | hx <;> simp [hx]
          have := (hI x hx').2 hi
          rw [hother x hx] at this
          cases this
        rw [h.labels, labelsOf_append, labelsOf_cons]
        cases hel : e.label with
        | none =>
          simp only [Option.map_none, Option.toList_none, List.nil_append]
          rw [← labelsOf_append]
          exact delLabelOf_none _ hne
        | some k =>
          simp only [Option.map_some, Option.toList_some, List.singleton_append]
          rw [labelsOf_append]
          refine delLabelOf_split ?_ ?_
          · rcases (hI e (by simp)).1 he with h2 | h2
            · rw [hel] at h2; cases h2
            · exact h2
          · intro q hq
            exact hne q (by rw [labelsOf_append]; simp [hq])
      rw [hlab]
      exact Holds.without h.matchers h.distinct
  | str s i =>
    simp only [Mapping.unregister, Entries.unregister, Mapping.removeByLabel]
    cases hb : b.any fun e => e.label == some s with
    | false =>
      have hl : m.labels.lookup s = none := by
        rw [List.lookup_eq_none_iff]
        rintro ⟨k, q⟩ hq
        rw [h.labels] at hq
        obtain ⟨x, hx, hx1, _⟩ := mem_labelsOf.1 hq
        have := List.any_eq_false.1 hb x hx
        rw [hx1] at this
        simp only [beq_iff_eq, Option.some.injEq] at this
        simp only [bne_iff_ne]
        exact fun e => this e.symm
      rw [hl]
      simp only [Bool.false_eq_true, if_false]
      exact ⟨trivial, h⟩
    | true =>
      obtain ⟨b1, e, b2, rfl, he, h1⟩ := split_of_any hb
      have he : e.label = some s := by simpa using he
      have hd := h.distinct
      rw [List.pairwise_append, List.pairwise_cons] at hd
      have hother : ∀ x ∈ b1 ++ b2, (x.label == some s) = false := by
        intro x hx
        rcases List.mem_append.1 hx with hx | hx
        · exact h1 x hx
        · rcases hd.2.1.1 x hx with h2 | h2
          · rw [he] at h2; cases h2
          · rw [he] at h2
            simp only [beq_eq_false_iff_ne]
            exact fun e => h2 e.symm
      have hm := h.matchers
      rw [List.pairwise_append] at hm
      have hlook : m.labels.lookup s = some e.matcher := by
        rw [h.labels, labelsOf_append, labelsOf_cons, he]
        simp only [Option.map_some, Option.toList_some, List.singleton_append]
        have : ∀ q ∈ labelsOf b1, (q.1 == s) = false := by
          rintro ⟨k, q⟩ hq
          obtain ⟨x, hx, hx1, _⟩ := mem_labelsOf.1 hq
          have := h1 x hx
          rw [hx1] at this
          simpa using this
        revert this
        generalize labelsOf b1 = a
        intro this
        induction a with
        | nil => simp
        | cons q a ih =>
          have hq := this q (by simp)
          rw [List.cons_append, List.lookup_cons]
          rw [show (s == q.1) = false by rw [Bool.beq_comm]; exact hq]
          exact ih fun y hy => this y (by simp [hy])
      rw [hlook]
      have hfil : m.labels.filter (fun q => q.1 != s) = labelsOf (b1 ++ b2) := by
        have key : ∀ b' : List (Entry V), (∀ x ∈ b', (x.label == some s) = false) →
            (labelsOf b').filter (fun q => q.1 != s) = labelsOf b' := by
          intro b' hb'
          rw [List.filter_eq_self]
          rintro ⟨k, q⟩ hq
          obtain ⟨x, hx, hx1, _⟩ := mem_labelsOf.1 hq
          have := hb' x hx
          rw [hx1] at this
          simpa using this
        rw [h.labels, labelsOf_append, labelsOf_cons, he, List.filter_append,
          key b1 fun x hx => hother x (by simp [hx])]
        simp only [Option.map_some, Option.toList_some, List.singleton_append, List.filter_cons,
          bne_self_eq_false, Bool.false_eq_true, if_false]
        rw [key b2 fun x hx => hother x (by simp [hx]), labelsOf_append]
      simp only [hfil, h.values]
      rw [delPred_split (pred_refl _) fun x hx => hm.2.2 x hx e (by simp)]
      simp only [if_true]
      refine ⟨trivial, ?_⟩
      rw [filter_split (f := fun e => e.label == some s) (by simp [he]) hother]
      exact Holds.without h.matchers h.distinct

theorem Holds.unregister_out {m : Mapping V} {b : List (Entry V)} (h : Holds m b) (l : LookupArg) :
    (m.unregister l).1 = (Entries.unregister b l).1 := by
  cases l with
  | other => rfl
  | str s i => exact (h.unregister (.str s i) trivial).1
  | pred p =>
    simp only [Mapping.unregister, Entries.unregister, Mapping.removeByEquality]
    rw [h.values]
    cases hb : b.any fun e => e.matcher.pyEq p with
    | false => rw [delPred_none fun x hx => by simpa using List.any_eq_false.1 hb x hx]; rfl
    | true =>
      obtain ⟨b1, e, b2, rfl, he, h1⟩ := split_of_any hb
      rw [delPred_split he h1]
      rfl

end

/-- Both sides of a registry. -/
def HoldsR (g : Registry) (b : List (Entry (Reg Encoder)) × List (Entry (Reg Decoder))) : Prop :=
  Holds g.encoders b.1 ∧ Holds g.decoders b.2

/-- What a call does to one registry. -/
def regStep (g : Registry) : Op → PyM Unit × Registry
  | .registerEncoder _ l e label => ((g.encoders.register l e label).1, regEnc l e label g)
  | .unregisterEncoder _ l => ((g.encoders.unregister l).1, unregEnc l g)
  | .registerDecoder _ l d label => ((g.decoders.register l d label).1, regDec l d label g)
  | .unregisterDecoder _ l => ((g.decoders.unregister l).1, unregDec l g)
  | .register _ l e d label =>
    ((do (g.encoders.register l e label).1; (g.decoders.register l d label).1),
      if returned (g.encoders.register l e label).1 then regDec l d label (regEnc l e label g)
      else regEnc l e label g)
  | .unregister _ l =>
    ((do (g.encoders.unregister l).1; (g.decoders.unregister l).1),
      if returned (g.encoders.unregister l).1 then unregDec l (unregEnc l g) else unregEnc l g)
  | _ => (.ok (), g)

theorem entries_unregister_err {V : Type} {b : List (Entry V)} {l : LookupArg} {x : Exc}
    (h : (Entries.unregister b l).1 = .error x) : (Entries.unregister b l).2 = b := by
  revert h
  cases l <;> simp only [Entries.unregister]
  all_goals first | (intro _; trivial) | (split <;> intro h <;> first | cases h; done | rfl)

theorem entries_register_err {V : Type} {b : List (Entry V)} {l : LookupArg} {v : V} {lab : Option (List Char)}
    {x : Exc} (h : (Entries.register b l v lab).1 = .error x) : (Entries.register b l v lab).2 = b := by
  revert h
  cases l <;> simp only [Entries.register]
  all_goals first | (intro _; trivial) | (split <;> intro h <;> first | cases h; done | rfl)

theorem regStep_holds {g : Registry} {b : List (Entry (Reg Encoder)) × List (Entry (Reg Decoder))}
    (h : HoldsR g b) (op : Op) (hd : DirectOp b op) :
    (regStep g op).1 = (onEntries b op).1 ∧ HoldsR (regStep g op).2 (onEntries b op).2 := by
  obtain ⟨h1, h2⟩ := h
  cases op with
  | registerEncoder r l e label => exact ⟨(h1.register l e label).1, (h1.register l e label).2, h2⟩
  | unregisterEncoder r l => exact ⟨(h1.unregister l hd).1, (h1.unregister l hd).2, h2⟩
  | registerDecoder r l d label => exact ⟨(h2.register l d label).1, h1, (h2.register l d label).2⟩
  | unregisterDecoder r l => exact ⟨(h2.unregister l hd).1, h1, (h2.unregister l hd).2⟩
  | register r l e d label =>
    obtain ⟨he, hh⟩ := h1.register l e label
    obtain ⟨he2, hh2⟩ := h2.register l d label
    simp only [regStep, onEntries]
    rcases hx : Entries.register b.1 l e label with ⟨o, x⟩
    rw [hx] at he hh
    simp only at he hh
    cases o with
    | ok u => rw [he]; exact ⟨he2, hh, hh2⟩
    | error er =>
      have := entries_register_err (b := b.1) (l := l) (v := e) (lab := label) (x := er) (by rw [hx])
      rw [hx] at this
      simp only at this
      subst this
      rw [he]
      exact ⟨rfl, hh, h2⟩
  | unregister r l =>
    obtain ⟨he, hh⟩ := h1.unregister l hd.1
    obtain ⟨he2, hh2⟩ := h2.unregister l hd.2
    simp only [regStep, onEntries]
    rcases hx : Entries.unregister b.1 l with ⟨o, x⟩
    rw [hx] at he hh
    simp only at he hh
    cases o with
    | ok u => rw [he]; exact ⟨he2, hh, hh2⟩
    | error er =>
      have := entries_unregister_err (b := b.1) (l := l) (x := er) (by rw [hx])
      rw [hx] at this
      simp only at this
      subst this
      rw [he]
      exact ⟨rfl, hh, h2⟩
  | _ => exact ⟨rfl, h1, h2⟩

theorem regStep_out {g : Registry} {b : List (Entry (Reg Encoder)) × List (Entry (Reg Decoder))}
    (h : HoldsR g b) (op : Op) : (regStep g op).1 = (onEntries b op).1 := by
  obtain ⟨h1, h2⟩ := h
  cases op with
  | unregisterEncoder r l => exact h1.unregister_out l
  | unregisterDecoder r l => exact h2.unregister_out l
  | unregister r l =>
    have he := h1.unregister_out l
    have he2 := h2.unregister_out l
    simp only [regStep, onEntries]
    rcases hx : Entries.unregister b.1 l with ⟨o, x⟩
    rw [hx] at he
    simp only at he
    rw [he]
    cases o with
    | ok u => exact he2
    | error er => rfl
  | _ => refine (regStep_holds ⟨h1, h2⟩ _ ?_).1; exact trivial

theorem direct_of_byLabel (h : History) (hl : ByLabel h) : ∀ s : Shelf, s.Direct h := by
  induction h with
  | nil => intro s; trivial
  | cons c h ih =>
    intro s
    refine ⟨fun r b _ _ => ?_, ih (fun x hx => hl x (List.mem_cons_of_mem _ hx)) _⟩
    have := hl c (List.mem_cons_self ..)
    obtain ⟨f, op⟩ := c
    cases op with
    | unregisterEncoder r l => cases l <;> first | exact this.elim | trivial
    | unregisterDecoder r l => cases l <;> first | exact this.elim | trivial
    | unregister r l => cases l <;> first | exact this.elim | exact ⟨trivial, trivial⟩
    | _ => trivial

theorem plain_step_on (p : Plain) (op : Op) {r : Nat} (h : Spec.on op = some r) :
    p.step op = p.modify r fun g => (regStep g op).2 := by
  cases op <;> simp only [Spec.on, Option.some.injEq] at h <;> first | (subst h; rfl) | cases h

/-- The registries hold the entries of the shelf. -/
def HoldsAll (p : Plain) (s : Shelf) : Prop :=
  p.length = s.length ∧ ∀ (r : Nat) g b, p[r]? = some g → s[r]? = some b → HoldsR g b

theorem holdsAll_modify {p : Plain} {s : Shelf} (h : HoldsAll p s) {r : Nat} {f : Registry → Registry}
    {k : List (Entry (Reg Encoder)) × List (Entry (Reg Decoder)) →
      List (Entry (Reg Encoder)) × List (Entry (Reg Decoder))}
    (hf : ∀ g b, p[r]? = some g → s[r]? = some b → HoldsR (f g) (k b)) :
    HoldsAll (p.modify r f) (s.modify r k) := by
  refine ⟨by simp [h.1], fun r' g b hg hb => ?_⟩
  rw [List.getElem?_modify] at hg hb
  by_cases hr : r = r'
  · subst hr
    simp only [if_true, Option.map_eq_map, Option.map_eq_some_iff] at hg hb
    obtain ⟨g0, hg0, rfl⟩ := hg
    obtain ⟨b0, hb0, rfl⟩ := hb
    exact hf g0 b0 hg0 hb0
  · simp only [if_neg hr, Option.map_eq_map] at hg hb
    exact h.2 r' g b (by simpa using hg) (by simpa using hb)

theorem holdsAll_append {p p' : Plain} {s s' : Shelf} (h : HoldsAll p s) (h' : HoldsAll p' s') :
    HoldsAll (p ++ p') (s ++ s') := by
  refine ⟨by simp [h.1, h'.1], fun r g b hg hb => ?_⟩
  rw [List.getElem?_append] at hg hb
  rw [h.1] at hg
  split at hg
  · next hr => rw [if_pos hr] at hb; exact h.2 r g b hg hb
  · next hr => rw [if_neg hr] at hb; exact h'.2 _ g b hg hb

theorem holdsAll_step {p : Plain} {s : Shelf} (h : HoldsAll p s) {op : Op}
    (hd : ∀ r b, Spec.on op = some r → s[r]? = some b → DirectOp b op) : HoldsAll (p.step op) (s.step op) := by
  cases ho : Spec.on op with
  | some r =>
    have hs : s.step op = s.modify r fun b => (onEntries b op).2 := by
      cases op <;> simp only [Spec.on, Option.some.injEq] at ho <;> first | (subst ho; rfl) | cases ho
    rw [plain_step_on p op ho, hs]
    exact holdsAll_modify h fun g b hg hb => (regStep_holds (h.2 r g b hg hb) op (hd r b ho hb)).2
  | none =>
    cases op with
    | new =>
      refine holdsAll_append h ⟨rfl, fun r g b hg hb => ?_⟩
      cases r with
      | zero =>
        simp only [List.getElem?_cons_zero, Option.some.injEq] at hg hb
        subst hg hb
        exact ⟨holds_empty, holds_empty⟩
      | succ r => simp at hg
    | copy r =>
      refine holdsAll_append h ⟨?_, fun r' g b hg hb => ?_⟩
      · have hl := h.1
        by_cases hr : r < p.length
        · rw [List.getElem?_eq_getElem hr, List.getElem?_eq_getElem (by omega)]; rfl
        · rw [List.getElem?_eq_none (by omega), List.getElem?_eq_none (by omega)]; rfl
      · cases hp : p[r]? with
        | none => rw [hp] at hg; simp at hg
        | some g0 =>
          cases hs : s[r]? with
          | none => rw [hs] at hb; simp at hb
          | some b0 =>
            rw [hp] at hg
            rw [hs] at hb
            cases r' with
            | zero =>
              simp only [Option.toList_some, List.getElem?_cons_zero, Option.some.injEq] at hg hb
              subst hg hb
              exact h.2 r _ _ hp hs
            | succ r' => simp at hg
    | _ => first | exact h | (simp only [Spec.on] at ho; cases ho)

theorem holdsAll_run (h : History) : ∀ {p : Plain} {s : Shelf}, HoldsAll p s → s.Direct h →
    HoldsAll (p.run h) (s.run h) := by
  induction h with
  | nil => intro p s hh _; exact hh
  | cons c h ih =>
    intro p s hh hd
    exact ih (holdsAll_step hh hd.1) hd.2

theorem holds_of {h : History} (hd : Shelf.Direct [] h) {r : Nat}
    {b : List (Entry (Reg Encoder)) × List (Entry (Reg Decoder))} (hb : (Shelf.run [] h)[r]? = some b) :
    ∃ g, (Plain.run [] h)[r]? = some g ∧ HoldsR g b := by
  have hA : HoldsAll (Plain.run [] h) (Shelf.run [] h) := holdsAll_run h ⟨rfl, by simp⟩ hd
  cases hg : (Plain.run [] h)[r]? with
  | none =>
    rw [List.getElem?_eq_none_iff] at hg
    have := (List.getElem?_eq_some_iff.1 hb).1
    have := hA.1
    omega
  | some g => exact ⟨g, rfl, hA.2 r g b hg hb⟩

instance {V : Type} (b : List (Entry V)) (p : Pred) : Decidable (Entries.Itself b p) := by
  unfold Entries.Itself; infer_instance

instance {V : Type} (b : List (Entry V)) : (l : LookupArg) → Decidable (Entries.Direct b l)
  | .pred p => inferInstanceAs (Decidable (Entries.Itself b p))
  | .str _ _ => .isTrue trivial
  | .other => .isTrue trivial

instance (b : List (Entry (Reg Encoder)) × List (Entry (Reg Decoder))) (op : Op) : Decidable (DirectOp b op) := by
  cases op <;> unfold DirectOp <;> infer_instance

/-- Checking one step. -/
def directStep (s : Shelf) (op : Op) : Bool :=
  match Spec.on op with
  | none => true
  | some r => match s[r]? with
    | none => true
    | some b => decide (DirectOp b op)

/-- Checking a history. -/
def directB (s : Shelf) : History → Bool
  | [] => true
  | (_, op) :: h => directStep s op && directB (s.step op) h

theorem direct_of_B (h : History) : ∀ s : Shelf, directB s h = true → s.Direct h := by
  induction h with
  | nil => intro s _; trivial
  | cons c h ih =>
    intro s hb
    rw [directB, Bool.and_eq_true] at hb
    refine ⟨fun r b h1 h2 => ?_, ih _ hb.2⟩
    have := hb.1
    simp only [directStep, h1, h2, decide_eq_true_eq] at this
    exact this

/-- The outcome of a call on a registry. -/
theorem out_eq [Ext] {w : World} {r : Nat} {g : Registry} (hw : Has r g w) :
    (∀ l e label, (w.registerEncoder r l e label).1 = (regStep g (.registerEncoder r l e label)).1) ∧
    (∀ l, (w.unregisterEncoder r l).1 = (regStep g (.unregisterEncoder r l)).1) ∧
    (∀ l d label, (w.registerDecoder r l d label).1 = (regStep g (.registerDecoder r l d label)).1) ∧
    (∀ l, (w.unregisterDecoder r l).1 = (regStep g (.unregisterDecoder r l)).1) ∧
    (∀ l e d label, (w.register r l e d label).1 = (regStep g (.register r l e d label)).1) ∧
    (∀ l, (w.unregister r l).1 = (regStep g (.unregister r l)).1) :=
  ⟨fun l e label => registerEncoder_out hw l e label, fun l => unregisterEncoder_out hw l,
    fun l d label => registerDecoder_out hw l d label, fun l => unregisterDecoder_out hw l,
    fun l e d label => register_out hw l e d label, fun l => unregister_out hw l⟩

theorem onlyMatch_of [Ext] {V : Type} {m : Mapping V} {b : List (Entry V)} (h : Holds m b) {s : TypeStr} {v : V}
    (hs : Entries.OneMatches b s v) : OnlyMatch m s v := by
  obtain ⟨b1, e, b2, rfl, rfl, h2, h3⟩ := hs
  refine ⟨valuesOf b1, e.matcher, valuesOf b2, ?_, h2, ?_⟩
  · rw [h.values]; simp [valuesOf]
  · intro q hq
    simp only [valuesOf, List.mem_append, List.mem_map] at hq
    rcases hq with ⟨x, hx, rfl⟩ | ⟨x, hx, rfl⟩ <;> exact h3 x (by simp [hx])

theorem strategy_holds (h : List StrategyOp) : ∀ {m : Mapping (Reg Strategy)} {b : List (Entry (Reg Strategy))},
    Holds m b → strategyDirect b h → Holds (strategyRun m h) (strategyBook b h) := by
  induction h with
  | nil => intro m b hh _; exact hh
  | cons op h ih =>
    intro m b hh hd
    cases op with
    | registerStrategy l v label => exact ih (hh.register l v label).2 hd
    | unregisterStrategy l => exact ih (hh.unregister l hd.1).2 hd.2

end EthAbi
