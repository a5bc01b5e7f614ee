import Verif.Spec.Registry
import Verif.Lemmas.PyM
import Mathlib.Data.List.Perm.Basic

/-! # `PredicateMapping`: matching, adding and removing -/
namespace EthAbi
open Spec

/-! ## `==` on matchers -/

theorem kind_refl (k : PredKind) : k.pyEq k = true := by
  cases k <;> simp [PredKind.pyEq]

theorem kind_symm (k l : PredKind) : k.pyEq l = l.pyEq k := by
  cases k <;> cases l <;> simp only [PredKind.pyEq] <;> first | rfl | skip
  · exact Bool.beq_comm
  · rw [Bool.beq_comm (a := _), Bool.beq_comm (a := (_ : Option Bool))]
  · exact Bool.beq_comm

theorem kind_trans {k l m : PredKind} (h : k.pyEq l = true) : k.pyEq m = l.pyEq m := by
  cases k <;> cases l <;> simp [PredKind.pyEq] at h <;> cases m <;> simp_all [PredKind.pyEq]

theorem pred_refl (p : Pred) : p.pyEq p = true := kind_refl _
theorem pred_symm (p q : Pred) : p.pyEq q = q.pyEq p := kind_symm _ _
theorem pred_trans {p q r : Pred} (h : p.pyEq q = true) : p.pyEq r = q.pyEq r := kind_trans h

/-! ## Matching -/

section
variable [Ext] {V : Type}

theorem results_ok (s : TypeStr) (vs : List (Pred × V)) (h : ∀ q ∈ vs, ∃ b, q.1.matches s = .ok b) :
    Mapping.results s vs = .ok (vs.filter fun q => decide (q.1.matches s = .ok true)) := by
  induction vs with
  | nil => rfl
  | cons q vs ih =>
    obtain ⟨b, hb⟩ := h q List.mem_cons_self
    rw [Mapping.results, hb, ok_bind, ih fun q hq => h q (List.mem_cons_of_mem _ hq), ok_bind]
    cases b
    · rw [List.filter_cons_of_neg (by rw [hb]; decide)]; rfl
    · rw [List.filter_cons_of_pos (by rw [hb]; decide)]; rfl

theorem results_answer (s : TypeStr) (vs : List (Pred × V)) : ∀ rs, Mapping.results s vs = .ok rs →
    ∀ q ∈ vs, ∃ b, q.1.matches s = .ok b := by
  induction vs with
  | nil => intro rs _ q hq; cases hq
  | cons v vs ih =>
    intro rs h q hq
    rw [Mapping.results] at h
    obtain ⟨b, hb, h⟩ := bind_eq_ok.1 h
    obtain ⟨rs', h', _⟩ := bind_eq_ok.1 h
    rcases List.mem_cons.1 hq with rfl | hq
    · exact ⟨b, hb⟩
    · exact ih rs' h' q hq

theorem results_err (s : TypeStr) (e : Exc) (vs : List (Pred × V))
    (h : ∀ q ∈ vs, (∃ b, q.1.matches s = .ok b) ∨ q.1.matches s = .error e) :
    (∀ q ∈ vs, ∃ b, q.1.matches s = .ok b) ∨
      (Mapping.results s vs = .error e ∧ ∃ q ∈ vs, q.1.matches s = .error e) := by
  induction vs with
  | nil => exact Or.inl fun q hq => (by cases hq)
  | cons v vs ih =>
    rcases h v List.mem_cons_self with ⟨b, hb⟩ | he
    · rcases ih fun q hq => h q (List.mem_cons_of_mem _ hq) with h1 | ⟨h1, q, hq, h2⟩
      · left
        intro q hq
        rcases List.mem_cons.1 hq with rfl | hq
        · exact ⟨b, hb⟩
        · exact h1 q hq
      · exact Or.inr ⟨by rw [Mapping.results, hb, ok_bind, h1]; rfl, q, List.mem_cons_of_mem _ hq, h2⟩
    · exact Or.inr ⟨by rw [Mapping.results, he]; rfl, v, List.mem_cons_self, he⟩

omit [Ext] in
theorem filter_singleton {α : Type} {f : α → Bool} {x : α} (xs : List α) (h : xs.filter f = [x]) :
    ∃ a b, xs = a ++ x :: b ∧ f x = true ∧ ∀ y ∈ a ++ b, f y = false := by
  induction xs with
  | nil => cases h
  | cons y ys ih =>
    by_cases hy : f y = true
    · rw [List.filter_cons_of_pos hy] at h
      injection h with h1 h2
      subst h1
      exact ⟨[], ys, rfl, hy, fun z hz => by
        rw [List.nil_append] at hz
        by_contra hc
        have : z ∈ ys.filter f := List.mem_filter.2 ⟨hz, by simpa using hc⟩
        rw [h2] at this
        cases this⟩
    · rw [List.filter_cons_of_neg hy] at h
      obtain ⟨a, b, h1, h2, h3⟩ := ih h
      refine ⟨y :: a, b, by rw [h1]; rfl, h2, fun z hz => ?_⟩
      rcases List.mem_cons.1 hz with rfl | hz
      · simpa using hy
      · exact h3 z hz

theorem find_iff (m : Mapping V) (s : TypeStr) (v : V) : m.find s = .ok v ↔ OnlyMatch m s v := by
  constructor
  · intro h
    unfold Mapping.find at h
    obtain ⟨rs, h1, h2⟩ := bind_eq_ok.1 h
    have ha := results_answer s _ rs h1
    rw [results_ok s _ ha] at h1
    injection h1 with h1
    match rs, h1, h2 with
    | [], _, h2 => cases h2
    | _ :: _ :: _, _, h2 => cases h2
    | [q], h1, h2 =>
      injection h2 with h2
      subst h2
      obtain ⟨a, b, e1, e2, e3⟩ := filter_singleton _ h1
      refine ⟨a, q.1, b, e1, by simpa using e2, fun y hy => ?_⟩
      have hy' : y ∈ m.values := by
        rw [e1]
        rcases List.mem_append.1 hy with hy | hy
        · exact List.mem_append_left _ hy
        · exact List.mem_append_right _ (List.mem_cons_of_mem _ hy)
      obtain ⟨bb, hb⟩ := ha y hy'
      have := e3 y hy
      cases bb
      · exact hb
      · rw [hb] at this; simp at this
  · rintro ⟨a, p, b, e1, e2, e3⟩
    have ha : ∀ q ∈ m.values, ∃ b, q.1.matches s = .ok b := by
      intro q hq
      rw [e1] at hq
      rcases List.mem_append.1 hq with hq | hq
      · exact ⟨_, e3 q (List.mem_append_left _ hq)⟩
      · rcases List.mem_cons.1 hq with rfl | hq
        · exact ⟨_, e2⟩
        · exact ⟨_, e3 q (List.mem_append_right _ hq)⟩
    unfold Mapping.find
    rw [results_ok s _ ha, ok_bind, e1, List.filter_append,
      List.filter_cons_of_pos (by simp [e2]),
      List.filter_eq_nil_iff.2 (fun q hq => by rw [e3 q (List.mem_append_left _ hq)]; decide),
      List.filter_eq_nil_iff.2 (fun q hq => by rw [e3 q (List.mem_append_right _ hq)]; decide)]
    rfl

theorem find_two (m : Mapping V) (s : TypeStr) (ha : AllAnswer m s) (h : TwoMatch m s) :
    m.find s = .error .multipleEntriesFound := by
  obtain ⟨a, p, b, q, c, e1, e2, e3⟩ := h
  unfold Mapping.find
  rw [results_ok s _ ha, ok_bind, e1, List.filter_append, List.filter_append,
    List.filter_cons_of_pos (by simp [e2]), List.filter_cons_of_pos (by simp [e3])]
  have : ∀ (x y z : List (Pred × V)), ∃ u v w, x ++ p :: y ++ q :: z = u :: v :: w := by
    intro x y z
    match x, y with
    | [], [] => exact ⟨_, _, _, rfl⟩
    | [], _ :: _ => exact ⟨_, _, _, rfl⟩
    | [_], _ => exact ⟨_, _, _, rfl⟩
    | _ :: _ :: _, _ => exact ⟨_, _, _, rfl⟩
  obtain ⟨u, v, w, huvw⟩ := this (a.filter _) (b.filter _) (c.filter _)
  rw [huvw]
  rfl

theorem find_none (m : Mapping V) (s : TypeStr) (h : NoMatch m s) :
    m.find s = .error .noEntriesFound := by
  unfold Mapping.find
  rw [results_ok s _ (fun q hq => ⟨_, h q hq⟩), ok_bind,
    List.filter_eq_nil_iff.2 (fun q hq => by rw [h q hq]; decide)]
  rfl

theorem find_perm {m m' : Mapping V} (hp : m.values.Perm m'.values) (h1 : OneException m) (s : TypeStr) :
    m.find s = m'.find s := by
  obtain ⟨e, he⟩ := h1 s
  have he' : ∀ q ∈ m'.values, (∃ b, q.1.matches s = .ok b) ∨ q.1.matches s = .error e :=
    fun q hq => he q (hp.mem_iff.2 hq)
  unfold Mapping.find
  rcases results_err s e _ he with ha | ⟨hr, q, hq, hqe⟩
  · rw [results_ok s _ ha, results_ok s _ fun q hq => ha q (hp.mem_iff.2 hq), ok_bind, ok_bind]
    have hf := hp.filter fun q => decide (q.1.matches s = .ok true)
    generalize m.values.filter (fun q => decide (q.1.matches s = .ok true)) = x at hf ⊢
    generalize m'.values.filter (fun q => decide (q.1.matches s = .ok true)) = y at hf ⊢
    match x, y, hf with
    | [], y, hf => rw [List.nil_perm.1 hf]
    | [a], y, hf => rw [List.singleton_perm.1 hf]
    | a :: b :: x, [], hf => exact absurd hf.length_eq (by simp)
    | a :: b :: x, [_], hf => exact absurd hf.length_eq (by simp)
    | a :: b :: x, _ :: _ :: _, hf => rfl
  · rcases results_err s e _ he' with ha | ⟨hr', _⟩
    · obtain ⟨b, hb⟩ := ha q (hp.mem_iff.1 hq)
      rw [hqe] at hb
      cases hb
    · rw [hr, hr']

theorem getRegistration_congr {m m' : Mapping V} {s : TypeStr} (h : m.find s = m'.find s) :
    m.getRegistration s = m'.getRegistration s := by
  unfold Mapping.getRegistration
  rw [h]

theorem getRegistration_ok (m : Mapping V) (s : TypeStr) (v : V) :
    m.getRegistration s = .ok v ↔ m.find s = .ok v := by
  unfold Mapping.getRegistration
  cases hf : m.find s with
  | ok x => rfl
  | error e =>
    constructor
    · intro h
      exfalso
      cases e <;> simp only at h <;> first
        | (cases h)
        | (obtain ⟨_, _, h⟩ := bind_eq_ok.1 h; cases h)
        | (split at h
           · obtain ⟨_, _, h⟩ := bind_eq_ok.1 h; cases h
           · cases h)
    · intro h; cases h

end

theorem encoderFuel_congr [Ext] {m m' : Mapping (Reg Encoder)}
    (h : ∀ s, m.getRegistration s = m'.getRegistration s) (n : Nat) : ∀ s,
    getEncoderFuel m n s = getEncoderFuel m' n s := by
  induction n with
  | zero => intro s; rfl
  | succ n ih =>
    intro s
    rw [getEncoderFuel, getEncoderFuel, h s, show getEncoderFuel m n = getEncoderFuel m' n from funext ih]

theorem decoderFuel_congr [Ext] {m m' : Mapping (Reg Decoder)}
    (h : ∀ s, m.getRegistration s = m'.getRegistration s) (n : Nat) : ∀ s b,
    getDecoderFuel m n s b = getDecoderFuel m' n s b := by
  induction n with
  | zero => intro s b; rfl
  | succ n ih =>
    intro s b
    rw [getDecoderFuel, getDecoderFuel, h s, show getDecoderFuel m n = getDecoderFuel m' n from
      funext fun s => funext (ih s)]

theorem getRegistration_values [Ext] {V : Type} {m m' : Mapping V} (h : m.values = m'.values)
    (s : TypeStr) : m.getRegistration s = m'.getRegistration s :=
  getRegistration_congr (by unfold Mapping.find; rw [h])

/-! ## Adding and removing -/

section
variable {V : Type}

theorem hasPred_iff {m : Mapping V} {p : Pred} : m.hasPred p = false ↔ ∀ q ∈ m.values, q.1.pyEq p = false := by
  unfold Mapping.hasPred
  rw [List.any_eq_false]
  simp

theorem hasLabel_iff {m : Mapping V} {l : List Char} :
    m.hasLabel l = false ↔ ∀ q ∈ m.labels, (q.1 == l) = false := by
  unfold Mapping.hasLabel
  rw [List.any_eq_false]
  simp

/-- The matcher and the label of a registration. -/
def entryOf : LookupArg → Option (List Char) → Option (Pred × Option (List Char))
  | .pred p, label => some (p, label)
  | .str s i, _ => some (⟨i, .equals s⟩, some s)
  | .other, _ => none

theorem add_ok {m : Mapping V} {p : Pred} {v : V} {label : Option (List Char)}
    (h : (m.add p v label).1 = .ok ()) :
    m.hasPred p = false ∧ (∀ l, label = some l → m.hasLabel l = false) ∧
      (m.add p v label).2 =
        ⟨m.values ++ [(p, v)], m.labels ++ (label.map fun l => (l, p)).toList⟩ := by
  unfold Mapping.add at h ⊢
  cases hp : m.hasPred p with
  | true => rw [hp] at h; cases h
  | false =>
    rw [hp] at h
    cases label with
    | none => exact ⟨rfl, fun l hl => (by cases hl), by simp⟩
    | some l =>
      cases hl : m.hasLabel l with
      | true => simp [hl] at h
      | false => exact ⟨rfl, fun l' hl' => by injection hl' with e; subst e; exact hl, by simp [hl]⟩

theorem add_err {m : Mapping V} {p : Pred} {v : V} {label : Option (List Char)} {e : Exc}
    (h : (m.add p v label).1 = .error e) : (m.add p v label).2 = m := by
  unfold Mapping.add at h ⊢
  cases hp : m.hasPred p with
  | true => rfl
  | false =>
    rw [hp] at h
    cases label with
    | none => cases h
    | some l =>
      cases hl : m.hasLabel l with
      | true => simp [hl]
      | false => simp [hl] at h

theorem add_fresh_ok {m : Mapping V} {p : Pred} {v : V} {label : Option (List Char)}
    (h1 : m.hasPred p = false) (h2 : ∀ l, label = some l → m.hasLabel l = false) :
    (m.add p v label).1 = .ok () := by
  unfold Mapping.add
  rw [h1]
  cases label with
  | none => rfl
  | some l => simp [h2 l rfl]

theorem delPred_append {p q : Pred} {v : V} (h : q.pyEq p = true) (vs : List (Pred × V))
    (hv : ∀ x ∈ vs, x.1.pyEq q = false) : Mapping.delPred p (vs ++ [(q, v)]) = some vs := by
  induction vs with
  | nil => simp [Mapping.delPred, h]
  | cons x vs ih =>
    have hx : x.1.pyEq p = false := by
      rw [pred_symm, ← pred_trans h, pred_symm]; exact hv x List.mem_cons_self
    rw [List.cons_append, Mapping.delPred, hx, ih fun y hy => hv y (List.mem_cons_of_mem _ hy)]
    rfl

theorem lookup_append {l : List Char} {p : Pred} (ls : List (List Char × Pred))
    (h : ∀ q ∈ ls, (q.1 == l) = false) : (ls ++ [(l, p)]).lookup l = some p := by
  induction ls with
  | nil => simp
  | cons q ls ih =>
    have hq : (l == q.1) = false := by
      rw [Bool.eq_false_iff]
      intro h0
      have := h q List.mem_cons_self
      rw [eq_of_beq h0] at this
      simp at this
    rw [List.cons_append, show (q :: (ls ++ [(l, p)])) = ((q.1, q.2) :: (ls ++ [(l, p)])) from rfl,
      List.lookup_cons, hq]
    exact ih fun y hy => h y (List.mem_cons_of_mem _ hy)

theorem filter_append {l : List Char} {p : Pred} (ls : List (List Char × Pred))
    (h : ∀ q ∈ ls, (q.1 == l) = false) : (ls ++ [(l, p)]).filter (fun q => q.1 != l) = ls := by
  rw [List.filter_append, List.filter_eq_self.2 fun q hq => by simp [bne, h q hq]]
  simp

/-- Removing by the label what was added under it restores the mapping. -/
theorem removeByLabel_add {m : Mapping V} {p : Pred} {v : V} {l : List Char}
    (h : (m.add p v (some l)).1 = .ok ()) :
    (m.add p v (some l)).2.removeByLabel l = (.ok (), m) := by
  obtain ⟨h1, h2, h3⟩ := add_ok h
  rw [h3]
  have hl := hasLabel_iff.1 (h2 l rfl)
  unfold Mapping.removeByLabel
  simp only [Option.map_some, Option.toList_some, lookup_append _ hl, filter_append _ hl,
    delPred_append (pred_refl p) _ (hasPred_iff.1 h1)]

theorem delLabelOf_none {p : Pred} (ls : List (List Char × Pred)) (h : ∀ q ∈ ls, q.2.ident ≠ p.ident) :
    Mapping.delLabelOf p ls = ls := by
  induction ls with
  | nil => rfl
  | cons q ls ih =>
    rw [Mapping.delLabelOf, if_neg (h q List.mem_cons_self), ih fun y hy => h y (List.mem_cons_of_mem _ hy)]

theorem delLabelOf_append {p : Pred} {l : List Char} {q : Pred} (hq : q.ident = p.ident)
    (ls : List (List Char × Pred)) (h : ∀ q ∈ ls, q.2.ident ≠ p.ident) :
    Mapping.delLabelOf p (ls ++ [(l, q)]) = ls := by
  induction ls with
  | nil => simp [Mapping.delLabelOf, hq]
  | cons q ls ih =>
    rw [List.cons_append, Mapping.delLabelOf, if_neg (h q List.mem_cons_self),
      ih fun y hy => h y (List.mem_cons_of_mem _ hy)]

/-- Removing by an equal matcher what was added restores the registrations. -/
theorem removeByEquality_add {m : Mapping V} {p q : Pred} {v : V} {label : Option (List Char)}
    (h : (m.add p v label).1 = .ok ()) (hq : q.pyEq p = true) :
    ((m.add p v label).2.removeByEquality q).1 = .ok () ∧
      ((m.add p v label).2.removeByEquality q).2.values = m.values ∧
      ((∀ x ∈ m.labels, x.2.ident ≠ q.ident) → q.ident = p.ident ∨ label = none →
        ((m.add p v label).2.removeByEquality q).2 = m) := by
  obtain ⟨h1, h2, h3⟩ := add_ok h
  rw [h3]
  have hv := delPred_append (p := q) (q := p) (v := v) (by rw [pred_symm]; exact hq) m.values
    (hasPred_iff.1 h1)
  unfold Mapping.removeByEquality
  simp only [hv]
  refine ⟨trivial, trivial, fun hl hi => ?_⟩
  rcases hi with hi | hi
  · cases label with
    | none => simp [delLabelOf_none _ hl]
    | some l => simp [delLabelOf_append hi.symm _ hl]
  · subst hi; simp [delLabelOf_none _ hl]

theorem removeByLabel_err {m : Mapping V} {l : List Char} {e : Exc}
    (h : (m.removeByLabel l).1 = .error e) : (m.removeByLabel l).2.values = m.values := by
  unfold Mapping.removeByLabel at h ⊢
  cases hl : m.labels.lookup l with
  | none => rfl
  | some p =>
    rw [hl] at h
    cases hd : Mapping.delPred p m.values with
    | none => simp [hd]
    | some vs => simp [hd] at h

theorem removeByEquality_err {m : Mapping V} {p : Pred} {e : Exc}
    (h : (m.removeByEquality p).1 = .error e) : (m.removeByEquality p).2 = m := by
  unfold Mapping.removeByEquality at h ⊢
  cases hd : Mapping.delPred p m.values with
  | none => rfl
  | some vs => rw [hd] at h; cases h

theorem register_err {m : Mapping V} {l : LookupArg} {v : V} {label : Option (List Char)} {e : Exc}
    (h : (m.register l v label).1 = .error e) : (m.register l v label).2 = m := by
  cases l with
  | pred p => exact add_err h
  | str s i => exact add_err (p := ⟨i, .equals s⟩) (label := some s) h
  | other => rfl

theorem unregister_err {m : Mapping V} {l : LookupArg} {e : Exc}
    (h : (m.unregister l).1 = .error e) : (m.unregister l).2.values = m.values := by
  cases l with
  | pred p => exact congrArg Mapping.values (removeByEquality_err h)
  | str s i => exact removeByLabel_err h
  | other => rfl

/-! ## Order -/

/-- The same entries in some order. -/
def PermM (m m' : Mapping V) : Prop := m.values.Perm m'.values ∧ m.labels.Perm m'.labels

theorem register_eq (m : Mapping V) (l : LookupArg) (v : V) (label : Option (List Char)) :
    m.register l v label = match entryOf l label with
      | some (p, lab) => m.add p v lab
      | none => (.error .typeError, m) := by
  cases l <;> rfl

theorem hasPred_perm {m m' : Mapping V} (h : PermM m m') (p : Pred) : m.hasPred p = m'.hasPred p := by
  unfold Mapping.hasPred
  rw [Bool.eq_iff_iff, List.any_eq_true, List.any_eq_true]
  exact ⟨fun ⟨x, hx, e⟩ => ⟨x, h.1.mem_iff.1 hx, e⟩, fun ⟨x, hx, e⟩ => ⟨x, h.1.mem_iff.2 hx, e⟩⟩

theorem hasLabel_perm {m m' : Mapping V} (h : PermM m m') (l : List Char) :
    m.hasLabel l = m'.hasLabel l := by
  unfold Mapping.hasLabel
  rw [Bool.eq_iff_iff, List.any_eq_true, List.any_eq_true]
  exact ⟨fun ⟨x, hx, e⟩ => ⟨x, h.2.mem_iff.1 hx, e⟩, fun ⟨x, hx, e⟩ => ⟨x, h.2.mem_iff.2 hx, e⟩⟩

theorem add_perm {m m' : Mapping V} (h : PermM m m') (p : Pred) (v : V) (label : Option (List Char)) :
    (m.add p v label).1 = (m'.add p v label).1 ∧ PermM (m.add p v label).2 (m'.add p v label).2 := by
  unfold Mapping.add
  rw [hasPred_perm h p]
  cases m'.hasPred p with
  | true => exact ⟨rfl, h⟩
  | false =>
    cases label with
    | none => exact ⟨rfl, h.1.append_right _, h.2⟩
    | some l =>
      simp only [hasLabel_perm h l]
      cases m'.hasLabel l with
      | true => exact ⟨rfl, h⟩
      | false => exact ⟨rfl, h.1.append_right _, h.2.append_right _⟩

theorem register_perm {m m' : Mapping V} (h : PermM m m') (l : LookupArg) (v : V)
    (label : Option (List Char)) :
    (m.register l v label).1 = (m'.register l v label).1 ∧
      PermM (m.register l v label).2 (m'.register l v label).2 := by
  rw [register_eq, register_eq]
  cases entryOf l label with
  | none => exact ⟨rfl, h⟩
  | some x => exact add_perm h _ _ _

theorem registerAll_perm (rs : List (LookupArg × V × Option (List Char))) : ∀ {m m' : Mapping V},
    PermM m m' → ∀ m1, registerAll rs m = some m1 → ∃ m2, registerAll rs m' = some m2 ∧ PermM m1 m2 := by
  induction rs with
  | nil => intro m m' h m1 h1; injection h1 with h1; subst h1; exact ⟨m', rfl, h⟩
  | cons r rs ih =>
    intro m m' h m1 h1
    obtain ⟨l, v, label⟩ := r
    obtain ⟨e1, e2⟩ := register_perm h l v label
    rw [registerAll] at h1 ⊢
    rcases hx : m.register l v label with ⟨y, a⟩
    rcases hx' : m'.register l v label with ⟨y', a'⟩
    rw [hx, hx'] at e1 e2
    rw [hx] at h1
    simp only at e1 e2
    subst e1
    cases y with
    | error e => cases h1
    | ok u => exact ih e2 m1 h1

theorem add_add {m : Mapping V} {p q : Pred} {v w : V} {lp lq : Option (List Char)}
    (h1 : (m.add p v lp).1 = .ok ()) (h2 : ((m.add p v lp).2.add q w lq).1 = .ok ()) :
    (m.add q w lq).1 = .ok () ∧ ((m.add q w lq).2.add p v lp).1 = .ok () ∧
      PermM ((m.add p v lp).2.add q w lq).2 ((m.add q w lq).2.add p v lp).2 := by
  obtain ⟨a1, a2, a3⟩ := add_ok h1
  obtain ⟨b1, b2, b3⟩ := add_ok h2
  rw [b3]
  rw [a3] at b1 b2 ⊢
  rw [hasPred_iff] at a1 b1
  have hq : m.hasPred q = false :=
    hasPred_iff.2 fun x hx => b1 x (List.mem_append_left _ hx)
  have hql : ∀ l, lq = some l → m.hasLabel l = false := fun l hl =>
    hasLabel_iff.2 fun x hx => (hasLabel_iff.1 (b2 l hl)) x (List.mem_append_left _ hx)
  have c1 := add_fresh_ok (v := w) hq hql
  obtain ⟨_, _, c3⟩ := add_ok c1
  have hpq : p.pyEq q = false := b1 (p, v) (List.mem_append_right _ (List.mem_singleton.2 rfl))
  have d1 : ((m.add q w lq).2.add p v lp).1 = .ok () := by
    rw [c3]
    apply add_fresh_ok
    · rw [hasPred_iff]
      intro x hx
      rcases List.mem_append.1 hx with hx | hx
      · exact a1 x hx
      · rw [List.mem_singleton.1 hx, pred_symm]; exact hpq
    · intro l hl
      rw [hasLabel_iff]
      intro x hx
      rcases List.mem_append.1 hx with hx | hx
      · exact (hasLabel_iff.1 (a2 l hl)) x hx
      · cases lq with
        | none => cases hx
        | some l' =>
          simp only [Option.map_some, Option.toList_some] at hx
          rw [List.mem_singleton.1 hx]
          have := (hasLabel_iff.1 (b2 l' rfl)) (l, p)
            (List.mem_append_right _ (by subst hl; simp))
          rw [Bool.eq_false_iff] at this ⊢
          intro h0
          apply this
          have h0 : l' = l := eq_of_beq h0
          simp [h0]
  obtain ⟨_, _, d3⟩ := add_ok d1
  refine ⟨c1, d1, ?_⟩
  rw [d3, c3]
  constructor
  · simp only [List.append_assoc]
    exact List.Perm.append_left _ (List.perm_append_comm)
  · simp only [List.append_assoc]
    exact List.Perm.append_left _ (List.perm_append_comm)

theorem perm_refl (m : Mapping V) : PermM m m := ⟨List.Perm.refl _, List.Perm.refl _⟩

theorem registerAll_order {rs rs' : List (LookupArg × V × Option (List Char))} (hp : rs.Perm rs') :
    ∀ {m m1 : Mapping V}, registerAll rs m = some m1 → ∃ m2, registerAll rs' m = some m2 ∧ PermM m1 m2 := by
  induction hp with
  | nil => intro m m1 h; exact ⟨m1, h, perm_refl m1⟩
  | cons r _ ih =>
    intro m m1 h
    obtain ⟨l, v, label⟩ := r
    rw [registerAll] at h ⊢
    generalize m.register l v label = x at h ⊢
    obtain ⟨y, a⟩ := x
    cases y with
    | error e => cases h
    | ok u => exact ih h
  | swap r r' rs =>
    intro m m1 h
    obtain ⟨l, v, label⟩ := r
    obtain ⟨l', v', label'⟩ := r'
    rw [registerAll] at h
    rw [registerAll]
    rw [register_eq] at h
    cases he' : entryOf l' label' with
    | none => rw [he'] at h; cases h
    | some x' =>
      obtain ⟨q, lq⟩ := x'
      rw [he'] at h
      simp only at h
      rcases hx : m.add q v' lq with ⟨y, a⟩
      rw [hx] at h
      cases y with
      | error e => cases h
      | ok u =>
        simp only [registerAll] at h
        rw [register_eq] at h
        cases he : entryOf l label with
        | none => rw [he] at h; cases h
        | some x =>
          obtain ⟨p, lp⟩ := x
          rw [he] at h
          simp only at h
          rcases hy : a.add p v lp with ⟨z, b⟩
          rw [hy] at h
          cases z with
          | error e => cases h
          | ok u' =>
            simp only at h
            have := add_add (m := m) (p := q) (q := p) (v := v') (w := v) (lp := lq) (lq := lp)
              (by rw [hx]) (by rw [hx, hy])
            rw [hx, hy] at this
            obtain ⟨g1, g2, g3⟩ := this
            rw [register_eq, he]
            simp only
            rcases hx2 : m.add p v lp with ⟨y2, a2⟩
            rw [hx2] at g1 g2 g3
            simp only at g1 g2 g3
            subst g1
            simp only [registerAll]
            rw [register_eq, he']
            simp only
            rcases hy2 : a2.add q v' lq with ⟨z2, b2⟩
            rw [hy2] at g2 g3
            simp only at g2 g3
            subst g2
            exact registerAll_perm rs g3 m1 h
  | trans _ _ ih ih' =>
    intro m m1 h
    obtain ⟨m2, h2, p2⟩ := ih h
    obtain ⟨m3, h3, p3⟩ := ih' h2
    exact ⟨m3, h3, p2.1.trans p3.1, p2.2.trans p3.2⟩

end
end EthAbi
