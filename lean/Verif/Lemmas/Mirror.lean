import Verif.Lemmas.Registered

/-! # Registries in which encoders and decoders are registered together -/
namespace EthAbi
open Spec

section
variable {V W : Type}

theorem hasPred_map (m : Mapping V) (p : Pred) : m.hasPred p = (m.values.map (·.1)).any fun q => q.pyEq p := by
  unfold Mapping.hasPred
  rw [List.any_map]
  rfl

/-- The matchers and labels of a mapping are tidy. -/
structure TidyMap (m : Mapping V) : Prop where
  distinct : (m.values.map (·.1)).Pairwise fun p q => p.pyEq q = false
  used : (m.labels.map (·.2)).Sublist (m.values.map (·.1))

/-- Two mappings have the same matchers and labels. -/
structure Match (m : Mapping V) (n : Mapping W) : Prop where
  preds : n.values.map (·.1) = m.values.map (·.1)
  labels : n.labels = m.labels

theorem match_register {m : Mapping V} {n : Mapping W} (h : Match m n) (l : LookupArg) (v : V) (w : W)
    (label : Option (List Char)) :
    (n.register l w label).1 = (m.register l v label).1 ∧
      Match (m.register l v label).2 (n.register l w label).2 := by
  rw [register_eq, register_eq]
  cases entryOf l label with
  | none => exact ⟨rfl, h⟩
  | some x =>
    obtain ⟨p, lab⟩ := x
    simp only
    unfold Mapping.add
    have h1 : n.hasPred p = m.hasPred p := by rw [hasPred_map, hasPred_map, h.preds]
    have h2 : ∀ l, n.hasLabel l = m.hasLabel l := fun l => by unfold Mapping.hasLabel; rw [h.labels]
    rw [h1]
    cases m.hasPred p with
    | true => exact ⟨rfl, h⟩
    | false =>
      cases lab with
      | none => exact ⟨rfl, by simp [h.preds], h.labels⟩
      | some l =>
        simp only [h2 l]
        cases m.hasLabel l with
        | true => exact ⟨rfl, h⟩
        | false => exact ⟨rfl, by simp [h.preds], by simp [h.labels]⟩

theorem tidy_register {m : Mapping V} (h : TidyMap m) (l : LookupArg) (v : V) (label : Option (List Char)) :
    TidyMap (m.register l v label).2 := by
  rw [register_eq]
  cases entryOf l label with
  | none => exact h
  | some x =>
    obtain ⟨p, lab⟩ := x
    simp only
    cases hr : (m.add p v lab).1 with
    | error e => rw [add_err hr]; exact h
    | ok u =>
      obtain ⟨h1, _, h3⟩ := add_ok hr
      rw [h3]
      refine ⟨?_, ?_⟩
      · simp only [List.map_append, List.map_cons, List.map_nil]
        rw [List.pairwise_append]
        refine ⟨h.distinct, List.pairwise_singleton _ _, fun a ha b hb => ?_⟩
        rw [List.mem_singleton.1 hb]
        obtain ⟨q, hq, rfl⟩ := List.mem_map.1 ha
        exact hasPred_iff.1 h1 q hq
      · simp only [List.map_append, List.map_cons, List.map_nil]
        cases lab with
        | none => simpa using h.used.trans (List.sublist_append_left _ _)
        | some l => exact h.used.append (List.Sublist.refl _)

theorem delPred_map (p : Pred) : ∀ (xs : List (Pred × V)) (ys : List (Pred × W)),
    ys.map (·.1) = xs.map (·.1) →
    (Mapping.delPred p ys).map (·.map (·.1)) = (Mapping.delPred p xs).map (·.map (·.1)) := by
  intro xs
  induction xs with
  | nil => intro ys h; rw [List.map_eq_nil_iff.1 h]; rfl
  | cons x xs ih =>
    intro ys h
    cases ys with
    | nil => cases h
    | cons y ys =>
      simp only [List.map_cons, List.cons.injEq] at h
      obtain ⟨h1, h2⟩ := h
      rw [Mapping.delPred, Mapping.delPred, h1]
      cases x.1.pyEq p with
      | true => simp [h2]
      | false =>
        have := ih ys h2
        simp only [Bool.false_eq_true, if_false, Option.map_map]
        rw [show ((fun x : List (Pred × W) => x.map (·.1)) ∘ fun x => y :: x) =
            (fun x => y.1 :: x) ∘ fun x : List (Pred × W) => x.map (·.1) from rfl,
          show ((fun x : List (Pred × V) => x.map (·.1)) ∘ fun z => x :: z) =
            (fun z => x.1 :: z) ∘ fun x : List (Pred × V) => x.map (·.1) from rfl,
          ← Option.map_map, ← Option.map_map, this, h1]

theorem match_removeByLabel {m : Mapping V} {n : Mapping W} (h : Match m n) (l : List Char) :
    (n.removeByLabel l).1 = (m.removeByLabel l).1 ∧ Match (m.removeByLabel l).2 (n.removeByLabel l).2 := by
  unfold Mapping.removeByLabel
  rw [h.labels]
  cases m.labels.lookup l with
  | none => exact ⟨rfl, h⟩
  | some p =>
    simp only
    have hd := delPred_map p m.values n.values h.preds
    cases hx : Mapping.delPred p m.values with
    | none =>
      rw [hx] at hd
      cases hy : Mapping.delPred p n.values with
      | none => exact ⟨rfl, h.preds, rfl⟩
      | some _ => rw [hy] at hd; cases hd
    | some xs =>
      rw [hx] at hd
      cases hy : Mapping.delPred p n.values with
      | none => rw [hy] at hd; cases hd
      | some ys => rw [hy] at hd; injection hd with hd; exact ⟨rfl, hd, rfl⟩

theorem lookup_split {l : List Char} {p : Pred} : ∀ (ls : List (List Char × Pred)), ls.lookup l = some p →
    ∃ a b, ls = a ++ (l, p) :: b ∧ ∀ q ∈ a, (q.1 == l) = false := by
  intro ls
  induction ls with
  | nil => intro h; cases h
  | cons q ls ih =>
    intro h
    obtain ⟨l', p'⟩ := q
    rw [List.lookup_cons] at h
    cases hq : l == l' with
    | true =>
      rw [hq] at h
      injection h with h
      subst h
      rw [eq_of_beq hq]
      exact ⟨[], ls, rfl, fun q hq => (by cases hq)⟩
    | false =>
      rw [hq] at h
      obtain ⟨a, b, h1, h2⟩ := ih h
      refine ⟨(l', p') :: a, b, by rw [h1]; rfl, fun q hqm => ?_⟩
      rcases List.mem_cons.1 hqm with rfl | hqm
      · rw [Bool.beq_comm]; exact hq
      · exact h2 q hqm

/-- In a tidy mapping a label that is there can be removed. -/
theorem tidy_removeByLabel {m : Mapping V} (h : TidyMap m) (l : List Char) :
    (∃ e, m.removeByLabel l = (.error e, m)) ∨
      ((m.removeByLabel l).1 = .ok () ∧ TidyMap (m.removeByLabel l).2) := by
  unfold Mapping.removeByLabel
  cases hl : m.labels.lookup l with
  | none => exact Or.inl ⟨_, rfl⟩
  | some p =>
    right
    simp only
    obtain ⟨ls, ls', e1, e2⟩ := lookup_split _ hl
    have hp : p ∈ m.values.map (·.1) := h.used.subset (by rw [e1]; simp)
    obtain ⟨⟨p', v⟩, hq, rfl⟩ := List.mem_map.1 hp
    obtain ⟨a, b, e3⟩ := List.append_of_mem hq
    have hdist := h.distinct
    rw [e3, List.map_append, List.map_cons, List.pairwise_append, List.pairwise_cons] at hdist
    obtain ⟨d1, ⟨d2, d3⟩, d4⟩ := hdist
    have ha : ∀ x ∈ a, x.1.pyEq p' = false := fun x hx =>
      d4 x.1 (List.mem_map_of_mem hx) p' List.mem_cons_self
    have hdel : Mapping.delPred p' m.values = some (a ++ b) := by
      rw [e3]
      clear e3 hq hp d4 d1
      induction a with
      | nil => simp [Mapping.delPred, pred_refl]
      | cons x a ih =>
        rw [List.cons_append, Mapping.delPred, ha x List.mem_cons_self,
          ih fun y hy => ha y (List.mem_cons_of_mem _ hy)]
        rfl
    rw [hdel]
    refine ⟨rfl, ?_, ?_⟩
    · simp only [List.map_append]
      rw [List.pairwise_append]
      exact ⟨d1, d3, fun x hx y hy => d4 x hx y (List.mem_cons_of_mem _ hy)⟩
    · simp only
      have hs : ((m.labels.filter fun q => q.1 != l).map (·.2)).Sublist (m.values.map (·.1)) :=
        (List.filter_sublist.map _).trans h.used
      have hf := hs.filter fun q => !q.pyEq p'
      have hlp := (h.distinct.sublist h.used)
      rw [e1, List.map_append, List.map_cons, List.pairwise_append, List.pairwise_cons] at hlp
      obtain ⟨l1, ⟨l2, l3⟩, l4⟩ := hlp
      rw [List.filter_eq_self.2 ?_] at hf
      · have : (m.values.map (·.1)).filter (fun q => !q.pyEq p') = (a ++ b).map (·.1) := by
          rw [e3, List.map_append, List.filter_append, List.map_cons, List.filter_cons_of_neg (by simp [pred_refl]),
            List.map_append]
          congr 1
          · refine List.filter_eq_self.2 fun x hx => ?_
            obtain ⟨x', hx', rfl⟩ := List.mem_map.1 hx
            simp [ha x' hx']
          · refine List.filter_eq_self.2 fun x hx => ?_
            rw [pred_symm, d2 x hx]; rfl
        rw [← this]
        exact hf
      · intro q hq
        obtain ⟨x, hx, rfl⟩ := List.mem_map.1 hq
        obtain ⟨hx1, hx2⟩ := List.mem_filter.1 hx
        rw [e1] at hx1
        rcases List.mem_append.1 hx1 with hx1 | hx1
        · rw [l4 x.2 (List.mem_map_of_mem hx1) p' List.mem_cons_self]; rfl
        · rcases List.mem_cons.1 hx1 with rfl | hx1
          · simp at hx2
          · rw [pred_symm, l2 x.2 (List.mem_map_of_mem hx1)]; rfl

end

theorem mirror_iff {g : Registry} : Mirror g ↔ Match g.encoders g.decoders ∧ TidyMap g.encoders :=
  ⟨fun h => ⟨⟨h.preds, h.labels⟩, ⟨h.distinct, h.used⟩⟩, fun h => ⟨h.1.preds, h.1.labels, h.2.distinct, h.2.used⟩⟩

/-- The registrations after one call of `register`. -/
def bothReg (l : LookupArg) (e : Reg Encoder) (d : Reg Decoder) (label : Option (List Char)) (g : Registry) :
    Registry :=
  if returned (g.encoders.register l e label).1 then regDec l d label (regEnc l e label g)
  else regEnc l e label g

/-- The registrations after one call of `unregister`. -/
def bothUnreg (l : LookupArg) (g : Registry) : Registry :=
  if returned (g.encoders.unregister l).1 then unregDec l (unregEnc l g) else unregEnc l g

theorem mirror_register {g : Registry} (h : Mirror g) (l : LookupArg) (e : Reg Encoder) (d : Reg Decoder)
    (label : Option (List Char)) :
    Mirror (bothReg l e d label g) ∧
      ((do (g.encoders.register l e label).1; (g.decoders.register l d label).1) = (g.encoders.register l e label).1) ∧
      (∀ x, (g.encoders.register l e label).1 = .error x → bothReg l e d label g = g) := by
  obtain ⟨h1, h2⟩ := mirror_iff.1 h
  obtain ⟨h3, h4⟩ := match_register h1 l e d label
  have h5 := tidy_register h2 l e label
  unfold bothReg
  cases hr : (g.encoders.register l e label).1 with
  | error x =>
    have hm := register_err hr
    have : regEnc l e label g = g := by unfold regEnc; rw [hm]
    exact ⟨by simp only [returned, Bool.false_eq_true, if_false]; rw [this]; exact h, rfl, fun _ _ => by
      simp only [returned, Bool.false_eq_true, if_false]; exact this⟩
  | ok u =>
    refine ⟨?_, by rw [h3, hr]; rfl, fun x hx => by cases hx⟩
    simp only [returned, if_true]
    exact mirror_iff.2 ⟨h4, h5⟩

theorem mirror_unregister {g : Registry} (h : Mirror g) (s : List Char) (i : Nat) :
    Mirror (bothUnreg (.str s i) g) ∧
      ((do (g.encoders.unregister (.str s i)).1; (g.decoders.unregister (.str s i)).1) =
        (g.encoders.unregister (.str s i)).1) ∧
      (∀ x, (g.encoders.unregister (.str s i)).1 = .error x → bothUnreg (.str s i) g = g) := by
  obtain ⟨h1, h2⟩ := mirror_iff.1 h
  obtain ⟨h3, h4⟩ := match_removeByLabel h1 s
  have h3' : (g.decoders.unregister (.str s i)).1 = (g.encoders.unregister (.str s i)).1 := h3
  unfold bothUnreg
  rcases tidy_removeByLabel h2 s with ⟨e, h5⟩ | ⟨h5, h6⟩
  · have h5' : g.encoders.unregister (.str s i) = (.error e, g.encoders) := h5
    have : unregEnc (.str s i) g = g := by unfold unregEnc; rw [h5']
    rw [h5']
    exact ⟨by simp only [returned, Bool.false_eq_true, if_false]; rw [this]; exact h, rfl, fun _ _ => by
      simp only [returned, Bool.false_eq_true, if_false]; exact this⟩
  · have h5' : (g.encoders.unregister (.str s i)).1 = .ok () := h5
    refine ⟨?_, by rw [h3', h5']; rfl, fun x hx => by rw [h5'] at hx; cases hx⟩
    rw [h5']
    simp only [returned, if_true]
    exact mirror_iff.2 ⟨h4, h6⟩

theorem mirror_unregister_other {g : Registry} : bothUnreg .other g = g := rfl

/-- Paired calls keep a registry mirrored. -/
theorem paired_mirror {r : Nat} (h : History) : ∀ {p : Plain} {g : Registry}, p[r]? = some g → Mirror g →
    Paired r h → ∃ g', (p.run h)[r]? = some g' ∧ Mirror g' := by
  induction h with
  | nil => intro p g hg hm _; exact ⟨g, hg, hm⟩
  | cons c h ih =>
    intro p g hg hm hp
    have hc := hp c List.mem_cons_self
    have hp' : Paired r h := fun x hx => hp x (List.mem_cons_of_mem _ hx)
    have hr : r < p.length := by
      by_contra hc
      rw [List.getElem?_eq_none (by omega)] at hg
      cases hg
    rw [Plain.run]
    have other : ∀ (r' : Nat) (f : Registry → Registry), r' ≠ r → (p.on r' f)[r]? = some g := by
      intro r' f hne
      unfold Plain.on
      rw [List.getElem?_modify]; simp [hne, hg]
    have main : ∃ g', (p.step c.2)[r]? = some g' ∧ Mirror g' := by
      generalize c.2 = op at hc ⊢
      cases op
      case new => exact ⟨g, by rw [Plain.step, List.getElem?_append_left hr, hg], hm⟩
      case copy => exact ⟨g, by rw [Plain.step, List.getElem?_append_left hr, hg], hm⟩
      case registerEncoder r' l e label => exact ⟨g, other r' _ hc, hm⟩
      case unregisterEncoder r' l => exact ⟨g, other r' _ hc, hm⟩
      case registerDecoder r' l e label => exact ⟨g, other r' _ hc, hm⟩
      case unregisterDecoder r' l => exact ⟨g, other r' _ hc, hm⟩
      case register r' l e d label =>
        by_cases hrr : r' = r
        · subst hrr
          exact ⟨_, on_get hg _, (mirror_register hm l e d label).1⟩
        · exact ⟨g, other r' _ hrr, hm⟩
      case unregister r' l =>
        by_cases hrr : r' = r
        · subst hrr
          cases l with
          | pred q => exact absurd rfl hc
          | str s i => exact ⟨_, on_get hg _, (mirror_unregister hm s i).1⟩
          | other => exact ⟨_, on_get hg _, by exact hm⟩
        · exact ⟨g, other r' _ hrr, hm⟩
      all_goals exact ⟨g, hg, hm⟩
    obtain ⟨g', hg', hm'⟩ := main
    exact ih hg' hm' hp'

theorem mirror_default [Ext] : Mirror defaultRegistry where
  preds := rfl
  labels := rfl
  distinct := by
    have : defaultRegistry.encoders.values.map (·.1) =
      (mappingOf 0 defaultPreds (List.replicate 30 ())).values.map (·.1) := rfl
    rw [this]
    decide +kernel
  used := by
    have : defaultRegistry.encoders.labels.map (·.2) = defaultRegistry.encoders.values.map (·.1) := rfl
    rw [this]

end EthAbi
