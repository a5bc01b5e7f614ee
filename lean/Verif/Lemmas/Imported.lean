import Verif.Lemmas.Calls

/-! # The heap after `import eth_abi` holds the two default registries -/
namespace EthAbi
open Spec

/-- Matchers and labels that are pairwise different. -/
def distinctPreds : List (List Char × PredKind) → Bool
  | [] => true
  | p :: ps => (ps.all fun q => !(p.2.pyEq q.2) && !(p.1 == q.1)) && distinctPreds ps

theorem defaultPreds_distinct : distinctPreds defaultPreds = true := by decide +kernel

/-- None of the matchers and labels is in the mapping. -/
def FreshIn {V : Type} (m : Mapping V) (ps : List (List Char × PredKind)) : Prop :=
  ∀ q ∈ ps, (∀ v ∈ m.values, v.1.kind.pyEq q.2 = false) ∧ ∀ l ∈ m.labels, (l.1 == q.1) = false

theorem freshIn_empty {V : Type} (ps : List (List Char × PredKind)) :
    FreshIn (Mapping.empty : Mapping V) ps :=
  fun _ _ => ⟨fun _ h => (by cases h), fun _ h => (by cases h)⟩

/-- Both mappings, one after the other. -/
def appendMapping {V : Type} (m m' : Mapping V) : Mapping V := ⟨m.values ++ m'.values, m.labels ++ m'.labels⟩

theorem append_nil {V : Type} (m : Mapping V) : appendMapping m Mapping.empty = m := by
  simp [appendMapping, Mapping.empty]

theorem add_fresh {V : Type} {m : Mapping V} {l : List Char} {k : PredKind}
    {ps : List (List Char × PredKind)} (h : FreshIn m ((l, k) :: ps)) (i : Nat) (v : V) :
    m.register (.pred ⟨i, k⟩) v (some l) = (.ok (), ⟨m.values ++ [(⟨i, k⟩, v)], m.labels ++ [(l, ⟨i, k⟩)]⟩) := by
  obtain ⟨h1, h2⟩ := h _ List.mem_cons_self
  have e1 : m.hasPred ⟨i, k⟩ = false := by
    unfold Mapping.hasPred
    rw [List.any_eq_false]
    intro v hv
    rw [show v.1.pyEq ⟨i, k⟩ = v.1.kind.pyEq k from rfl, h1 v hv]
    simp
  have e2 : m.hasLabel l = false := by
    unfold Mapping.hasLabel
    rw [List.any_eq_false]
    intro q hq
    rw [h2 q hq]
    simp
  show m.add ⟨i, k⟩ v (some l) = _
  simp [Mapping.add, e1, e2]

theorem fresh_step {V : Type} {m : Mapping V} {l : List Char} {k : PredKind}
    {ps : List (List Char × PredKind)} (h : FreshIn m ((l, k) :: ps))
    (hd : distinctPreds ((l, k) :: ps) = true) (i : Nat) (v : V) :
    FreshIn ⟨m.values ++ [(⟨i, k⟩, v)], m.labels ++ [(l, ⟨i, k⟩)]⟩ ps := by
  intro q hq
  obtain ⟨h1, h2⟩ := h q (List.mem_cons_of_mem _ hq)
  rw [distinctPreds, Bool.and_eq_true, List.all_eq_true] at hd
  have h3 := hd.1 q hq
  simp only [Bool.and_eq_true, Bool.not_eq_true'] at h3
  constructor
  · intro v' hv'
    rcases List.mem_append.1 hv' with hv' | hv'
    · exact h1 v' hv'
    · rw [List.mem_singleton.1 hv']; exact h3.1
  · intro l' hl'
    rcases List.mem_append.1 hl' with hl' | hl'
    · exact h2 l' hl'
    · rw [List.mem_singleton.1 hl']; exact h3.2

theorem modify_get {p : Plain} {r : Nat} {g : Registry} (h : p[r]? = some g) (f : Registry → Registry) :
    (p.modify r f)[r]? = some (f g) := by
  rw [List.getElem?_modify, h]; simp

theorem modify_const (p : Plain) (r : Nat) (f g : Registry → Registry) (h : ∀ x y, g x = g y) :
    (p.modify r f).modify r g = p.modify r g := by
  apply List.ext_getElem?
  intro i
  rw [List.getElem?_modify, List.getElem?_modify, List.getElem?_modify]
  by_cases hr : r = i
  · cases p[i]? with
    | none => simp [hr]
    | some x => simp [hr, h (f x) x]
  · simp [hr]

theorem modify_same {p : Plain} {r : Nat} {g : Registry} (h : p[r]? = some g) :
    (p.modify r fun _ => g) = p := by
  apply List.ext_getElem?
  intro i
  rw [List.getElem?_modify]
  by_cases hr : r = i
  · subst hr; simp [h]
  · simp [hr]

theorem registerCalls_run (r : Nat) (ps : List (List Char × PredKind)) :
    ∀ (i : Nat) (es : List (Reg Encoder)) (ds : List (Reg Decoder)) (p : Plain) (g : Registry),
    es.length = ps.length → ds.length = ps.length → distinctPreds ps = true → p[r]? = some g →
    FreshIn g.encoders ps → FreshIn g.decoders ps →
    Plain.run p ((registerCalls r i ps es ds).map fun op => (0, op)) =
      p.modify r fun _ => ⟨appendMapping g.encoders (mappingOf i ps es),
        appendMapping g.decoders (mappingOf i ps ds)⟩ := by
  induction ps with
  | nil =>
    intro i es ds p g he hd _ hp _ _
    rw [show mappingOf i [] es = Mapping.empty by simp [mappingOf],
      show mappingOf i [] ds = Mapping.empty by simp [mappingOf], append_nil, append_nil]
    rw [modify_same hp]
    simp [registerCalls, Plain.run]
  | cons q ps ih =>
    intro i es ds p g he hd hdis hp hfe hfd
    obtain ⟨l, k⟩ := q
    match es, ds, he, hd with
    | e :: es, d :: ds, he, hd =>
      simp only [List.length_cons, Nat.add_right_cancel_iff] at he hd
      rw [registerCalls, List.map_cons, Plain.run]
      have hs : p.step (.register r (.pred ⟨i, k⟩) e d (some l)) = p.modify r fun _ =>
          ⟨⟨g.encoders.values ++ [(⟨i, k⟩, e)], g.encoders.labels ++ [(l, ⟨i, k⟩)]⟩,
           ⟨g.decoders.values ++ [(⟨i, k⟩, d)], g.decoders.labels ++ [(l, ⟨i, k⟩)]⟩⟩ := by
        rw [Plain.step, Plain.on, modify_some hp, add_fresh hfe i e]
        simp only [returned, if_true, regDec, regEnc, add_fresh hfe i e, add_fresh hfd i d]
      rw [hs]
      have hp' := modify_get hp fun _ => (⟨⟨g.encoders.values ++ [(⟨i, k⟩, e)],
          g.encoders.labels ++ [(l, ⟨i, k⟩)]⟩,
           ⟨g.decoders.values ++ [(⟨i, k⟩, d)], g.decoders.labels ++ [(l, ⟨i, k⟩)]⟩⟩ : Registry)
      have hdis' : distinctPreds ps = true := by
        rw [distinctPreds, Bool.and_eq_true] at hdis; exact hdis.2
      rw [ih (i + 1) es ds _ _ he hd hdis' hp' (fresh_step hfe hdis i e) (fresh_step hfd hdis i d),
        modify_const _ _ _ _ (fun _ _ => rfl)]
      simp [appendMapping, mappingOf]

theorem registerEncoderCalls_run (r : Nat) (ps : List (List Char × PredKind)) :
    ∀ (i : Nat) (es : List (Reg Encoder)) (p : Plain) (g : Registry),
    es.length = ps.length → distinctPreds ps = true → p[r]? = some g →
    FreshIn g.encoders ps →
    Plain.run p ((registerEncoderCalls r i ps es).map fun op => (0, op)) =
      p.modify r fun _ => ⟨appendMapping g.encoders (mappingOf i ps es), g.decoders⟩ := by
  induction ps with
  | nil =>
    intro i es p g he _ hp _
    rw [show mappingOf i [] es = Mapping.empty by simp [mappingOf], append_nil]
    rw [modify_same hp]
    simp [registerEncoderCalls, Plain.run]
  | cons q ps ih =>
    intro i es p g he hdis hp hfe
    obtain ⟨l, k⟩ := q
    match es, he with
    | e :: es, he =>
      simp only [List.length_cons, Nat.add_right_cancel_iff] at he
      rw [registerEncoderCalls, List.map_cons, Plain.run]
      have hs : p.step (.registerEncoder r (.pred ⟨i, k⟩) e (some l)) = p.modify r fun _ =>
          ⟨⟨g.encoders.values ++ [(⟨i, k⟩, e)], g.encoders.labels ++ [(l, ⟨i, k⟩)]⟩, g.decoders⟩ := by
        rw [Plain.step, Plain.on, modify_some hp]
        simp only [regEnc, add_fresh hfe i e]
      rw [hs]
      have hp' := modify_get hp fun _ => (⟨⟨g.encoders.values ++ [(⟨i, k⟩, e)],
          g.encoders.labels ++ [(l, ⟨i, k⟩)]⟩, g.decoders⟩ : Registry)
      have hdis' : distinctPreds ps = true := by
        rw [distinctPreds, Bool.and_eq_true] at hdis; exact hdis.2
      rw [ih (i + 1) es _ _ he hdis' hp' (fresh_step hfe hdis i e),
        modify_const _ _ _ _ (fun _ _ => rfl)]
      simp [appendMapping, mappingOf]

theorem plain_run_append (h h' : History) : ∀ p : Plain, p.run (h ++ h') = (p.run h).run h' := by
  induction h with
  | nil => intro p; rfl
  | cons c h ih => intro p; exact ih (p.step c.2)

theorem world_run_append [Ext] (h h' : History) : ∀ w : World, w.run (h ++ h') = (w.run h).run h' := by
  induction h with
  | nil => intro w; rfl
  | cons c h ih => intro w; exact ih (w.step c.1 c.2)

theorem nil_append_mapping {V : Type} (m : Mapping V) : appendMapping Mapping.empty m = m := rfl

theorem import_plain [Ext] :
    Plain.run [] (importCalls.map fun op => (0, op)) = [defaultRegistry, packedRegistry] := by
  rw [importCalls, List.cons_append, List.map_cons, Plain.run, List.map_append, plain_run_append,
    show Plain.step [] .new = [⟨Mapping.empty, Mapping.empty⟩] from rfl,
    registerCalls_run 0 defaultPreds 0 _ _ _ _ rfl rfl defaultPreds_distinct rfl (freshIn_empty _)
      (freshIn_empty _), List.map_cons, Plain.run]
  rw [registerEncoderCalls_run 1 defaultPreds 100 _ _ ⟨Mapping.empty, Mapping.empty⟩ rfl
    defaultPreds_distinct rfl (freshIn_empty _), nil_append_mapping, nil_append_mapping,
    nil_append_mapping]
  rfl

theorem imported_inv [Ext] : Inv World.imported := (run_ok _ inv_empty).1

theorem imported_plain [Ext] : World.imported.plain = [defaultRegistry, packedRegistry] := by
  rw [World.imported, (run_ok _ inv_empty).2.1]
  exact import_plain

end EthAbi
