import Verif.Spec.ParseCache
import Verif.Lemmas.Grammar

/-! # The cache of `parse` -/
namespace EthAbi
open Spec

theorem shows_congr {h h' : List TypeObj} {r : Nat} {t : ABIType} (hs : Shows h r t) :
    (∀ r', Within h r r' → h'[r']? = h[r']?) → Shows h' r t := by
  refine Shows.rec
    (motive_1 := fun r t _ => (∀ r', Within h r r' → h'[r']? = h[r']?) → Shows h' r t)
    (motive_2 := fun rs cs _ => (∀ r ∈ rs, ∀ r', Within h r r' → h'[r']? = h[r']?) → ShowsAll h' rs cs)
    ?_ ?_ ?_ ?_ hs
  · intro r b s a e hw
    exact .basic ((hw r .self).trans e)
  · intro r rs cs a e _ ih hw
    exact .tuple ((hw r .self).trans e) (ih fun r1 h1 r' h2 => hw r' (.comp e h1 h2))
  · exact fun _ => .nil
  · intro r rs c cs _ _ ih1 ih2 hw
    exact .cons (ih1 (hw r (by simp))) (ih2 fun r1 h1 => hw r1 (by simp [h1]))

theorem shows_unique {h : List TypeObj} {r : Nat} {t : ABIType} (hs : Shows h r t) :
    ∀ t', Shows h r t' → t = t' := by
  refine Shows.rec
    (motive_1 := fun r t _ => ∀ t', Shows h r t' → t = t')
    (motive_2 := fun rs cs _ => ∀ cs', ShowsAll h rs cs' → cs = cs') ?_ ?_ ?_ ?_ hs
  · intro r b s a e t' h'
    cases h' with
    | basic e' => rw [e] at e'; cases e'; rfl
    | tuple e' _ => rw [e] at e'; cases e'
  · intro r rs cs a e _ ih t' h'
    cases h' with
    | basic e' => rw [e] at e'; cases e'
    | tuple e' h2 => rw [e] at e'; cases e'; rw [ih _ h2]
  · intro cs' h'; cases h'; rfl
  · intro r rs c cs _ _ ih1 ih2 cs' h'
    cases h' with
    | cons h1 h2 => rw [ih1 _ h1, ih2 _ h2]

/-- An object in `[lo, hi)` all of whose components are there, and nowhere else. -/
theorem within_range {h : List TypeObj} {lo hi : Nat}
    (hc : ∀ r, lo ≤ r → r < hi → ∀ rs a, h[r]? = some (.tuple rs a) → ∀ r' ∈ rs, lo ≤ r' ∧ r' < hi) {r r' : Nat}
    (hw : Within h r r') : lo ≤ r → r < hi → lo ≤ r' ∧ r' < hi := by
  induction hw with
  | self => exact fun h1 h2 => ⟨h1, h2⟩
  | comp e hm _ ih =>
    intro h1 h2
    obtain ⟨h3, h4⟩ := hc _ h1 h2 _ _ e _ hm
    exact ih h3 h4

/-- What `buildType` makes: new objects behind the old ones, components among the new ones. -/
structure Built (h h' : List TypeObj) : Prop where
  pre : h <+: h'
  comps : ∀ r, h.length ≤ r → r < h'.length → ∀ rs a, h'[r]? = some (.tuple rs a) →
    ∀ r' ∈ rs, h.length ≤ r' ∧ r' < h'.length

theorem Built.refl (h : List TypeObj) : Built h h :=
  ⟨List.prefix_refl h, fun r h1 h2 => absurd h1 (by omega)⟩

theorem getElem?_prefix {h h' : List TypeObj} (hp : h <+: h') {r : Nat} (hr : r < h.length) : h'[r]? = h[r]? := by
  obtain ⟨l, rfl⟩ := hp
  exact List.getElem?_append_left hr

theorem Built.trans {h h' h'' : List TypeObj} (a : Built h h') (b : Built h' h'') : Built h h'' := by
  refine ⟨a.pre.trans b.pre, fun r h1 h2 rs arr e r' hr' => ?_⟩
  have hl := a.pre.length_le
  have hl' := b.pre.length_le
  by_cases hr : r < h'.length
  · rw [getElem?_prefix b.pre hr] at e
    obtain ⟨h3, h4⟩ := a.comps r h1 hr rs arr e r' hr'
    exact ⟨h3, by omega⟩
  · obtain ⟨h3, h4⟩ := b.comps r (by omega) h2 rs arr e r' hr'
    exact ⟨by omega, h4⟩

theorem Built.within {h h' : List TypeObj} (a : Built h h') {r r' : Nat} (h1 : h.length ≤ r) (h2 : r < h'.length)
    (hw : Within h' r r') : h.length ≤ r' ∧ r' < h'.length :=
  within_range a.comps hw h1 h2

theorem Built.shows {h h' h'' : List TypeObj} (a : Built h h') (hp : h' <+: h'') {r : Nat} {t : ABIType}
    (h1 : h.length ≤ r) (h2 : r < h'.length) (hs : Shows h' r t) : Shows h'' r t :=
  shows_congr hs fun _ hw => getElem?_prefix hp (a.within h1 h2 hw).2

mutual
theorem buildType_spec : ∀ (t : ABIType) (h : List TypeObj), Built h (buildType t h).2 ∧
    h.length ≤ (buildType t h).1 ∧ (buildType t h).1 < (buildType t h).2.length ∧
    Shows (buildType t h).2 (buildType t h).1 t
  | .basic b s a, h => by
    have e : (h ++ [TypeObj.basic b s a])[h.length]? = some (.basic b s a) := by simp
    refine ⟨⟨List.prefix_append _ _, fun r h1 h2 rs arr e' => ?_⟩, Nat.le_refl _, by simp [buildType], .basic e⟩
    have hr : r = h.length := by
      simp only [buildType, List.length_append, List.length_cons, List.length_nil] at h2
      omega
    subst hr
    rw [buildType, e] at e'
    cases e'
  | .tuple cs a, h => by
    obtain ⟨h1, h2, h3⟩ := buildTypes_spec cs h
    rw [buildType]
    generalize hb : buildTypes cs h = q at h1 h2 h3
    obtain ⟨rs, h'⟩ := q
    simp only at h1 h2 h3 ⊢
    have e : (h' ++ [TypeObj.tuple rs a])[h'.length]? = some (.tuple rs a) := by simp
    have hl := h1.pre.length_le
    have hb2 : Built h (h' ++ [TypeObj.tuple rs a]) := by
      refine ⟨h1.pre.trans (List.prefix_append _ _), fun r h4 h5 rs' arr e' r' hr' => ?_⟩
      simp only [List.length_append, List.length_cons, List.length_nil] at h5 ⊢
      by_cases hr : r < h'.length
      · rw [List.getElem?_append_left hr] at e'
        obtain ⟨h6, h7⟩ := h1.comps r h4 hr rs' arr e' r' hr'
        exact ⟨h6, by omega⟩
      · have hr : r = h'.length := by omega
        subst hr
        rw [e] at e'
        cases e'
        obtain ⟨h6, h7⟩ := h2 r' hr'
        exact ⟨h6, by omega⟩
    refine ⟨hb2, hl, by simp, .tuple e (h3 _ (List.prefix_append _ _))⟩
theorem buildTypes_spec : ∀ (cs : List ABIType) (h : List TypeObj), Built h (buildTypes cs h).2 ∧
    (∀ r ∈ (buildTypes cs h).1, h.length ≤ r ∧ r < (buildTypes cs h).2.length) ∧
    ∀ h'', (buildTypes cs h).2 <+: h'' → ShowsAll h'' (buildTypes cs h).1 cs
  | [], h => ⟨Built.refl h, fun r hr => (by cases hr), fun _ _ => .nil⟩
  | c :: cs, h => by
    obtain ⟨h1, h2, h3, h4⟩ := buildType_spec c h
    obtain ⟨h5, h6, h7⟩ := buildTypes_spec cs (buildType c h).2
    have e : buildTypes (c :: cs) h = ((buildType c h).1 :: (buildTypes cs (buildType c h).2).1,
        (buildTypes cs (buildType c h).2).2) := by rw [buildTypes]
    rw [e]
    have hl := h5.pre.length_le
    have hl' := h1.pre.length_le
    refine ⟨h1.trans h5, fun r hr => ?_, fun h'' hp => .cons (h1.shows (h5.pre.trans hp) h2 h3 h4) (h7 h'' hp)⟩
    rcases List.mem_cons.1 hr with rfl | hr
    · exact ⟨h2, Nat.lt_of_lt_of_le h3 hl⟩
    · obtain ⟨h8, h9⟩ := h6 r hr
      exact ⟨by omega, h9⟩
end

/-! ## Histories -/

theorem parse_miss [Ext] {p : ParseState} {s : TypeStr} (hm : p.cache.lookup s = none) :
    (∃ e, parse s = .error e ∧ p.parse s = (.error e, p)) ∨
    (∃ t, parse s = .ok t ∧ p.parse s =
      (.ok (buildType t p.heap).1, ⟨(buildType t p.heap).2, (s, (buildType t p.heap).1) :: p.cache⟩)) := by
  unfold ParseState.parse
  rw [hm]
  cases h : parse s with
  | error e => exact .inl ⟨e, rfl, rfl⟩
  | ok t => exact .inr ⟨t, rfl, rfl⟩

theorem parse_hit [Ext] {p : ParseState} {s : TypeStr} {r : Nat} (hm : p.cache.lookup s = some r) :
    p.parse s = (.ok r, p) := by
  unfold ParseState.parse
  rw [hm]

theorem step_cache [Ext] (p : ParseState) (op : TypeOp) {s : TypeStr} {r : Nat} (h : p.cache.lookup s = some r) :
    (p.step op).cache.lookup s = some r := by
  cases op with
  | assign => exact h
  | make => exact h
  | parse s' =>
    show ((p.parse s').2).cache.lookup s = some r
    cases hm : p.cache.lookup s' with
    | some r' => rw [parse_hit hm]; exact h
    | none =>
      rcases parse_miss hm with ⟨e, _, h'⟩ | ⟨t, _, h'⟩ <;> rw [h']
      · exact h
      · show List.lookup s ((s', _) :: p.cache) = some r
        rw [List.lookup_cons]
        by_cases hs : s = s'
        · subst hs; rw [hm] at h; cases h
        · rw [beq_eq_false_iff_ne.2 hs]; exact h

theorem run_cache [Ext] (ops : List TypeOp) (p : ParseState) {s : TypeStr} {r : Nat}
    (h : p.cache.lookup s = some r) : (p.run ops).cache.lookup s = some r := by
  induction ops generalizing p with
  | nil => exact h
  | cons op ops ih => exact ih (p.step op) (step_cache p op h)

theorem parse_prefix [Ext] (p : ParseState) (s : TypeStr) : p.heap <+: (p.parse s).2.heap := by
  cases hm : p.cache.lookup s with
  | some r' => exact (congrArg (fun x => p.heap <+: x.2.heap) (parse_hit hm)).mpr (List.prefix_refl _)
  | none =>
    rcases parse_miss hm with ⟨e, _, h'⟩ | ⟨t, _, h'⟩
    · exact (congrArg (fun x => p.heap <+: x.2.heap) h').mpr (List.prefix_refl _)
    · exact (congrArg (fun x => p.heap <+: x.2.heap) h').mpr (buildType_spec t p.heap).1.pre

theorem step_get [Ext] (p : ParseState) (op : TypeOp) {r : Nat} (hr : r < p.heap.length)
    (ha : ∀ o, op ≠ .assign r o) : (p.step op).heap[r]? = p.heap[r]? ∧ p.heap.length ≤ (p.step op).heap.length := by
  cases op with
  | parse s => exact ⟨getElem?_prefix (parse_prefix p s) hr, (parse_prefix p s).length_le⟩
  | assign r' o =>
    have hne : r' ≠ r := fun e => ha o (by rw [e])
    exact ⟨List.getElem?_set_ne hne, by simp [ParseState.step]⟩
  | make o => exact ⟨List.getElem?_append_left hr, by simp [ParseState.step]⟩

theorem run_get [Ext] (ops : List TypeOp) (p : ParseState) {r : Nat} (hr : r < p.heap.length)
    (ha : ∀ o, TypeOp.assign r o ∉ ops) : (p.run ops).heap[r]? = p.heap[r]? := by
  induction ops generalizing p with
  | nil => rfl
  | cons op ops ih =>
    obtain ⟨h1, h2⟩ := step_get p op hr fun o e => ha o (by simp [e])
    exact (ih (p.step op) (Nat.lt_of_lt_of_le hr h2) fun o ho => ha o (by simp [ho])).trans h1

theorem step_length [Ext] (p : ParseState) (op : TypeOp) : p.heap.length ≤ (p.step op).heap.length := by
  cases op with
  | parse s => exact (parse_prefix p s).length_le
  | assign r' o => simp [ParseState.step]
  | make o => simp [ParseState.step]

theorem run_length [Ext] (ops : List TypeOp) (p : ParseState) : p.heap.length ≤ (p.run ops).heap.length := by
  induction ops generalizing p with
  | nil => exact Nat.le_refl _
  | cons op ops ih => exact Nat.le_trans (step_length p op) (ih (p.step op))

theorem run_append [Ext] (ops ops' : List TypeOp) (p : ParseState) : p.run (ops ++ ops') = (p.run ops).run ops' :=
  List.foldl_append

/-- What every entry of the cache shows, as long as nothing is assigned. -/
def Faithful [Ext] (p : ParseState) : Prop :=
  ∀ s r, p.cache.lookup s = some r → ∃ t, parse s = .ok t ∧ Shows p.heap r t ∧ ∀ r', Within p.heap r r' →
    r' < p.heap.length

theorem within_prefix {h h' : List TypeObj} (hp : h <+: h') {r r' : Nat}
    (hall : ∀ r', Within h r r' → r' < h.length) (hw : Within h' r r') : Within h r r' := by
  induction hw with
  | self => exact .self
  | comp e hm _ ih =>
    have hr := hall _ .self
    rw [getElem?_prefix hp hr] at e
    exact .comp e hm (ih fun r' h1 => hall r' (.comp e hm h1))

theorem Faithful.grow [Ext] {p : ParseState} (hf : Faithful p) {h' : List TypeObj} (hp : p.heap <+: h') {s : TypeStr}
    {r : Nat} (hl : p.cache.lookup s = some r) : ∃ t, parse s = .ok t ∧ Shows h' r t ∧
    ∀ r', Within h' r r' → r' < h'.length := by
  obtain ⟨t, h1, h2, h3⟩ := hf s r hl
  refine ⟨t, h1, shows_congr h2 fun r' hw => getElem?_prefix hp (h3 r' hw), fun r' hw => ?_⟩
  exact Nat.lt_of_lt_of_le (h3 r' (within_prefix hp h3 hw)) hp.length_le

theorem Faithful.step [Ext] {p : ParseState} (hf : Faithful p) {op : TypeOp} (ha : ∀ r o, op ≠ .assign r o) :
    Faithful (p.step op) := by
  cases op with
  | assign r o => exact absurd rfl (ha r o)
  | make o => exact fun s r hl => hf.grow (List.prefix_append _ _) hl
  | parse s' =>
    show Faithful (p.parse s').2
    have hp := parse_prefix p s'
    cases hm : p.cache.lookup s' with
    | some r' => rw [parse_hit hm]; exact hf
    | none =>
      rcases parse_miss hm with ⟨e, _, h'⟩ | ⟨t, ht, h'⟩ <;> rw [h'] at hp ⊢
      · exact hf
      · intro s r hl
        obtain ⟨b1, b2, b3, b4⟩ := buildType_spec t p.heap
        simp only [List.lookup_cons] at hl
        by_cases hs : s = s'
        · subst hs
          simp only [beq_self_eq_true, Option.some.injEq] at hl
          subst hl
          exact ⟨t, ht, b4, fun r' hw => (b1.within b2 b3 hw).2⟩
        · rw [beq_eq_false_iff_ne.2 hs] at hl
          exact hf.grow hp hl

theorem Faithful.run [Ext] {p : ParseState} (hf : Faithful p) {ops : List TypeOp}
    (ha : ∀ r o, TypeOp.assign r o ∉ ops) : Faithful (p.run ops) := by
  induction ops generalizing p with
  | nil => exact hf
  | cons op ops ih =>
    exact ih (hf.step fun r o e => ha r o (by simp [e])) fun r o ho => ha r o (by simp [ho])

end EthAbi
