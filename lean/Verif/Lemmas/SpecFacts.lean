import Verif.Lemmas.Layout

/-! # Facts about the specification alone -/
namespace EthAbi
open Spec

theorem Spec.Ty.allValid_iff {ts : List Ty} : Ty.AllValid ts ↔ ∀ t ∈ ts, t.Valid := by
  induction ts with
  | nil => simp [Ty.AllValid]
  | cons t ts ih => simp [Ty.AllValid, ih]

theorem mapM_some_iff {α β : Type} {f : α → Option β} {vs : List α} {xs : List β} :
    vs.mapM f = some xs ↔ List.Forall₂ (fun v x => f v = some x) vs xs := by
  induction vs generalizing xs with
  | nil =>
    simp only [List.mapM_nil, List.forall₂_nil_left_iff]
    exact ⟨fun h => by cases h; rfl, fun h => by subst h; rfl⟩
  | cons v vs ih =>
    rw [List.mapM_cons]
    constructor
    · intro h
      cases h1 : f v with
      | none => simp [h1] at h
      | some x =>
        cases h2 : vs.mapM f with
        | none => simp [h1, h2] at h
        | some ys =>
          simp only [h1, h2, Option.pure_def, Option.bind_eq_bind, Option.bind_some, Option.some.injEq] at h
          subst h
          exact .cons h1 (ih.1 h2)
    · intro h
      cases h with
      | cons h1 h2 => simp [h1, ih.2 h2]

theorem forall₂_mem_right {α β : Type} {R : α → β → Prop} {vs : List α} {xs : List β}
    (h : List.Forall₂ R vs xs) {y : β} (hy : y ∈ xs) : ∃ u, u ∈ vs ∧ R u y := by
  induction h with
  | nil => simp at hy
  | cons h1 _ ih =>
    rcases List.mem_cons.1 hy with rfl | hy
    · exact ⟨_, by simp, h1⟩
    · obtain ⟨u, hu, hr⟩ := ih hy
      exact ⟨u, by simp [hu], hr⟩

/-- The argument of a sequence type that denotes is list-like. -/
theorem denote_sized [Ext] {k : Nat} {t : Ty} {v : PyVal} {x : Val} :
    denote (.sized k t) v = some x ↔ ∃ vs xs, asListLike? v = some vs ∧
      List.Forall₂ (fun v x => denote t v = some x) vs xs ∧ vs.length = k ∧ x = .seq xs := by
  simp only [denote, Option.bind_eq_bind, Option.bind_eq_some_iff, mapM_some_iff]
  constructor
  · rintro ⟨vs, h1, xs, h2, h3⟩
    split at h3
    · cases h3; exact ⟨vs, xs, h1, h2, ‹_›, rfl⟩
    · cases h3
  · rintro ⟨vs, xs, h1, h2, h3, rfl⟩
    exact ⟨vs, h1, xs, h2, by rw [if_pos h3]⟩

theorem denote_dyn [Ext] {t : Ty} {v : PyVal} {x : Val} :
    denote (.dyn t) v = some x ↔ ∃ vs xs, asListLike? v = some vs ∧
      List.Forall₂ (fun v x => denote t v = some x) vs xs ∧ x = .seq xs := by
  simp only [denote, Option.bind_eq_bind, Option.bind_eq_some_iff, mapM_some_iff]
  constructor
  · rintro ⟨vs, h1, xs, h2, h3⟩
    cases h3; exact ⟨vs, xs, h1, h2, rfl⟩
  · rintro ⟨vs, xs, h1, h2, rfl⟩
    exact ⟨vs, h1, xs, h2, rfl⟩

theorem denote_tuple [Ext] {ts : List Ty} {v : PyVal} {x : Val} :
    denote (.tuple ts) v = some x ↔ ∃ vs xs, asListLike? v = some vs ∧
      denoteAll ts vs = some xs ∧ x = .seq xs := by
  simp only [denote, Option.bind_eq_bind, Option.bind_eq_some_iff]
  constructor
  · rintro ⟨vs, h1, xs, h2, h3⟩
    cases h3; exact ⟨vs, xs, h1, h2, rfl⟩
  · rintro ⟨vs, xs, h1, h2, rfl⟩
    exact ⟨vs, h1, xs, h2, rfl⟩

theorem denoteAll_cons [Ext] {t : Ty} {ts : List Ty} {v : PyVal} {vs : List PyVal} {xs : List Val} :
    denoteAll (t :: ts) (v :: vs) = some xs ↔
      ∃ y ys, denote t v = some y ∧ denoteAll ts vs = some ys ∧ xs = y :: ys := by
  simp only [denoteAll, Option.bind_eq_bind, Option.bind_eq_some_iff]
  constructor
  · rintro ⟨y, h1, ys, h2, h3⟩
    cases h3; exact ⟨y, ys, h1, h2, rfl⟩
  · rintro ⟨y, ys, h1, h2, rfl⟩
    exact ⟨y, h1, ys, h2, rfl⟩

theorem denoteAll_length [Ext] {ts : List Ty} {vs : List PyVal} {xs : List Val}
    (h : denoteAll ts vs = some xs) : vs.length = ts.length ∧ xs.length = ts.length := by
  induction ts generalizing vs xs with
  | nil =>
    cases vs with
    | nil => cases h; exact ⟨rfl, rfl⟩
    | cons v vs => cases h
  | cons t ts ih =>
    cases vs with
    | nil => cases h
    | cons v vs =>
      obtain ⟨y, ys, _, h2, rfl⟩ := denoteAll_cons.1 h
      have := ih h2
      simp [this.1, this.2]

/-- What an argument denotes is a value of the type. -/
theorem denote_of [Ext] (t : Ty) : ∀ v x, denote t v = some x → Val.Of t x := by
  refine Spec.Ty.ind (P := fun t => ∀ v x, denote t v = some x → Val.Of t x) ?_ ?_ ?_ ?_ ?_ ?_ ?_ ?_
    ?_ ?_ ?_ ?_ t
  · intro n v x h
    cases v <;> simp only [denote] at h <;> try cases h
    split at h
    · cases h; assumption
    · cases h
  · intro n v x h
    cases v <;> simp only [denote] at h <;> try cases h
    split at h
    · cases h; assumption
    · cases h
  · intro v x h
    simp only [denote, Option.map_eq_some_iff] at h
    obtain ⟨b, h1, rfl⟩ := h
    exact ((address_eq v).1 b h1).2.2
  · intro v x h
    cases v <;> simp only [denote] at h <;> try cases h
    rename_i b
    simp only [Val.Of]
    cases b <;> simp
  · intro m n v x h
    simp only [denote, Option.bind_eq_bind, Option.bind_eq_some_iff] at h
    obtain ⟨y, _, k, _, h3⟩ := h
    split at h3
    · cases h3; assumption
    · cases h3
  · intro m n v x h
    simp only [denote, Option.bind_eq_bind, Option.bind_eq_some_iff] at h
    obtain ⟨y, _, k, _, h3⟩ := h
    split at h3
    · cases h3; assumption
    · cases h3
  · intro m v x h
    simp only [denote, Option.bind_eq_bind, Option.bind_eq_some_iff] at h
    obtain ⟨b, _, h3⟩ := h
    split at h3
    · cases h3; simp only [Val.Of, List.length_append, List.length_replicate]; omega
    · cases h3
  · intro v x h
    simp only [denote, Option.map_eq_some_iff] at h
    obtain ⟨b, h1, rfl⟩ := h
    trivial
  · intro v x h
    cases v <;> simp only [denote] at h <;> try cases h
    split at h
    · cases h; assumption
    · cases h
  · intro k t ih v x h
    obtain ⟨vs, xs, _, h2, h3, rfl⟩ := denote_sized.1 h
    refine ⟨by rw [← h3, h2.length_eq], ?_⟩
    intro y hy
    obtain ⟨u, _, hu⟩ := forall₂_mem_right h2 hy
    exact ih u y hu
  · intro t ih v x h
    obtain ⟨vs, xs, _, h2, rfl⟩ := denote_dyn.1 h
    intro y hy
    obtain ⟨u, _, hu⟩ := forall₂_mem_right h2 hy
    exact ih u y hu
  · intro ts ih v x h
    obtain ⟨vs, xs, hl, h2, rfl⟩ := denote_tuple.1 h
    simp only [Val.Of]
    clear h hl
    induction ts generalizing vs xs with
    | nil =>
      cases vs with
      | nil => cases h2; trivial
      | cons v vs => cases h2
    | cons t ts ih2 =>
      cases vs with
      | nil => cases h2
      | cons u us =>
        obtain ⟨y, ys, h3, h4, rfl⟩ := denoteAll_cons.1 h2
        exact ⟨ih t (by simp) u y h3, ih2 (fun t ht => ih t (by simp [ht])) us ys h4⟩

theorem padRight32_len (b : Bytes) :
    (padRight32 b).length % 32 = 0 ∧ b.length ≤ (padRight32 b).length ∧
      (padRight32 b).length < b.length + 32 := by
  simp only [padRight32, List.length_append, List.length_replicate]
  omega

/-- Lengths of a layout whose elements have the expected lengths. -/
theorem layout_mod {es : List Elem} (h : ∀ a ∈ es, a.2.length % 32 = 0) :
    headSize es % 32 = 0 ∧ (layout es).length % 32 = 0 := by
  rw [layout_length]
  suffices headSize es % 32 = 0 ∧ (tails es).length % 32 = 0 by omega
  induction es with
  | nil => simp [headSize, tails]
  | cons a es ih =>
    obtain ⟨d, b⟩ := a
    have h1 := h (d, b) (by simp)
    have h2 := ih (fun a ha => h a (by simp [ha]))
    cases d <;> simp [headSize, tails] <;> simp at h1 <;> omega

theorem headSize_pos {es : List Elem} (h : ∀ a ∈ es, 32 ≤ a.2.length) :
    32 * es.length ≤ headSize es := by
  induction es with
  | nil => simp [headSize]
  | cons a es ih =>
    obtain ⟨d, b⟩ := a
    have h1 := h (d, b) (by simp)
    have h2 := ih (fun a ha => h a (by simp [ha]))
    cases d <;> simp [headSize] <;> simp at h1 <;> omega

theorem elem_length_le {es : List Elem} {a : Elem} (ha : a ∈ es) :
    a.2.length ≤ (layout es).length := by
  rw [layout_length]
  induction es with
  | nil => simp at ha
  | cons x es ih =>
    obtain ⟨d, b⟩ := x
    rcases List.mem_cons.1 ha with rfl | ha
    · cases d <;> simp [headSize, tails] <;> omega
    · have := ih ha
      simp only [headSize, tails, List.length_append]
      omega

theorem layout_static_length {es : List Elem} (h : ∀ a ∈ es, a.1 = false) :
    (layout es).length = (es.map (·.2.length)).sum := by
  rw [layout_static h, List.length_flatten, List.map_map]
  rfl

/-- The length of an encoding: a positive multiple of 32, which is `size` for static types. -/
theorem enc_length (t : Ty) : t.Valid → ∀ x, Val.Of t x →
    (enc t x).length % 32 = 0 ∧ 32 ≤ (enc t x).length ∧
      (t.dynamic = false → (enc t x).length = t.size) := by
  refine Spec.Ty.ind (P := fun t => t.Valid → ∀ x, Val.Of t x →
    (enc t x).length % 32 = 0 ∧ 32 ≤ (enc t x).length ∧
      (t.dynamic = false → (enc t x).length = t.size)) ?_ ?_ ?_ ?_ ?_ ?_ ?_ ?_ ?_ ?_ ?_ ?_ t
  · intro n _ x h; cases x <;> simp [Val.Of] at h <;> simp [enc, wordOf_length, Ty.size]
  · intro n _ x h; cases x <;> simp [Val.Of] at h <;> simp [enc, wordOf_length, Ty.size]
  · intro _ x h; cases x <;> simp [Val.Of] at h <;> simp [enc, Ty.size, h]
  · intro _ x h; cases x <;> simp [Val.Of] at h <;> simp [enc, wordOf_length, Ty.size]
  · intro m n _ x h; cases x <;> simp [Val.Of] at h <;> simp [enc, wordOf_length, Ty.size]
  · intro m n _ x h; cases x <;> simp [Val.Of] at h <;> simp [enc, wordOf_length, Ty.size]
  · intro m hv x h; cases x <;> simp [Val.Of] at h
    rename_i b
    simp only [Ty.Valid] at hv
    have := padRight32_len b
    simp only [enc, Ty.size]
    omega
  · intro _ x h; cases x <;> simp [Val.Of] at h
    rename_i b
    have := padRight32_len b
    simp only [enc, Ty.dynamic, List.length_append, be32_length]
    refine ⟨by omega, by omega, by simp⟩
  · intro _ x h; cases x <;> simp [Val.Of] at h
    rename_i s
    obtain ⟨b, hb⟩ := Option.isSome_iff_exists.1 h
    have := padRight32_len b
    simp only [enc, Ty.dynamic, hb, List.length_append, be32_length]
    refine ⟨by omega, by omega, by simp⟩
  · intro k t ih hv x h
    cases x <;> simp only [Val.Of] at h <;> try cases h
    rename_i vs hk hvs
    simp only [Ty.Valid] at hv
    have hm : ∀ a ∈ vs.map (fun v => (t.dynamic, enc t v)), a.2.length % 32 = 0 ∧ 32 ≤ a.2.length := by
      intro a ha
      obtain ⟨v, hv', rfl⟩ := List.mem_map.1 ha
      have := ih hv.2 v (hvs v hv')
      exact ⟨this.1, this.2.1⟩
    refine ⟨(layout_mod fun a ha => (hm a ha).1).2, ?_, ?_⟩
    · have := headSize_pos (fun a ha => (hm a ha).2)
      rw [List.length_map] at this
      rw [enc, layout_length]
      omega
    · intro hd
      simp only [Ty.dynamic] at hd
      rw [enc, layout_static_length (by intro a ha; obtain ⟨v, _, rfl⟩ := List.mem_map.1 ha; exact hd),
        List.map_map, Ty.size]
      clear hm
      subst hk
      have hsz : ∀ v ∈ vs, (enc t v).length = t.size := by
        intro v hv'
        exact (ih hv.2 v (hvs v hv')).2.2 hd
      clear hvs hv
      induction vs with
      | nil => simp
      | cons v vs ih2 =>
        simp only [List.map_cons, List.sum_cons, List.length_cons, Function.comp]
        have := ih2 (fun v hv => hsz v (by simp [hv]))
        rw [this, hsz v (by simp), Nat.succ_mul]
        omega
  · intro t ih hv x h
    cases x <;> simp only [Val.Of] at h
    rename_i vs
    simp only [Ty.Valid] at hv
    have hm : ∀ a ∈ vs.map (fun v => (t.dynamic, enc t v)), a.2.length % 32 = 0 := by
      intro a ha
      obtain ⟨v, hv', rfl⟩ := List.mem_map.1 ha
      exact (ih hv v (h v hv')).1
    have := (layout_mod hm).2
    simp only [enc, List.length_append, be32_length, Ty.dynamic]
    refine ⟨by omega, by omega, by simp⟩
  · intro ts ih hv x h
    cases x <;> simp only [Val.Of] at h
    rename_i vs
    simp only [Ty.Valid] at hv
    obtain ⟨hne, hv⟩ := hv
    rw [Spec.Ty.allValid_iff] at hv
    simp only [enc, Ty.dynamic, Ty.size]
    have key : (∀ a ∈ encAll ts vs, a.2.length % 32 = 0 ∧ 32 ≤ a.2.length) ∧
        (encAll ts vs).length = ts.length ∧
        (Ty.anyDynamic ts = false → (∀ a ∈ encAll ts vs, a.1 = false) ∧
          ((encAll ts vs).map (·.2.length)).sum = Ty.sizes ts) := by
      clear hne
      induction ts generalizing vs with
      | nil => cases vs <;> simp [encAll, Ty.sizes]
      | cons t ts ih2 =>
        cases vs with
        | nil => simp [Val.OfAll] at h
        | cons v vs =>
          simp only [Val.OfAll] at h
          have h1 := ih t (by simp) (hv t (by simp)) v h.1
          have h2 := ih2 (fun t ht => ih t (by simp [ht])) vs h.2 (fun t ht => hv t (by simp [ht]))
          refine ⟨?_, by simp [encAll, h2.2.1], ?_⟩
          · intro a ha
            simp only [encAll, List.mem_cons] at ha
            rcases ha with rfl | ha
            · exact ⟨h1.1, h1.2.1⟩
            · exact h2.1 a ha
          · intro hd
            simp only [Ty.anyDynamic, Bool.or_eq_false_iff] at hd
            have h3 := h2.2.2 hd.2
            refine ⟨?_, ?_⟩
            · intro a ha
              simp only [encAll, List.mem_cons] at ha
              rcases ha with rfl | ha
              · exact hd.1
              · exact h3.1 a ha
            · simp only [encAll, List.map_cons, List.sum_cons, h3.2, Ty.sizes, h1.2.2 hd.1]
    refine ⟨(layout_mod fun a ha => (key.1 a ha).1).2, ?_, ?_⟩
    · have h1 := headSize_pos (fun a ha => (key.1 a ha).2)
      have h2 : 0 < ts.length := List.length_pos_of_ne_nil hne
      rw [layout_length]
      omega
    · intro hd
      rw [layout_static_length (key.2.2 hd).1, (key.2.2 hd).2]

end EthAbi
