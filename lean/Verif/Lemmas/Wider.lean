import Verif.Spec.Wider
import Verif.Lemmas.Api
import Verif.Lemmas.Errors
import Verif.Lemmas.Taken

/-! # Wider types -/
namespace EthAbi
open Spec

theorem fitsU_mono {n n' : Nat} (h : n ≤ n') {i : Int} (hi : fitsU n i) : fitsU n' i :=
  ⟨hi.1, Int.lt_of_lt_of_le hi.2 (by exact_mod_cast Nat.pow_le_pow_right (by omega) h)⟩

theorem fitsS_mono {n n' : Nat} (h : n ≤ n') {i : Int} (hi : fitsS n i) : fitsS n' i := by
  have : (2 : Int) ^ (n - 1) ≤ 2 ^ (n' - 1) := by exact_mod_cast Nat.pow_le_pow_right (by omega) (by omega)
  exact ⟨by have := hi.1; omega, by have := hi.2; omega⟩

theorem fitsS_of_U {n n' : Nat} (h : n < n') {i : Int} (hi : fitsU n i) : fitsS n' i := by
  have : (2 : Int) ^ n ≤ 2 ^ (n' - 1) := by exact_mod_cast Nat.pow_le_pow_right (by omega) (by omega)
  have h0 : (0 : Int) < 2 ^ (n' - 1) := by positivity
  exact ⟨by have := hi.1; omega, by have := hi.2; omega⟩

/-- Induction on `Wider`. -/
theorem wider_ind {P : Ty → Ty → Prop} {Q : List Ty → List Ty → Prop}
    (h1 : ∀ t, P t t) (h2 : ∀ {n n'}, n ≤ n' → P (.uint n) (.uint n')) (h3 : ∀ {n n'}, n ≤ n' → P (.int n) (.int n'))
    (h4 : ∀ {n n'}, n < n' → P (.uint n) (.int n')) (h5 : ∀ {m m' n}, m ≤ m' → P (.ufixed m n) (.ufixed m' n))
    (h6 : ∀ {m m' n}, m ≤ m' → P (.fixed m n) (.fixed m' n)) (h7 : ∀ {m m' n}, m < m' → P (.ufixed m n) (.fixed m' n))
    (h8 : ∀ {k t t'}, P t t' → P (.sized k t) (.sized k t')) (h9 : ∀ {t t'}, P t t' → P (.dyn t) (.dyn t'))
    (h10 : ∀ {ts ts'}, Q ts ts' → P (.tuple ts) (.tuple ts')) (h11 : Q [] [])
    (h12 : ∀ {t t' ts ts'}, P t t' → Q ts ts' → Q (t :: ts) (t' :: ts')) :
    (∀ {t t'}, Wider t t' → P t t') ∧ ∀ {ts ts'}, WiderAll ts ts' → Q ts ts' := by
  constructor
  · intro t t' h
    exact Wider.rec (motive_1 := fun t t' _ => P t t') (motive_2 := fun ts ts' _ => Q ts ts') h1 h2 h3 h4 h5 h6 h7
      (fun _ ih => h8 ih) (fun _ ih => h9 ih) (fun _ ih => h10 ih) h11 (fun _ _ a b => h12 a b) h
  · intro ts ts' h
    exact WiderAll.rec (motive_1 := fun t t' _ => P t t') (motive_2 := fun ts ts' _ => Q ts ts') h1 h2 h3 h4 h5 h6 h7
      (fun _ ih => h8 ih) (fun _ ih => h9 ih) (fun _ ih => h10 ih) h11 (fun _ _ a b => h12 a b) h

/-- The layout of the two types is the same. -/
def SameShape (t t' : Ty) : Prop :=
  t.dynamic = t'.dynamic ∧ t.size = t'.size ∧ arrayDim t = arrayDim t' ∧ (∀ x, enc t x = enc t' x) ∧
    (∀ x, toPy t x = toPy t' x) ∧ ∀ x, Val.Of t x → Val.Of t' x

theorem wider_shape : (∀ {t t'}, Wider t t' → SameShape t t') ∧ ∀ {ts ts'}, WiderAll ts ts' →
    Ty.anyDynamic ts = Ty.anyDynamic ts' ∧ Ty.sizes ts = Ty.sizes ts' ∧ headWordsAll ts = headWordsAll ts' ∧
    (∀ xs, encAll ts xs = encAll ts' xs) ∧
    (∀ xs, toPyAll ts xs = toPyAll ts' xs) ∧ ∀ xs, Val.OfAll ts xs → Val.OfAll ts' xs := by
  apply wider_ind
  · exact fun t => ⟨rfl, rfl, rfl, fun _ => rfl, fun _ => rfl, fun _ h => h⟩
  · intro n n' h
    refine ⟨rfl, rfl, rfl, fun x => ?_, fun x => ?_, fun x hx => ?_⟩ <;> cases x <;>
      first | rfl | exact fitsU_mono h hx | cases hx
  · intro n n' h
    refine ⟨rfl, rfl, rfl, fun x => ?_, fun x => ?_, fun x hx => ?_⟩ <;> cases x <;>
      first | rfl | exact fitsS_mono h hx | cases hx
  · intro n n' h
    refine ⟨rfl, rfl, rfl, fun x => ?_, fun x => ?_, fun x hx => ?_⟩ <;> cases x <;>
      first | rfl | exact fitsS_of_U h hx | cases hx
  · intro n n' _ h
    refine ⟨rfl, rfl, rfl, fun x => ?_, fun x => ?_, fun x hx => ?_⟩ <;> cases x <;>
      first | rfl | exact fitsU_mono h hx | cases hx
  · intro n n' _ h
    refine ⟨rfl, rfl, rfl, fun x => ?_, fun x => ?_, fun x hx => ?_⟩ <;> cases x <;>
      first | rfl | exact fitsS_mono h hx | cases hx
  · intro n n' _ h
    refine ⟨rfl, rfl, rfl, fun x => ?_, fun x => ?_, fun x hx => ?_⟩ <;> cases x <;>
      first | rfl | exact fitsS_of_U h hx | cases hx
  · rintro k t t' ⟨h1, h2, h3, h4, h5, h6⟩
    refine ⟨h1, ?_, ?_, fun x => ?_, fun x => ?_, fun x hx => ?_⟩
    · simp only [Ty.size, h2]
    · simp only [arrayDim]
    · cases x <;> simp only [enc, h1, h4]
    · cases x <;> simp only [toPy, funext h5]
    · cases x <;> simp only [Val.Of] at hx ⊢
      exact ⟨hx.1, fun v hv => h6 v (hx.2 v hv)⟩
  · rintro t t' ⟨h1, h2, h3, h4, h5, h6⟩
    refine ⟨rfl, rfl, ?_, fun x => ?_, fun x => ?_, fun x hx => ?_⟩
    · simp only [arrayDim]
    · cases x <;> simp only [enc, h1, h4]
    · cases x <;> simp only [toPy, funext h5]
    · cases x <;> simp only [Val.Of] at hx ⊢
      exact fun v hv => h6 v (hx v hv)
  · rintro ts ts' ⟨h1, h2, h3, h4, h5, h6⟩
    refine ⟨?_, ?_, ?_, fun x => ?_, fun x => ?_, fun x hx => ?_⟩
    · simp only [Ty.dynamic, h1]
    · simp only [Ty.size, h2]
    · simp only [arrayDim]
    · cases x <;> simp only [enc, h4]
    · cases x <;> simp only [toPy, h5]
    · cases x <;> simp only [Val.Of] at hx ⊢
      exact h6 _ hx
  · exact ⟨rfl, rfl, rfl, fun _ => rfl, fun _ => rfl, fun _ h => h⟩
  · rintro t t' ts ts' ⟨h1, h2, h3, h4, h5, h6⟩ ⟨g1, g2, g3, g4, g5, g6⟩
    refine ⟨?_, ?_, ?_, fun x => ?_, fun x => ?_, fun x hx => ?_⟩
    · simp only [Ty.anyDynamic, h1, g1]
    · simp only [Ty.sizes, h2, g2]
    · have hw : headWords t = headWords t' := by
        unfold headWords
        rw [h1, h3]
      unfold headWordsAll at g3 ⊢
      simp only [List.map_cons, List.sum_cons, hw, g3]
    · cases x <;> simp only [encAll, h1, h4, g4]
    · cases x <;> simp only [toPyAll, h5, g5]
    · cases x <;> simp only [Val.OfAll] at hx ⊢
      exact ⟨h6 _ hx.1, g6 _ hx.2⟩

theorem mapM_imp {α β : Type} {f g : α → Option β} (h : ∀ a b, f a = some b → g a = some b) {l : List α} {r : List β}
    (hm : l.mapM f = some r) : l.mapM g = some r := by
  induction l generalizing r with
  | nil => exact hm
  | cons a l ih =>
    simp only [List.mapM_cons, Option.bind_eq_bind, Option.bind_eq_some_iff] at hm ⊢
    obtain ⟨b, h1, c, h2, h3⟩ := hm
    exact ⟨b, h a b h1, c, ih h2, h3⟩

theorem wider_denote [Ext] : (∀ {t t'}, Wider t t' → ∀ v x, denote t v = some x → denote t' v = some x) ∧
    ∀ {ts ts'}, WiderAll ts ts' → ∀ vs xs, denoteAll ts vs = some xs → denoteAll ts' vs = some xs := by
  apply wider_ind
  · exact fun t v x h => h
  · intro n n' hn v x h
    cases v <;> simp only [denote] at h ⊢ <;> try cases h
    split at h
    · rw [if_pos (fitsU_mono hn (by assumption))]; exact h
    · cases h
  · intro n n' hn v x h
    cases v <;> simp only [denote] at h ⊢ <;> try cases h
    split at h
    · rw [if_pos (fitsS_mono hn (by assumption))]; exact h
    · cases h
  · intro n n' hn v x h
    cases v <;> simp only [denote] at h ⊢ <;> try cases h
    split at h
    · rw [if_pos (fitsS_of_U hn (by assumption))]; exact h
    · cases h
  · intro m m' n hn v x h
    simp only [denote, Option.bind_eq_bind, Option.bind_eq_some_iff] at h ⊢
    obtain ⟨a, h1, k, h2, h3⟩ := h
    refine ⟨a, h1, k, h2, ?_⟩
    split at h3
    · rw [if_pos (fitsU_mono hn (by assumption))]; exact h3
    · cases h3
  · intro m m' n hn v x h
    simp only [denote, Option.bind_eq_bind, Option.bind_eq_some_iff] at h ⊢
    obtain ⟨a, h1, k, h2, h3⟩ := h
    refine ⟨a, h1, k, h2, ?_⟩
    split at h3
    · rw [if_pos (fitsS_mono hn (by assumption))]; exact h3
    · cases h3
  · intro m m' n hn v x h
    simp only [denote, Option.bind_eq_bind, Option.bind_eq_some_iff] at h ⊢
    obtain ⟨a, h1, k, h2, h3⟩ := h
    refine ⟨a, h1, k, h2, ?_⟩
    split at h3
    · rw [if_pos (fitsS_of_U hn (by assumption))]; exact h3
    · cases h3
  · intro k t t' ih v x h
    simp only [denote, Option.bind_eq_bind, Option.bind_eq_some_iff] at h ⊢
    obtain ⟨vs, h1, xs, h2, h3⟩ := h
    exact ⟨vs, h1, xs, mapM_imp ih h2, h3⟩
  · intro t t' ih v x h
    simp only [denote, Option.bind_eq_bind, Option.bind_eq_some_iff] at h ⊢
    obtain ⟨vs, h1, xs, h2, h3⟩ := h
    exact ⟨vs, h1, xs, mapM_imp ih h2, h3⟩
  · intro ts ts' ih v x h
    simp only [denote, Option.bind_eq_bind, Option.bind_eq_some_iff] at h ⊢
    obtain ⟨vs, h1, xs, h2, h3⟩ := h
    exact ⟨vs, h1, xs, ih _ _ h2, h3⟩
  · exact fun vs xs h => h
  · intro t t' ts ts' ih1 ih2 vs xs h
    cases vs with
    | nil => simp [denoteAll] at h
    | cons v vs =>
      simp only [denoteAll, Option.bind_eq_bind, Option.bind_eq_some_iff] at h ⊢
      obtain ⟨x, h1, ys, h2, h3⟩ := h
      exact ⟨x, ih1 _ _ h1, ys, ih2 _ _ h2, h3⟩

theorem wider_taken [Ext] : (∀ {t t'}, Wider t t' → ∀ v x, taken t v = some x → taken t' v = some x) ∧
    ∀ {ts ts'}, WiderAll ts ts' → ∀ vs xs, takenAll ts vs = some xs → takenAll ts' vs = some xs := by
  have hd : ∀ {t t'}, Wider t t' → ∀ v x, denote t v = some x → denote t' v = some x := wider_denote.1
  apply wider_ind
  · exact fun t v x h => h
  · intro n n' hn v x h
    simp only [taken] at h ⊢
    exact hd (.uint hn) v x h
  · intro n n' hn v x h
    simp only [taken] at h ⊢
    exact hd (.int hn) v x h
  · intro n n' hn v x h
    simp only [taken] at h ⊢
    exact hd (.signed hn) v x h
  · intro m m' n hn v x h
    simp only [taken] at h ⊢
    exact hd (.ufixed hn) v x h
  · intro m m' n hn v x h
    simp only [taken, Option.bind_eq_bind, Option.bind_eq_some_iff] at h ⊢
    obtain ⟨a, h1, k, h2, h3⟩ := h
    refine ⟨a, h1, k, ?_, h3⟩
    unfold takenFixed at h2 ⊢
    split at h2
    · split at h2
      · rw [if_pos (fitsS_mono hn (by assumption))]; exact h2
      · cases h2
    · simp only at h2 ⊢
      split at h2
      · rename_i hc
        have : (2 : Int) ^ (m - 1) ≤ 2 ^ (m' - 1) := by
          exact_mod_cast Nat.pow_le_pow_right (by omega) (by omega)
        rw [if_pos ⟨hc.1, by have := hc.2; omega⟩]
        exact h2
      · cases h2
  · intro m m' n hn v x h
    simp only [taken, denote, Option.bind_eq_bind, Option.bind_eq_some_iff] at h ⊢
    obtain ⟨a, h1, k, h2, h3⟩ := h
    refine ⟨a, h1, k, ?_, ?_⟩
    · unfold takenFixed
      rw [h2]
      split at h3
      · simp only
        rw [if_pos (fitsS_of_U hn (by assumption))]
      · cases h3
    · split at h3
      · exact h3
      · cases h3
  · intro k t t' ih v x h
    simp only [taken, Option.bind_eq_bind, Option.bind_eq_some_iff] at h ⊢
    obtain ⟨vs, h1, xs, h2, h3⟩ := h
    exact ⟨vs, h1, xs, mapM_imp ih h2, h3⟩
  · intro t t' ih v x h
    simp only [taken, Option.bind_eq_bind, Option.bind_eq_some_iff] at h ⊢
    obtain ⟨vs, h1, xs, h2, h3⟩ := h
    exact ⟨vs, h1, xs, mapM_imp ih h2, h3⟩
  · intro ts ts' ih v x h
    simp only [taken, Option.bind_eq_bind, Option.bind_eq_some_iff] at h ⊢
    obtain ⟨vs, h1, xs, h2, h3⟩ := h
    exact ⟨vs, h1, xs, ih _ _ h2, h3⟩
  · exact fun vs xs h => h
  · intro t t' ts ts' ih1 ih2 vs xs h
    cases vs with
    | nil => simp [takenAll] at h
    | cons v vs =>
      simp only [takenAll, Option.bind_eq_bind, Option.bind_eq_some_iff] at h ⊢
      obtain ⟨x, h1, ys, h2, h3⟩ := h
      exact ⟨x, ih1 _ _ h1, ys, ih2 _ _ h2, h3⟩

theorem wider_onGrid : (∀ {t t'}, Wider t t' → ∀ v, OnGrid t' v → OnGrid t v) ∧
    ∀ {ts ts'}, WiderAll ts ts' → ∀ vs, OnGridAll ts' vs → OnGridAll ts vs := by
  apply wider_ind
  · exact fun t v h => h
  · intros; simp only [OnGrid]
  · intros; simp only [OnGrid]
  · intros; simp only [OnGrid]
  · intro _ _ _ _ v h; simp only [OnGrid] at h ⊢; exact h
  · intro _ _ _ _ v h; simp only [OnGrid] at h ⊢; exact h
  · intro _ _ _ _ v h; simp only [OnGrid] at h ⊢; exact h
  · intro k t t' ih v h; simp only [OnGrid] at h ⊢; exact fun vs hv u hu => ih u (h vs hv u hu)
  · intro t t' ih v h; simp only [OnGrid] at h ⊢; exact fun vs hv u hu => ih u (h vs hv u hu)
  · intro ts ts' ih v h; simp only [OnGrid] at h ⊢; exact fun vs hv => ih vs (h vs hv)
  · exact fun vs h => h
  · intro t t' ts ts' ih1 ih2 vs h
    cases vs with
    | nil => simp [OnGridAll]
    | cons v vs => simp only [OnGridAll] at h ⊢; exact ⟨ih1 v h.1, ih2 vs h.2⟩

theorem wider_headStep {t t' : Ty} (h : Wider t t') : headStep t = headStep t' := by
  obtain ⟨h1, h2, _⟩ := wider_shape.1 h
  unfold headStep
  rw [h1, h2]

theorem readsItem_and {dynamic : Bool} {R R' : Nat → Val → Prop} {C : Val → Prop} {d : Bytes} {base lo q : Nat}
    {x : Val} (h : ∀ p, R p x ↔ C x ∧ R' p x) :
    ReadsItem dynamic R d base lo q x ↔ C x ∧ ReadsItem dynamic R' d base lo q x := by
  cases dynamic with
  | false => simp only [ReadsItem, Bool.false_eq_true, if_false, h]
  | true =>
    simp only [ReadsItem, if_true, h]
    constructor
    · rintro ⟨off, h1, h2, h3, h4, h5, h6⟩
      exact ⟨h5, off, h1, h2, h3, h4, h6⟩
    · rintro ⟨h5, off, h1, h2, h3, h4, h6⟩
      exact ⟨off, h1, h2, h3, h4, h5, h6⟩

theorem readsMany_and {dynamic : Bool} {R R' : Nat → Val → Prop} {C : Val → Prop} (h : ∀ p x, R p x ↔ C x ∧ R' p x)
    {step : Nat} {d : Bytes} {base lo q : Nat} {xs : List Val} :
    ReadsMany dynamic R step d base lo q xs ↔ (∀ x ∈ xs, C x) ∧ ReadsMany dynamic R' step d base lo q xs := by
  induction xs generalizing q with
  | nil => simp [ReadsMany]
  | cons x xs ih =>
    simp only [ReadsMany, ih, readsItem_and (fun p => h p x), List.forall_mem_cons]
    tauto

theorem wider_reads : (∀ {t t'}, Wider t t' → Wider t t' ∧ ∀ strict d p x,
      Reads codeHead strict t d p x ↔ Val.Of t x ∧ Reads codeHead strict t' d p x) ∧
    ∀ {ts ts'}, WiderAll ts ts' → WiderAll ts ts' ∧ ∀ strict d base lo q xs,
      ReadsAll codeHead strict ts d base lo q xs ↔
        Val.OfAll ts xs ∧ ReadsAll codeHead strict ts' d base lo q xs := by
  have leaf : ∀ {t t' : Ty}, Wider t t' → (∀ strict d p x, Reads codeHead strict t d p x ↔ Val.Of t x ∧ At d p (enc t x)) →
      (∀ strict d p x, Reads codeHead strict t' d p x ↔ Val.Of t' x ∧ At d p (enc t' x)) →
      Wider t t' ∧ ∀ strict d p x, Reads codeHead strict t d p x ↔ Val.Of t x ∧ Reads codeHead strict t' d p x := by
    intro t t' hw h1 h2
    obtain ⟨_, _, _, h4, _, h6⟩ := wider_shape.1 hw
    refine ⟨hw, fun strict d p x => ?_⟩
    rw [h1, h2, h4]
    exact ⟨fun ⟨a, b⟩ => ⟨a, h6 x a, b⟩, fun ⟨a, _, b⟩ => ⟨a, b⟩⟩
  apply wider_ind
  · exact fun t => ⟨.same t, fun strict d p x => ⟨fun h => ⟨reads_of t strict d p x h, h⟩, fun h => h.2⟩⟩
  · exact fun h => leaf (.uint h) (fun _ _ _ _ => Iff.rfl) fun _ _ _ _ => Iff.rfl
  · exact fun h => leaf (.int h) (fun _ _ _ _ => Iff.rfl) fun _ _ _ _ => Iff.rfl
  · exact fun h => leaf (.signed h) (fun _ _ _ _ => Iff.rfl) fun _ _ _ _ => Iff.rfl
  · exact fun h => leaf (.ufixed h) (fun _ _ _ _ => Iff.rfl) fun _ _ _ _ => Iff.rfl
  · exact fun h => leaf (.fixed h) (fun _ _ _ _ => Iff.rfl) fun _ _ _ _ => Iff.rfl
  · exact fun h => leaf (.signedFixed h) (fun _ _ _ _ => Iff.rfl) fun _ _ _ _ => Iff.rfl
  · rintro k t t' ⟨hw, ih⟩
    refine ⟨.sized hw, fun strict d p x => ?_⟩
    cases x with
    | seq xs =>
      simp only [Reads, Val.Of]
      rw [readsMany_and (ih true d), (wider_shape.1 hw).1, wider_headStep hw]
      tauto
    | _ => simp [Reads, Val.Of]
  · rintro t t' ⟨hw, ih⟩
    refine ⟨.dyn hw, fun strict d p x => ?_⟩
    cases x with
    | seq xs =>
      simp only [Reads, Val.Of]
      rw [readsMany_and (ih true d), (wider_shape.1 hw).1, wider_headStep hw]
      tauto
    | _ => simp [Reads, Val.Of]
  · rintro ts ts' ⟨hw, ih⟩
    refine ⟨.tuple hw, fun strict d p x => ?_⟩
    cases x with
    | seq xs =>
      simp only [Reads, Val.Of]
      have hc : codeHead ts = codeHead ts' := by
        unfold codeHead
        rw [(wider_shape.2 hw).2.2.1]
      rw [ih, hc]
    | _ => simp [Reads, Val.Of]
  · refine ⟨.nil, fun strict d base lo q xs => ?_⟩
    cases xs <;> simp [ReadsAll, Val.OfAll]
  · rintro t t' ts ts' ⟨hw, ih⟩ ⟨hws, ihs⟩
    refine ⟨.cons hw hws, fun strict d base lo q xs => ?_⟩
    cases xs with
    | nil => simp [ReadsAll]
    | cons x xs =>
      simp only [ReadsAll, Val.OfAll]
      rw [readsItem_and (fun p => ih strict d p x), ihs, (wider_shape.1 hw).1, wider_headStep hw]
      tauto

theorem wider_readsArgs {ts ts' : List Ty} (hw : WiderAll ts ts') {strict : Bool} {d : Bytes} {xs : List Val} :
    ReadsArgs codeHead strict ts d xs ↔ Val.OfAll ts xs ∧ ReadsArgs codeHead strict ts' d xs := by
  have hc : codeHead ts = codeHead ts' := by
    unfold codeHead
    rw [(wider_shape.2 hw).2.2.1]
  unfold ReadsArgs
  rw [(wider_reads.2 hw).2, hc]

end EthAbi
