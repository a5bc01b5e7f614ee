import Verif.Spec.Recast
import Verif.Lemmas.Api
import Verif.Lemmas.Errors

/-! # Data of a type, seen as words and byte strings -/
namespace EthAbi
open Spec

theorem bareAll_eq (ts : List Ty) : Ty.bareAll ts = ts.map Ty.bare := by
  induction ts with
  | nil => rfl
  | cons t ts ih => simp only [Ty.bareAll, List.map_cons, ih]

theorem bare_shape (t : Ty) : t.bare.dynamic = t.dynamic ∧ t.bare.size = t.size ∧ arrayDim t.bare = arrayDim t := by
  refine Spec.Ty.ind (P := fun t => t.bare.dynamic = t.dynamic ∧ t.bare.size = t.size ∧
    arrayDim t.bare = arrayDim t) ?_ ?_ ?_ ?_ ?_ ?_ ?_ ?_ ?_ ?_ ?_ ?_ t
  iterate 9
    intros
    exact ⟨rfl, rfl, rfl⟩
  · rintro k t ⟨h1, h2, -⟩
    refine ⟨h1, ?_, rfl⟩
    simp only [Ty.bare, Ty.size, h2]
  · rintro t -
    exact ⟨rfl, rfl, rfl⟩
  · intro ts ih
    have : Ty.anyDynamic (Ty.bareAll ts) = Ty.anyDynamic ts ∧ Ty.sizes (Ty.bareAll ts) = Ty.sizes ts := by
      induction ts with
      | nil => exact ⟨rfl, rfl⟩
      | cons t ts ih2 =>
        obtain ⟨g1, g2⟩ := ih2 fun u hu => ih u (List.mem_cons_of_mem _ hu)
        obtain ⟨h1, h2, -⟩ := ih t (by simp)
        simp only [Ty.bareAll, Ty.anyDynamic, Ty.sizes, g1, g2, h1, h2, and_self]
    exact ⟨this.1, this.2, rfl⟩

theorem bare_headStep (t : Ty) : headStep t.bare = headStep t := by
  obtain ⟨h1, h2, -⟩ := bare_shape t
  unfold headStep
  rw [h1, h2]

theorem bare_codeHead (ts : List Ty) : codeHead (Ty.bareAll ts) = codeHead ts := by
  have h : ∀ t : Ty, headWords t.bare = headWords t := by
    intro t
    obtain ⟨h1, -, h3⟩ := bare_shape t
    simp only [headWords, h1, h3]
  simp only [codeHead, headWordsAll, bareAll_eq, List.map_map]
  congr 3
  funext t
  exact h t

/-- A type of one word. -/
def OneWord (t : Ty) : Prop := t.bare = .bytesM 32 ∧ (∀ x, Val.bare t x = .raw (enc t x)) ∧
  (∀ strict d p x, Reads codeHead strict t d p x ↔ Val.Of t x ∧ At d p (enc t x)) ∧ t.dynamic = false ∧ t.size = 32

/-- The types of one word. -/
def wordType : Ty → Prop
  | .bytes => False
  | .string => False
  | .sized _ _ => False
  | .dyn _ => False
  | .tuple _ => False
  | _ => True

theorem oneWord_of {t : Ty} (h : wordType t) : OneWord t := by
  cases t <;> first | exact h.elim | exact ⟨rfl, fun x => by cases x <;> rfl, fun _ _ _ _ => Iff.rfl, rfl, rfl⟩

theorem padRight32_word {b : Bytes} (h : b.length = 32) : padRight32 b = b := by
  simp [padRight32, h]

theorem oneWord_length {t : Ty} (hw : OneWord t) (hv : t.Valid) {x : Val} (hx : Val.Of t x) :
    (enc t x).length = 32 := by
  rw [(enc_length t hv x hx).2.2 hw.2.2.2.1, hw.2.2.2.2]

theorem bare_enc_word {t : Ty} (h : wordType t) (hv : t.Valid) {x : Val} (hx : Val.Of t x) :
    Val.Of t.bare (Val.bare t x) ∧ enc t.bare (Val.bare t x) = enc t x := by
  have hw := oneWord_of h
  have hl := oneWord_length hw hv hx
  rw [hw.1, hw.2.1]
  exact ⟨hl, padRight32_word hl⟩

theorem bare_reads_word {t : Ty} (h : wordType t) (hv : t.Valid) (strict : Bool) (d : Bytes) (p : Nat) (x : Val) :
    Reads codeHead strict t d p x ↔ Val.Of t x ∧ Reads codeHead strict t.bare d p (Val.bare t x) := by
  have hw := oneWord_of h
  rw [hw.2.2.1, hw.1, hw.2.1]
  refine and_congr_right fun hx => ?_
  have hl := oneWord_length hw hv hx
  simp only [Reads, Val.Of, enc]
  rw [padRight32_word hl]
  exact ⟨fun h => ⟨hl, h⟩, fun h => h.2⟩

/-- The values of the bare type, and how they are encoded. -/
theorem bare_enc (t : Ty) (hv : t.Valid) (x : Val) (hx : Val.Of t x) :
    Val.Of t.bare (Val.bare t x) ∧ enc t.bare (Val.bare t x) = enc t x := by
  refine Spec.Ty.ind (P := fun t => t.Valid → ∀ x, Val.Of t x →
    Val.Of t.bare (Val.bare t x) ∧ enc t.bare (Val.bare t x) = enc t x) ?_ ?_ ?_ ?_ ?_ ?_ ?_ ?_ ?_ ?_ ?_ ?_ t hv x hx
  iterate 7
    intros
    rename_i hv x hx
    exact bare_enc_word (by trivial) hv hx
  · intro _ x hx
    exact ⟨by cases x <;> exact hx, by cases x <;> rfl⟩
  · intro _ x hx
    cases x <;> try exact hx.elim
    rename_i s
    simp only [Val.Of] at hx
    obtain ⟨b, hb⟩ := Option.isSome_iff_exists.1 hx
    simp [Val.bare, Ty.bare, Val.Of, enc, hb]
  · intro k t ih hv x hx
    cases x <;> try exact hx.elim
    rename_i xs
    simp only [Val.Of] at hx
    simp only [Ty.bare, Val.bare, Val.Of, enc, List.length_map, List.map_map, (bare_shape t).1]
    refine ⟨⟨hx.1, ?_⟩, ?_⟩
    · intro v hv'
      obtain ⟨u, hu, rfl⟩ := List.mem_map.1 hv'
      exact (ih hv.2 u (hx.2 u hu)).1
    · congr 1
      exact List.map_congr_left fun u hu => by simp only [Function.comp, (ih hv.2 u (hx.2 u hu)).2]
  · intro t ih hv x hx
    cases x <;> try exact hx.elim
    rename_i xs
    simp only [Val.Of] at hx
    simp only [Ty.bare, Val.bare, Val.Of, enc, List.length_map, List.map_map, (bare_shape t).1]
    refine ⟨?_, ?_⟩
    · intro v hv'
      obtain ⟨u, hu, rfl⟩ := List.mem_map.1 hv'
      exact (ih hv u (hx u hu)).1
    · congr 2
      exact List.map_congr_left fun u hu => by simp only [Function.comp, (ih hv u (hx u hu)).2]
  · intro ts ih hv x hx
    cases x <;> try exact hx.elim
    rename_i xs
    simp only [Val.Of] at hx
    have : ∀ xs, Val.OfAll ts xs → Val.OfAll (Ty.bareAll ts) (Val.bareAll ts xs) ∧
        encAll (Ty.bareAll ts) (Val.bareAll ts xs) = encAll ts xs := by
      have hv' := Spec.Ty.allValid_iff.1 hv.2
      clear hx hv
      induction ts with
      | nil => intro xs hx; cases xs <;> first | exact hx.elim | exact ⟨trivial, rfl⟩
      | cons t ts ih2 =>
        intro xs hx
        cases xs with
        | nil => exact hx.elim
        | cons x xs =>
          obtain ⟨g1, g2⟩ := ih2 (fun u hu => ih u (List.mem_cons_of_mem _ hu))
            (fun u hu => hv' u (List.mem_cons_of_mem _ hu)) xs hx.2
          obtain ⟨h1, h2⟩ := ih t (by simp) (hv' t (by simp)) x hx.1
          simp only [Ty.bareAll, Val.bareAll, Val.OfAll, encAll, g1, g2, h1, h2, (bare_shape t).1, and_self]
    simp only [Ty.bare, Val.bare, Val.Of, enc]
    exact ⟨(this xs hx).1, by rw [(this xs hx).2]⟩

theorem bareAll_enc {ts : List Ty} (hv : ∀ t ∈ ts, t.Valid) {xs : List Val} (hx : Val.OfAll ts xs) :
    Val.OfAll (Ty.bareAll ts) (Val.bareAll ts xs) ∧ encodeArgs (Ty.bareAll ts) (Val.bareAll ts xs) = encodeArgs ts xs := by
  cases ts with
  | nil => cases xs <;> first | exact hx.elim | exact ⟨trivial, rfl⟩
  | cons t ts => exact bare_enc (.tuple (t :: ts)) ⟨by simp, Spec.Ty.allValid_iff.2 hv⟩ (.seq xs) hx

theorem readsItem_map {dynamic : Bool} {R R' : Nat → Val → Prop} {C : Prop} {d : Bytes} {base lo q : Nat}
    {x y : Val} (h : ∀ p, R p x ↔ C ∧ R' p y) :
    ReadsItem dynamic R d base lo q x ↔ C ∧ ReadsItem dynamic R' d base lo q y := by
  cases dynamic with
  | false => simp only [ReadsItem, Bool.false_eq_true, if_false, h]
  | true =>
    simp only [ReadsItem, if_true, h]
    constructor
    · rintro ⟨off, h1, h2, h3, h4, h5, h6⟩
      exact ⟨h5, off, h1, h2, h3, h4, h6⟩
    · rintro ⟨h5, off, h1, h2, h3, h4, h6⟩
      exact ⟨off, h1, h2, h3, h4, h5, h6⟩

theorem readsMany_map {dynamic : Bool} {R R' : Nat → Val → Prop} {C : Val → Prop} {f : Val → Val}
    (h : ∀ p x, R p x ↔ C x ∧ R' p (f x)) {step : Nat} {d : Bytes} {base lo q : Nat} {xs : List Val} :
    ReadsMany dynamic R step d base lo q xs ↔ (∀ x ∈ xs, C x) ∧ ReadsMany dynamic R' step d base lo q (xs.map f) := by
  induction xs generalizing q with
  | nil => simp [ReadsMany]
  | cons x xs ih =>
    simp only [ReadsMany, List.map_cons, ih, readsItem_map (fun p => h p x), List.forall_mem_cons]
    tauto

theorem readsAll_map {strict : Bool} {ts : List Ty} {d : Bytes} (ih : ∀ t ∈ ts, ∀ p x,
      Reads codeHead strict t d p x ↔ Val.Of t x ∧ Reads codeHead strict t.bare d p (Val.bare t x))
    {base lo q : Nat} {xs : List Val} :
    ReadsAll codeHead strict ts d base lo q xs ↔
      Val.OfAll ts xs ∧ ReadsAll codeHead strict (Ty.bareAll ts) d base lo q (Val.bareAll ts xs) := by
  induction ts generalizing q xs with
  | nil => cases xs <;> simp [ReadsAll, Val.OfAll, Ty.bareAll, Val.bareAll]
  | cons t ts ih2 =>
    cases xs with
    | nil => simp [ReadsAll, Val.OfAll]
    | cons x xs =>
      simp only [ReadsAll, Val.OfAll, Ty.bareAll, Val.bareAll]
      rw [readsItem_map (fun p => ih t (by simp) p x), ih2 fun u hu => ih u (List.mem_cons_of_mem _ hu),
        (bare_shape t).1, bare_headStep]
      tauto

theorem bare_reads (t : Ty) (hv : t.Valid) : ∀ (strict : Bool) (d : Bytes) (p : Nat) (x : Val),
    Reads codeHead strict t d p x ↔ Val.Of t x ∧ Reads codeHead strict t.bare d p (Val.bare t x) := by
  refine Spec.Ty.ind (P := fun t => t.Valid → ∀ (strict : Bool) (d : Bytes) (p : Nat) (x : Val),
    Reads codeHead strict t d p x ↔ Val.Of t x ∧ Reads codeHead strict t.bare d p (Val.bare t x))
    ?_ ?_ ?_ ?_ ?_ ?_ ?_ ?_ ?_ ?_ ?_ ?_ t hv
  iterate 7
    intros
    rename_i hv strict d p x
    exact bare_reads_word (by trivial) hv strict d p x
  · intro _ strict d p x
    exact ⟨fun h => ⟨reads_of _ strict d p x h, by cases x <;> exact h⟩, fun h => by cases x <;> exact h.2⟩
  · intro _ strict d p x
    cases x <;> try simp [Reads, Val.Of, Val.bare, Ty.bare]
    rename_i s
    constructor
    · rintro ⟨b, hb, h⟩
      simp only [hb, Option.isSome_some, Option.getD_some, true_and]
      exact h
    · rintro ⟨hs, h⟩
      obtain ⟨b, hb⟩ := Option.isSome_iff_exists.1 hs
      rw [hb] at h
      exact ⟨b, hb, h⟩
  · intro k t ih hv strict d p x
    cases x <;> try simp [Reads, Val.Of, Val.bare, Ty.bare]
    rw [readsMany_map (ih hv.2 true d), (bare_shape t).1, bare_headStep]
    tauto
  · intro t ih hv strict d p x
    cases x <;> try simp [Reads, Val.Of, Val.bare, Ty.bare]
    rw [readsMany_map (ih hv true d), (bare_shape t).1, bare_headStep]
    tauto
  · intro ts ih hv strict d p x
    cases x <;> try simp [Reads, Val.Of, Val.bare, Ty.bare]
    rw [readsAll_map fun t ht => ih t ht (Spec.Ty.allValid_iff.1 hv.2 t ht) true d, bare_codeHead]

theorem bare_readsArgs {ts : List Ty} (hv : ∀ t ∈ ts, t.Valid) {strict : Bool} {d : Bytes} {xs : List Val} :
    ReadsArgs codeHead strict ts d xs ↔
      Val.OfAll ts xs ∧ ReadsArgs codeHead strict (Ty.bareAll ts) d (Val.bareAll ts xs) := by
  unfold ReadsArgs
  rw [readsAll_map fun t ht => bare_reads t (hv t ht) strict d, bare_codeHead]

theorem decode_value [Ext] {types : List TypeStr} {ts : List Ty} (hT : Names types ts) {data : PyVal} {d : Bytes}
    (hd : IsBytes data d) (hl : Fits d) {strict : Bool} {xs : List Val} (hx : Val.OfAll ts xs) :
    decode types data strict = .ok (.tuple (toPyAll ts xs)) ↔ ReadsArgs codeHead strict ts d xs := by
  rw [decode_reads hT hd hl]
  constructor
  · rintro ⟨ys, h1, h2⟩
    injection h2 with h2
    rw [toPyAll_inj hx (readsArgs_of h1) h2]
    exact h1
  · exact fun h => ⟨xs, h, rfl⟩

end EthAbi
