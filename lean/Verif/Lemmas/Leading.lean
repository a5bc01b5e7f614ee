import Verif.Lemmas.Api
import Verif.Lemmas.UnrollRead
import Verif.Lemmas.Shift
import Verif.Lemmas.TupleStr

/-! # Reading the first components of a tuple only -/
namespace EthAbi
open Spec

theorem readsAll_take {mh : List Ty → Nat} {strict : Bool} {ts : List Ty} {d : Bytes} {base lo q : Nat}
    {xs : List Val} (h : ReadsAll mh strict ts d base lo q xs) (k : Nat) :
    ReadsAll mh strict (ts.take k) d base lo q (xs.take k) := by
  induction ts generalizing q xs k with
  | nil =>
    cases xs with
    | nil => simp [ReadsAll]
    | cons x xs => exact h.elim
  | cons t ts ih =>
    cases xs with
    | nil => exact h.elim
    | cons x xs =>
      cases k with
      | zero => simp [ReadsAll]
      | succ k => exact ⟨h.1, ih h.2 k⟩

theorem codeHead_take (ts : List Ty) (k : Nat) : codeHead (ts.take k) ≤ codeHead ts := by
  have h : (ts.take k ++ ts.drop k) = ts := List.take_append_drop k ts
  have : headWordsAll ts = headWordsAll (ts.take k) + headWordsAll (ts.drop k) := by
    conv_lhs => rw [← h]
    simp [headWordsAll]
  simp only [codeHead]
  omega

theorem readsArgs_take {strict : Bool} {ts : List Ty} {d : Bytes} {xs : List Val}
    (h : ReadsArgs codeHead strict ts d xs) (k : Nat) :
    ReadsArgs codeHead strict (ts.take k) d (xs.take k) :=
  readsAll_lo_le (codeHead_take ts k) (readsAll_take h k)

theorem toPyAll_take (ts : List Ty) (xs : List Val) (k : Nat) :
    toPyAll (ts.take k) (xs.take k) = (toPyAll ts xs).take k := by
  induction ts generalizing xs k with
  | nil => cases xs <;> cases k <;> simp [toPyAll]
  | cons t ts ih =>
    cases xs with
    | nil => cases k <;> simp [toPyAll]
    | cons x xs => cases k <;> simp [toPyAll, ih]

/-! ## Static components in two parts -/

theorem readsAll_append {mh : List Ty → Nat} {strict : Bool} {ts us : List Ty} {d : Bytes} {base lo q : Nat}
    {xs : List Val} : ReadsAll mh strict (ts ++ us) d base lo q xs ↔
      ∃ ys zs, xs = ys ++ zs ∧ ReadsAll mh strict ts d base lo q ys ∧
        ReadsAll mh strict us d base lo (q + headBytes ts) zs := by
  induction ts generalizing q xs with
  | nil =>
    constructor
    · intro h
      exact ⟨[], xs, rfl, trivial, by simpa [headBytes] using h⟩
    · rintro ⟨ys, zs, rfl, h1, h2⟩
      cases ys with
      | nil => simpa [headBytes] using h2
      | cons y ys => exact h1.elim
  | cons t ts ih =>
    constructor
    · intro h
      cases xs with
      | nil => exact h.elim
      | cons x xs =>
        obtain ⟨ys, zs, rfl, h1, h2⟩ := ih.1 h.2
        refine ⟨x :: ys, zs, rfl, ⟨h.1, h1⟩, ?_⟩
        simpa [headBytes, Nat.add_assoc] using h2
    · rintro ⟨ys, zs, rfl, h1, h2⟩
      cases ys with
      | nil => exact h1.elim
      | cons y ys =>
        refine ⟨h1.1, ih.2 ⟨ys, zs, rfl, h1.2, ?_⟩⟩
        simpa [headBytes, Nat.add_assoc] using h2

theorem readsAll_base {mh : List Ty → Nat} {strict : Bool} {ts : List Ty} {d : Bytes} {base base' lo lo' q : Nat}
    {xs : List Val} (hs : Ty.anyDynamic ts = false) (h : ReadsAll mh strict ts d base lo q xs) :
    ReadsAll mh strict ts d base' lo' q xs := by
  induction ts generalizing q xs with
  | nil => cases xs with
    | nil => trivial
    | cons x xs => exact h.elim
  | cons t ts ih =>
    simp only [Ty.anyDynamic, Bool.or_eq_false_iff] at hs
    cases xs with
    | nil => exact h.elim
    | cons x xs =>
      refine ⟨?_, ih hs.2 h.2⟩
      have h1 := h.1
      rw [hs.1] at h1 ⊢
      exact h1

theorem anyDynamic_append (ts us : List Ty) :
    Ty.anyDynamic (ts ++ us) = (Ty.anyDynamic ts || Ty.anyDynamic us) := by
  induction ts with
  | nil => rfl
  | cons t ts ih => simp [Ty.anyDynamic, ih, Bool.or_assoc]

/-- Static components: the first ones at the beginning, the others in the rest of the data. -/
theorem readsArgs_static_append {ts us : List Ty} (hs : Ty.anyDynamic ts = false)
    (hs' : Ty.anyDynamic us = false) (hv : ∀ t ∈ ts, t.Valid) {d : Bytes} {xs : List Val} :
    ReadsArgs codeHead true (ts ++ us) d xs ↔ ∃ ys zs, xs = ys ++ zs ∧ ReadsArgs codeHead true ts d ys ∧
      ReadsArgs codeHead true us (d.drop (headBytes ts)) zs := by
  have key : ∀ ys, ReadsArgs codeHead true ts d ys → ∀ zs lo lo', ReadsAll codeHead true us d 0 lo (0 + headBytes ts) zs ↔
      ReadsAll codeHead true us (d.drop (headBytes ts)) 0 lo' 0 zs := by
    intro ys h zs lo lo'
    have hle : headBytes ts ≤ d.length := by
      by_cases hne : ts = []
      · subst hne; simp [headBytes]
      · have := readsAll_head hv h hne
        omega
    have hw : (d.take (headBytes ts)).length = headBytes ts := by simp; omega
    have hsh := readsAll_shift (mh := codeHead) (ts := us) (w := d.take (headBytes ts))
      (d := d.drop (headBytes ts)) (fun t _ => reads_shift t _ _) (base := 0) (lo := lo') (q := 0) (xs := zs)
    rw [hw, List.take_append_drop] at hsh
    constructor
    · intro h
      rw [Nat.zero_add] at h
      exact hsh.1 (readsAll_base hs' h)
    · intro h
      rw [Nat.zero_add]
      exact readsAll_base hs' (hsh.2 h)
  constructor
  · intro h
    obtain ⟨ys, zs, rfl, h1, h2⟩ := readsAll_append.1 h
    have h1' : ReadsArgs codeHead true ts d ys := readsAll_base hs h1
    exact ⟨ys, zs, rfl, h1', (key ys h1' zs _ _).1 h2⟩
  · rintro ⟨ys, zs, rfl, h1, h2⟩
    exact readsAll_append.2 ⟨ys, zs, rfl, readsAll_base hs h1, (key ys h1 zs _ _).2 h2⟩

theorem decode_static_strict [Ext] {types : List TypeStr} {ts : List Ty} (hT : Names types ts)
    (hs : Ty.anyDynamic ts = false) {data : PyVal} {d : Bytes} (hd : IsBytes data d) (hl : Fits d)
    (strict : Bool) : decode types data strict = decode types data true := by
  rw [decode_eq hT (isBytes_iff.1 hd) hl, decode_eq hT (isBytes_iff.1 hd) hl]
  simp only [posTop, posAll_static_strict hs strict]

theorem toPyAll_append {ts us : List Ty} {ys zs : List Val} (h : ys.length = ts.length) :
    toPyAll (ts ++ us) (ys ++ zs) = toPyAll ts ys ++ toPyAll us zs := by
  induction ts generalizing ys with
  | nil => cases ys with
    | nil => simp [toPyAll]
    | cons y ys => simp at h
  | cons t ts ih => cases ys with
    | nil => simp at h
    | cons y ys =>
      simp only [List.length_cons, Nat.add_right_cancel_iff] at h
      simp [toPyAll, ih h]

end EthAbi
