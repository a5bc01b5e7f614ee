import Verif.Lemmas.SpecFacts
import Verif.Lemmas.Pieces
import Verif.Spec.Order
import Mathlib.Data.List.Lex
import Mathlib.Order.Defs.LinearOrder

/-! # The order of encodings -/
namespace EthAbi
open Spec

theorem lt_append {a a' : Bytes} (hl : a.length = a'.length) (h : a < a') (b b' : Bytes) : a ++ b < a' ++ b' := by
  induction a generalizing a' with
  | nil =>
    cases a' with
    | nil => exact absurd h (List.not_lt_nil _)
    | cons _ _ => simp at hl
  | cons x a ih =>
    cases a' with
    | nil => simp at hl
    | cons y a' =>
      rw [List.cons_lt_cons_iff] at h
      rw [List.cons_append, List.cons_append, List.cons_lt_cons_iff]
      exact h.imp id fun ⟨h1, h2⟩ => ⟨h1, ih (by simpa using hl) h2⟩

theorem append_lt (a : Bytes) {b b' : Bytes} (h : b < b') : a ++ b < a ++ b' := by
  induction a with
  | nil => exact h
  | cons x a ih =>
    rw [List.cons_append, List.cons_append, List.cons_lt_cons_iff]
    exact .inr ⟨rfl, ih⟩

theorem bytes_lt_irrefl (a : Bytes) : ¬ a < a := by
  induction a with
  | nil => exact List.not_lt_nil _
  | cons x a ih =>
    rw [List.cons_lt_cons_iff]
    rintro (h | ⟨_, h⟩)
    · exact absurd h (UInt8.lt_irrefl x)
    · exact ih h

theorem bytes_lt_asymm {a b : Bytes} (h : a < b) : ¬ b < a := by
  induction a generalizing b with
  | nil => exact List.not_lt_nil _
  | cons x a ih =>
    cases b with
    | nil => exact absurd h (List.not_lt_nil _)
    | cons y b =>
      rw [List.cons_lt_cons_iff] at h ⊢
      rintro (h' | ⟨h1, h'⟩) <;> rcases h with h | ⟨h2, h⟩
      · rw [UInt8.lt_iff_toNat_lt] at h h'; omega
      · subst h2; exact UInt8.lt_irrefl _ h'
      · subst h1; exact UInt8.lt_irrefl _ h
      · exact ih h h'

theorem bytes_trichotomy (a b : Bytes) : a < b ∨ a = b ∨ b < a := by
  induction a generalizing b with
  | nil =>
    cases b with
    | nil => exact .inr (.inl rfl)
    | cons y b => exact .inl (List.nil_lt_cons _ _)
  | cons x a ih =>
    cases b with
    | nil => exact .inr (.inr (List.nil_lt_cons _ _))
    | cons y b =>
      simp only [List.cons_lt_cons_iff]
      rcases Nat.lt_trichotomy x.toNat y.toNat with h | h | h
      · exact .inl (.inl (UInt8.lt_iff_toNat_lt.2 h))
      · obtain rfl := UInt8.toNat_inj.1 h
        rcases ih b with h1 | rfl | h1
        · exact .inl (.inr ⟨rfl, h1⟩)
        · exact .inr (.inl rfl)
        · exact .inr (.inr (.inr ⟨rfl, h1⟩))
      · exact .inr (.inr (.inl (UInt8.lt_iff_toNat_lt.2 h)))

/-- Big-endian strings of the same length are ordered as their numbers. -/
theorem bytes_lt_of_num {a b : Bytes} (hl : a.length = b.length) (h : bigEndianToInt a < bigEndianToInt b) : a < b := by
  induction a generalizing b with
  | nil =>
    cases b with
    | nil => exact absurd h (Nat.lt_irrefl _)
    | cons _ _ => simp at hl
  | cons x a ih =>
    cases b with
    | nil => simp at hl
    | cons y b =>
      have hl' : a.length = b.length := by simpa using hl
      have e : ∀ (x : UInt8) (a : Bytes), bigEndianToInt (x :: a) = x.toNat * 256 ^ a.length + bigEndianToInt a := by
        intro x a
        have := bigEndianToInt_append [x] a
        simpa [bigEndianToInt] using this
      rw [e, e, hl'] at h
      have ha := bigEndianToInt_lt a
      have hb := bigEndianToInt_lt b
      rw [hl'] at ha
      rw [List.cons_lt_cons_iff]
      rcases Nat.lt_trichotomy x.toNat y.toNat with h1 | h1 | h1
      · exact .inl (UInt8.lt_iff_toNat_lt.2 h1)
      · obtain rfl := UInt8.toNat_inj.1 h1
        exact .inr ⟨rfl, ih hl' (by omega)⟩
      · exfalso
        have : (y.toNat + 1) * 256 ^ b.length ≤ x.toNat * 256 ^ b.length := Nat.mul_le_mul_right _ h1
        rw [Nat.add_mul] at this
        omega

mutual
theorem before_asymm : ∀ x y : Val, Before x y → ¬ Before y x
  | .num _, .num _, h, h' => by simp only [Before] at h h'; omega
  | .raw _, .raw _, h, h' => bytes_lt_asymm h h'
  | .seq xs, .seq ys, h, h' => beforeSeq_asymm xs ys h h'
  | .num _, .raw _, h, _ => h.elim
  | .num _, .text _, h, _ => h.elim
  | .num _, .seq _, h, _ => h.elim
  | .raw _, .num _, h, _ => h.elim
  | .raw _, .text _, h, _ => h.elim
  | .raw _, .seq _, h, _ => h.elim
  | .text _, .num _, h, _ => h.elim
  | .text _, .raw _, h, _ => h.elim
  | .text _, .text _, h, _ => h.elim
  | .text _, .seq _, h, _ => h.elim
  | .seq _, .num _, h, _ => h.elim
  | .seq _, .raw _, h, _ => h.elim
  | .seq _, .text _, h, _ => h.elim
theorem beforeSeq_asymm : ∀ xs ys : List Val, BeforeSeq xs ys → ¬ BeforeSeq ys xs
  | [], _, h, _ => by simp [BeforeSeq] at h
  | _ :: _, [], h, _ => by simp [BeforeSeq] at h
  | x :: xs, y :: ys, h, h' => by
    simp only [BeforeSeq] at h h'
    rcases h with h | ⟨h1, h⟩ <;> rcases h' with h' | ⟨h2, h'⟩
    · exact before_asymm x y h h'
    · subst h2; exact before_asymm _ _ h h
    · subst h1; exact before_asymm _ _ h' h'
    · exact beforeSeq_asymm xs ys h h'
end

theorem beforeSeq_irrefl (xs : List Val) : ¬ BeforeSeq xs xs := fun h => beforeSeq_asymm xs xs h h

/-- Two values compared, and their encodings. -/
def Compared (x y : Val) (a b : Bytes) : Prop :=
  (Before x y ∧ a < b) ∨ (x = y ∧ a = b) ∨ (Before y x ∧ b < a)

/-- The same for sequences. -/
def ComparedSeq (xs ys : List Val) (a b : Bytes) : Prop :=
  (BeforeSeq xs ys ∧ a < b) ∨ (xs = ys ∧ a = b) ∨ (BeforeSeq ys xs ∧ b < a)

theorem ComparedSeq.cons {x y : Val} {xs ys : List Val} {a b a' b' : Bytes} (h : Compared x y a b)
    (hl : a.length = b.length) (h' : ComparedSeq xs ys a' b') :
    ComparedSeq (x :: xs) (y :: ys) (a ++ a') (b ++ b') := by
  rcases h with ⟨h1, h2⟩ | ⟨rfl, rfl⟩ | ⟨h1, h2⟩
  · exact .inl ⟨.inl h1, lt_append hl h2 _ _⟩
  · rcases h' with ⟨h1, h2⟩ | ⟨rfl, rfl⟩ | ⟨h1, h2⟩
    · exact .inl ⟨.inr ⟨rfl, h1⟩, append_lt _ h2⟩
    · exact .inr (.inl ⟨rfl, rfl⟩)
    · exact .inr (.inr ⟨.inr ⟨rfl, h1⟩, append_lt _ h2⟩)
  · exact .inr (.inr ⟨.inl h1, lt_append hl.symm h2 _ _⟩)

theorem ComparedSeq.seq {xs ys : List Val} {a b : Bytes} (h : ComparedSeq xs ys a b) :
    Compared (.seq xs) (.seq ys) a b :=
  h.imp (fun ⟨h1, h2⟩ => ⟨h1, h2⟩) (Or.imp (fun ⟨h1, h2⟩ => ⟨by rw [h1], h2⟩) fun ⟨h1, h2⟩ => ⟨h1, h2⟩)

theorem wordOf_compared {i j : Int} (hi : 0 ≤ i ∧ i < 2 ^ 256) (hj : 0 ≤ j ∧ j < 2 ^ 256) :
    Compared (.num i) (.num j) (wordOf i) (wordOf j) := by
  obtain ⟨m, rfl⟩ := Int.eq_ofNat_of_zero_le hi.1
  obtain ⟨n, rfl⟩ := Int.eq_ofNat_of_zero_le hj.1
  have hm : m < 2 ^ 256 := by exact_mod_cast hi.2
  have hn : n < 2 ^ 256 := by exact_mod_cast hj.2
  rw [wordOf_nat hm, wordOf_nat hn]
  rcases Nat.lt_trichotomy m n with h | rfl | h
  · refine .inl ⟨by simpa [Before] using h, bytes_lt_of_num (by simp) ?_⟩
    rwa [bigEndianToInt_be32 hm, bigEndianToInt_be32 hn]
  · exact .inr (.inl ⟨rfl, rfl⟩)
  · refine .inr (.inr ⟨by simpa [Before] using h, bytes_lt_of_num (by simp) ?_⟩)
    rwa [bigEndianToInt_be32 hm, bigEndianToInt_be32 hn]

theorem raw_compared {a b : Bytes} (hl : a.length = b.length) {pre post : Bytes} :
    Compared (.raw a) (.raw b) (pre ++ a ++ post) (pre ++ b ++ post) := by
  rcases bytes_trichotomy a b with h | rfl | h
  · refine .inl ⟨h, ?_⟩
    rw [List.append_assoc, List.append_assoc]
    exact append_lt _ (lt_append hl h _ _)
  · exact .inr (.inl ⟨rfl, rfl⟩)
  · refine .inr (.inr ⟨h, ?_⟩)
    rw [List.append_assoc, List.append_assoc]
    exact append_lt _ (lt_append hl.symm h _ _)

theorem Ty.Unsigned.static (t : Ty) : t.Unsigned → t.dynamic = false := by
  refine Spec.Ty.ind (P := fun t => t.Unsigned → t.dynamic = false) ?_ ?_ ?_ ?_ ?_ ?_ ?_ ?_ ?_ ?_ ?_ ?_ t
  iterate 7 (intros; rfl)
  · intro h; cases h
  · intro h; cases h
  · intro k t ih h; exact ih h
  · intro t _ h; cases h
  · intro ts ih h
    show Ty.anyDynamic ts = false
    rw [show (Ty.tuple ts).Unsigned = Ty.AllUnsigned ts from rfl] at h
    induction ts with
    | nil => rfl
    | cons t ts ih' =>
      rw [Ty.anyDynamic, ih t (by simp) h.1, ih' (fun t ht => ih t (by simp [ht])) h.2]
      rfl

theorem allUnsigned_iff {ts : List Ty} : Ty.AllUnsigned ts ↔ ∀ t ∈ ts, t.Unsigned := by
  induction ts with
  | nil => simp [Ty.AllUnsigned]
  | cons t ts ih => simp [Ty.AllUnsigned, ih]

theorem pow_le_256 {n : Nat} (h : n ≤ 256) : (2 : Int) ^ n ≤ 2 ^ 256 := pow_le_pow_right₀ (by decide) h

/-- Tuples of static types. -/
theorem encAll_compared {ts : List Ty} (hv : ∀ t ∈ ts, t.Valid) (hu : ∀ t ∈ ts, t.Unsigned)
    (ih : ∀ t ∈ ts, ∀ x y, Val.Of t x → Val.Of t y → Compared x y (enc t x) (enc t y)) {xs ys : List Val}
    (hx : Val.OfAll ts xs) (hy : Val.OfAll ts ys) :
    ComparedSeq xs ys (layout (encAll ts xs)) (layout (encAll ts ys)) := by
  have hst : ∀ xs, ∀ a ∈ encAll ts xs, a.1 = false := by
    clear hx hy ih hv
    induction ts with
    | nil => intro xs a ha; cases xs <;> simp [encAll] at ha
    | cons t ts ih =>
      intro xs a ha
      cases xs with
      | nil => simp [encAll] at ha
      | cons x xs =>
        simp only [encAll, List.mem_cons] at ha
        rcases ha with rfl | ha
        · exact Ty.Unsigned.static t (hu t (by simp))
        · exact ih (fun t ht => hu t (by simp [ht])) xs a ha
  rw [layout_static (hst xs), layout_static (hst ys)]
  clear hst
  induction ts generalizing xs ys with
  | nil =>
    cases xs with
    | cons _ _ => exact hx.elim
    | nil =>
      cases ys with
      | cons _ _ => exact hy.elim
      | nil => exact .inr (.inl ⟨rfl, rfl⟩)
  | cons t ts ih' =>
    cases xs with
    | nil => exact hx.elim
    | cons x xs =>
      cases ys with
      | nil => exact hy.elim
      | cons y ys =>
        simp only [encAll, List.map_cons, List.flatten_cons]
        have hs := Ty.Unsigned.static t (hu t (by simp))
        refine ComparedSeq.cons (ih t (by simp) x y hx.1 hy.1) ?_ (ih' (fun t ht => hv t (by simp [ht]))
          (fun t ht => hu t (by simp [ht])) (fun t ht => ih t (by simp [ht])) hx.2 hy.2)
        rw [(enc_length t (hv t (by simp)) x hx.1).2.2 hs, (enc_length t (hv t (by simp)) y hy.1).2.2 hs]

/-- Arrays of static types. -/
theorem encMany_compared {t : Ty} (hv : t.Valid) (hu : t.Unsigned)
    (ih : ∀ x y, Val.Of t x → Val.Of t y → Compared x y (enc t x) (enc t y)) {xs ys : List Val}
    (hl : xs.length = ys.length) (hx : ∀ x ∈ xs, Val.Of t x) (hy : ∀ y ∈ ys, Val.Of t y) :
    ComparedSeq xs ys (layout (xs.map fun v => (t.dynamic, enc t v))) (layout (ys.map fun v => (t.dynamic, enc t v))) := by
  have hs := Ty.Unsigned.static t hu
  rw [layout_static (by simp [hs]), layout_static (by simp [hs])]
  induction xs generalizing ys with
  | nil =>
    cases ys with
    | cons _ _ => simp at hl
    | nil => exact .inr (.inl ⟨rfl, rfl⟩)
  | cons x xs ih' =>
    cases ys with
    | nil => simp at hl
    | cons y ys =>
      simp only [List.map_cons, List.flatten_cons]
      refine ComparedSeq.cons (ih x y (hx x (by simp)) (hy y (by simp))) ?_ (ih' (by simpa using hl)
        (fun x h => hx x (by simp [h])) (fun y h => hy y (by simp [h])))
      rw [(enc_length t hv x (hx x (by simp))).2.2 hs, (enc_length t hv y (hy y (by simp))).2.2 hs]

theorem enc_compared (t : Ty) : t.Valid → t.Unsigned → ∀ x y, Val.Of t x → Val.Of t y →
    Compared x y (enc t x) (enc t y) := by
  refine Spec.Ty.ind (P := fun t => t.Valid → t.Unsigned → ∀ x y, Val.Of t x → Val.Of t y →
    Compared x y (enc t x) (enc t y)) ?_ ?_ ?_ ?_ ?_ ?_ ?_ ?_ ?_ ?_ ?_ ?_ t
  · intro n hv _ x y hx hy
    cases x <;> simp only [Val.Of] at hx
    cases y <;> simp only [Val.Of] at hy
    have := pow_le_256 hv.2.1
    exact wordOf_compared ⟨hx.1, hx.2.trans_le this⟩ ⟨hy.1, hy.2.trans_le this⟩
  · intro n _ h; cases h
  · intro _ _ x y hx hy
    cases x <;> simp only [Val.Of] at hx
    cases y <;> simp only [Val.Of] at hy
    simpa only [enc, List.append_nil] using raw_compared (hx.trans hy.symm) (pre := List.replicate 12 0) (post := [])
  · intro _ _ x y hx hy
    cases x <;> simp only [Val.Of] at hx
    cases y <;> simp only [Val.Of] at hy
    refine wordOf_compared ?_ ?_
    · rcases hx with rfl | rfl <;> decide
    · rcases hy with rfl | rfl <;> decide
  · intro m n hv _ x y hx hy
    cases x <;> simp only [Val.Of] at hx
    cases y <;> simp only [Val.Of] at hy
    have := pow_le_256 hv.1.2.1
    exact wordOf_compared ⟨hx.1, hx.2.trans_le this⟩ ⟨hy.1, hy.2.trans_le this⟩
  · intro m n _ h; cases h
  · intro m _ _ x y hx hy
    cases x <;> simp only [Val.Of] at hx
    cases y <;> simp only [Val.Of] at hy
    rename_i a b
    have := raw_compared (hx.trans hy.symm) (pre := []) (post := List.replicate ((32 - a.length % 32) % 32) 0)
    simp only [enc, padRight32, hx, hy] at this ⊢
    exact this
  · intro _ h; cases h
  · intro _ h; cases h
  · intro k t ih hv hu x y hx hy
    cases x <;> simp only [Val.Of] at hx
    cases y <;> simp only [Val.Of] at hy
    exact (encMany_compared hv.2 hu (ih hv.2 hu) (hx.1.trans hy.1.symm) hx.2 hy.2).seq
  · intro t _ _ h; cases h
  · intro ts ih hv hu x y hx hy
    cases x <;> simp only [Val.Of] at hx
    cases y <;> simp only [Val.Of] at hy
    have hv' := Ty.allValid_iff.1 hv.2
    have hu' := allUnsigned_iff.1 hu
    exact (encAll_compared hv' hu' (fun t ht => ih t ht (hv' t ht) (hu' t ht)) hx hy).seq

end EthAbi
