import Verif.Lemmas.LeafSpec
import Verif.Lemmas.Residue
import Verif.Spec.Fault

/-! # What is wrong with an argument -/
namespace EthAbi
open Spec

/-- The outcome of validation. -/
noncomputable def faulted [Ext] : Option (PyVal × Exc) → PyM Unit
  | none => .ok ()
  | some f => .error (raised f)

theorem raised_of [Ext] {v : PyVal} {e : Exc} (h : e ≠ .typeError) : raised (v, e) = shown v e := by
  rw [raised, if_neg h, shown_quoting]

theorem fracLt_cross (n : Int) (d : Nat) (x : Dec10) : fracLt n d x = true ↔ (n : ℚ) < x.V * d := by
  unfold fracLt Dec10.V
  split
  · next h =>
    rw [decide_eq_true_eq]
    conv_rhs => rw [show x.2 = (x.2.toNat : Int) by omega, zpow_natCast]
    exact_mod_cast Iff.rfl
  · next h =>
    rw [decide_eq_true_eq, show x.2 = -((-x.2).toNat : Int) by omega, zpow_neg, zpow_natCast]
    generalize (-x.2).toNat = k
    rw [neg_neg, Int.toNat_natCast, mul_right_comm, ← div_eq_mul_inv, lt_div_iff₀ (by positivity)]
    exact_mod_cast Iff.rfl

theorem fracGt_cross (n : Int) (d : Nat) (x : Dec10) : fracGt n d x = true ↔ x.V * d < (n : ℚ) := by
  unfold fracGt Dec10.V
  split
  · next h =>
    rw [decide_eq_true_eq]
    conv_rhs => rw [show x.2 = (x.2.toNat : Int) by omega, zpow_natCast]
    exact_mod_cast Iff.rfl
  · next h =>
    rw [decide_eq_true_eq, show x.2 = -((-x.2).toNat : Int) by omega, zpow_neg, zpow_natCast]
    generalize (-x.2).toNat = k
    rw [neg_neg, Int.toNat_natCast, mul_right_comm, ← div_eq_mul_inv, div_lt_iff₀ (by positivity)]
    exact_mod_cast Iff.rfl

theorem small_of {n : Nat} {L U x : Dec10} {lo hi : Int} (hL : L.V = lo * (10 : ℚ) ^ (-(n : Int)))
    (hU : U.V = hi * (10 : ℚ) ^ (-(n : Int))) (hlo : -2 ^ 256 ≤ lo) (hhi : hi ≤ 2 ^ 256) (h1 : L.V ≤ x.V)
    (h2 : x.V ≤ U.V) : |x.V| < (10 : ℚ) ^ (999 : Int) * 10 ^ (-(n : Int)) := by
  have h10 : (0 : ℚ) < (10 : ℚ) ^ (-(n : Int)) := ten_zpow_pos _
  have hp78 : (2 : ℚ) ^ 256 < 10 ^ (999 : Int) := by
    have h1 : (2 : ℚ) ^ 256 < 10 ^ (78 : Int) := by norm_num
    exact lt_trans h1 (zpow_lt_zpow_right₀ (by norm_num) (by norm_num))
  obtain ⟨B, hB⟩ : ∃ B : ℚ, B = 10 ^ (999 : Int) := ⟨_, rfl⟩
  have hloq : -(2 : ℚ) ^ 256 ≤ lo := by exact_mod_cast hlo
  have hhiq : (hi : ℚ) ≤ 2 ^ 256 := by exact_mod_cast hhi
  rw [← hB] at hp78
  generalize (2 : ℚ) ^ 256 = C at hp78 hloq hhiq
  have hloB : -B < lo := by linarith
  have hhiB : (hi : ℚ) < B := by linarith
  rw [hL] at h1
  rw [hU] at h2
  rw [← hB, abs_lt]
  have h3 := mul_lt_mul_of_pos_right hloB h10
  have h4 := mul_lt_mul_of_pos_right hhiB h10
  constructor <;> linarith

theorem fixed_fault [Ext] {n : Nat} (hn : n ≤ 80) {L U : Dec10} {lo hi : Int}
    (hL : L.V = lo * (10 : ℚ) ^ (-(n : Int))) (hU : U.V = hi * (10 : ℚ) ^ (-(n : Int)))
    (hlo : -2 ^ 256 ≤ lo) (hlo0 : lo ≤ 0) (hhi0 : 0 ≤ hi) (hhi : hi ≤ 2 ^ 256) (v : PyVal) :
    fixedValidate (.ok (L, U)) n v = faulted ((fixedFault lo hi n v).map fun e => (v, e)) := by
  have number : ∀ x, number? v = some x → fixedValidate (.ok (L, U)) n v = faulted (Option.map (fun e => (v, e))
      (if decValue x < lo * 10 ^ (-(n : Int)) ∨ hi * 10 ^ (-(n : Int)) < decValue x then some .valueOutOfBounds
      else if 0 < decValue x ∧
          10 ^ (-1000997 : Int) / 2 < decValue x - ⌊decValue x * 10 ^ n⌋ * 10 ^ (-(n : Int)) then some .illegalValue
      else none)) := by
    intro x hx
    rw [fixedValidate_number _ n hx, ok_bind]
    by_cases hb : (decLt x L || decLt U x) = true
    · rw [if_pos hb, if_pos]
      · exact congrArg _ (raised_of (by decide)).symm
      · rwa [Bool.or_eq_true, decLt_iff, decLt_iff, hL, hU] at hb
    · rw [if_neg hb, if_neg (by rwa [Bool.or_eq_true, decLt_iff, decLt_iff, hL, hU] at hb)]
      rw [Bool.or_eq_true, decLt_iff, decLt_iff, not_or, not_lt, not_lt] at hb
      obtain ⟨r, hr, hneg, _⟩ := decRem_spec hn (small_of hL hU hlo hhi hb.1 hb.2)
      rw [hr, ok_bind]
      have key : 0 < r.1 ↔ 0 < decValue x ∧
          10 ^ (-1000997 : Int) / 2 < decValue x - ⌊decValue x * 10 ^ n⌋ * 10 ^ (-(n : Int)) := by
        rcases lt_or_ge 0 x.V with h0 | h0
        · rw [decRem_pos hn h0.le hr]
          exact ⟨fun h => ⟨h0, h⟩, fun h => h.2⟩
        · have := hneg h0
          exact ⟨fun h => by omega, fun h => absurd h.1 (not_lt.2 h0)⟩
      by_cases h : 0 < r.1
      · rw [if_pos h, if_pos (key.1 h)]
        exact congrArg _ (raised_of (by decide)).symm
      · rw [if_neg h, if_neg (fun h' => h (key.2 h'))]
        rfl
  cases v with
  | dec d =>
    cases d with
    | fin m e => exact number _ rfl
    | nan =>
      have h : fixedValidate (.ok (L, U)) n (.dec .nan) = invalidateValue (.dec .nan) .illegalValue := rfl
      rw [h, invalidate_eq, ← raised_of (by decide)]
      rfl
    | inf b =>
      have h : fixedValidate (.ok (L, U)) n (.dec (.inf b)) = invalidateValue (.dec (.inf b)) .illegalValue := rfl
      rw [h, invalidate_eq, ← raised_of (by decide)]
      rfl
  | int i => exact number _ rfl
  | bool b => exact number _ rfl
  | complex =>
    have h : raised (.complex, .typeError) = .typeError := if_pos rfl
    show _ = Except.error (raised _)
    rw [h]
    rfl
  | fraction a d =>
    have h1 : fixedValidate (.ok (L, U)) n (.fraction a d) = oddValidate (.ok (L, U)) (.fraction a d) := rfl
    rw [h1]
    simp only [oddValidate, ok_bind, invalidate_eq, fixedFault, Bool.or_eq_true, fracLt_cross, fracGt_cross, hL, hU]
    split
    · exact congrArg _ (raised_of (by decide)).symm
    · exact congrArg _ (if_pos rfl).symm
  | _ => exact congrArg (· >>= _) (invalidate_eq _ _) |>.trans (congrArg _ (raised_of (by decide)).symm)


/-- Neither an array nor a tuple. -/
def elementary : Ty → Bool
  | .sized _ _ => false
  | .dyn _ => false
  | .tuple _ => false
  | _ => true

theorem int_fault [Ext] {lo hi : Int} (hlo : PrintableInt lo) (hhi : PrintableInt hi) (v : PyVal) :
    intValidate (lo, hi) v = faulted (Option.map (fun e => (v, e)) (match v with
      | .int i => if lo ≤ i ∧ i ≤ hi then none else some .valueOutOfBounds
      | _ => some .encodingTypeError)) := by
  cases v with
  | int i =>
    simp only
    split
    · next h => rw [intValidate_ok h.1 h.2]; rfl
    · next h =>
      rw [intValidate_out (by omega) hlo hhi, ← raised_of (by decide)]
      rfl
  | _ => exact (invalidate_eq _ _).trans (congrArg _ (raised_of (by decide)).symm)

theorem leaf_fault [Ext] {t : Ty} (hv : t.Valid) (hl : elementary t = true) (v : PyVal) :
    (encOf false t).validateValue v = faulted ((leafFault t v).map fun e => (v, e)) := by
  have bad : ∀ e : Exc, e ≠ .typeError → invalidateValue v e = faulted ((some e).map fun e => (v, e)) := by
    intro e he
    rw [invalidate_eq, ← raised_of he]
    rfl
  cases t with
  | uint n =>
    obtain ⟨_, hn, _⟩ : validBits n := hv
    have hp : (2 : Int) ^ n ≤ 2 ^ 256 := pow_le_pow_right₀ (by norm_num) hn
    have hp0 : (0 : Int) < 2 ^ n := by positivity
    have h1 : (encOf false (.uint n)).validateValue v = intValidate (0, 2 ^ n - 1) v := rfl
    rw [h1, int_fault printable_zero (printable_bound (by omega) (by omega))]
    cases v with
    | int i =>
      simp only [leafFault]
      congr 2
      by_cases h : 0 ≤ i ∧ i < 2 ^ n
      · rw [if_pos h, if_pos (by omega)]
      · rw [if_neg h, if_neg (by omega)]
    | _ => rfl
  | int n =>
    obtain ⟨_, hn, _⟩ : validBits n := hv
    have hp : (2 : Int) ^ (n - 1) ≤ 2 ^ 256 := pow_le_pow_right₀ (by norm_num) (by omega)
    have hp0 : (0 : Int) < 2 ^ (n - 1) := by positivity
    have h1 : (encOf false (.int n)).validateValue v = intValidate (computeSignedIntegerBounds n) v := rfl
    rw [show computeSignedIntegerBounds n = (-2 ^ (n - 1), 2 ^ (n - 1) - 1) by simp [computeSignedIntegerBounds]] at h1
    rw [h1, int_fault (printable_bound (by omega) (by omega)) (printable_bound (by omega) (by omega))]
    cases v with
    | int i =>
      simp only [leafFault]
      congr 2
      by_cases h : -2 ^ (n - 1) ≤ i ∧ i < 2 ^ (n - 1)
      · rw [if_pos h, if_pos (by omega)]
      · rw [if_neg h, if_neg (by omega)]
    | _ => rfl
  | ufixed m n =>
    obtain ⟨L, U, hval, hn, hL, hU, h1, h2, h3, h4⟩ := fixed_bounds hv (.inl ⟨m, rfl, rfl, rfl⟩)
    rw [hval, fixed_fault hn hL hU h1 h2 h3 h4]
    rfl
  | fixed m n =>
    obtain ⟨L, U, hval, hn, hL, hU, h1, h2, h3, h4⟩ := fixed_bounds hv (.inr ⟨m, rfl, rfl, rfl⟩)
    rw [hval, fixed_fault hn hL hU h1 h2 h3 h4]
    rfl
  | bool => cases v <;> first | rfl | exact bad _ (by decide)
  | address =>
    have h1 : (encOf false .address).validateValue v = addressValidate v := rfl
    have h2 : leafFault .address v = if (address? v).isSome then none else some .encodingTypeError := rfl
    rw [h1, h2, addressValidate]
    cases ha : address? v with
    | none =>
      rw [(address_eq v).2 ha]
      exact bad _ (by decide)
    | some a =>
      rw [((address_eq v).1 a ha).1]
      rfl
  | bytesM m =>
    have h1 : (encOf false (.bytesM m)).validateValue v = bytesMValidate (m * 8) v := rfl
    rw [h1]
    have key : ∀ b, asBytes? v = some b → bytesMValidate (m * 8) v = faulted (Option.map (fun e => (v, e))
        (if b.length ≤ m then none else some .valueOutOfBounds)) := by
      intro b hb
      simp only [bytesMValidate, hb]
      by_cases h : b.length ≤ m
      · rw [if_pos h, if_neg (by omega)]; rfl
      · rw [if_neg h, if_pos (by omega)]; exact bad _ (by decide)
    cases v <;> first | exact key _ rfl | exact bad _ (by decide)
  | bytes => cases v <;> first | rfl | exact bad _ (by decide)
  | string => cases v <;> first | rfl | exact bad _ (by decide)
  | sized k t => cases hl
  | dyn t => cases hl
  | tuple ts => cases hl

theorem faulted_or [Ext] (a b : Option (PyVal × Exc)) : faulted (a.or b) = (faulted a >>= fun _ => faulted b) := by
  cases a <;> rfl

theorem items_fault [Ext] {t : Ty} {e : Encoder} (h : ∀ v, e.validateValue v = faulted (fault t v)) (vs : List PyVal) :
    arrayValidateItems e vs = faulted (vs.findSome? (fault t)) := by
  induction vs with
  | nil => rfl
  | cons v vs ih =>
    rw [arrayValidateItems, h, ih, List.findSome?_cons]
    cases fault t v <;> rfl

theorem bad_fault [Ext] (v : PyVal) {e : Exc} (he : e ≠ .typeError) : invalidateValue v e = faulted (some (v, e)) := by
  rw [invalidate_eq, ← raised_of he]
  rfl

theorem array_fault [Ext] {t : Ty} {e : Encoder} (h : ∀ v, e.validateValue v = faulted (fault t v)) (v : PyVal) :
    arrayValidate e v = faulted (match asListLike? v with
      | none => some (v, .encodingTypeError)
      | some vs => vs.findSome? (fault t)) := by
  unfold arrayValidate
  cases asListLike? v with
  | none => exact bad_fault v (by decide)
  | some vs => exact items_fault h vs

theorem sized_fault [Ext] {t : Ty} {e : Encoder} (h : ∀ v, e.validateValue v = faulted (fault t v)) (k : Nat)
    (v : PyVal) : sizedArrayValidate e (some k) v = faulted (fault (.sized k t) v) := by
  unfold sizedArrayValidate
  rw [array_fault h, fault]
  cases hv : asListLike? v with
  | none => rfl
  | some vs =>
    simp only [faulted_or]
    cases faulted (vs.findSome? (fault t)) with
    | error e => rfl
    | ok u =>
      have hlen : pyLen v = .ok vs.length := by cases v <;> cases hv <;> rfl
      simp only [ok_bind, hlen]
      by_cases hk : vs.length = k
      · rw [if_pos hk, if_neg (by simpa using hk)]; rfl
      · rw [if_neg hk, if_pos hk]; exact bad_fault v (by decide)

theorem tuple_fault [Ext] {ts : List Ty} (hv : ∀ t ∈ ts, t.Valid)
    (h : ∀ t ∈ ts, ∀ v, (encOf false t).validateValue v = faulted (fault t v)) (v : PyVal) :
    tupleValidate (encsOf false ts) v = faulted (fault (.tuple ts) v) := by
  unfold tupleValidate
  rw [fault, encsOf_length]
  cases asListLike? v with
  | none => exact bad_fault v (by decide)
  | some vs =>
    simp only
    by_cases hk : vs.length = ts.length
    · rw [if_pos hk, if_neg (by simpa using hk)]
      clear hk
      induction ts generalizing vs with
      | nil => cases vs <;> rfl
      | cons t ts ih =>
        cases vs with
        | nil => rfl
        | cons u us =>
          rw [encsOf, tupleValidateItems, (encOf_good false t (hv t (by simp))).validateOrCall_eq, h t (by simp),
            ih (fun t ht => hv t (by simp [ht])) (fun t ht => h t (by simp [ht])), faultAny, faulted_or]
    · rw [if_neg hk, if_pos hk]; exact bad_fault v (by decide)

/-- Validation finds the first fault. -/
theorem validate_fault [Ext] (pk : Bool) (t : Ty) (hv : t.Valid) (v : PyVal) :
    (encOf pk t).validateValue v = faulted (fault t v) := by
  have key : ∀ v, (encOf false t).validateValue v = faulted (fault t v) := by
    revert hv
    refine Spec.Ty.ind (P := fun t => t.Valid → ∀ v, (encOf false t).validateValue v = faulted (fault t v))
      ?_ ?_ ?_ ?_ ?_ ?_ ?_ ?_ ?_ ?_ ?_ ?_ t
    iterate 9
      intros
      rename_i hv v
      exact leaf_fault hv rfl v
    · intro k t ih hv v
      simp only [Ty.Valid] at hv
      exact sized_fault (ih hv.2) k v
    · intro t ih hv v
      simp only [Ty.Valid] at hv
      exact array_fault (ih hv) v
    · intro ts ih hv v
      simp only [Ty.Valid, Spec.Ty.allValid_iff] at hv
      exact tuple_fault hv.2 (fun t ht => ih t ht (hv.2 t ht)) v
  cases pk
  · exact key v
  · rw [validate_packed t hv, key]

end EthAbi
