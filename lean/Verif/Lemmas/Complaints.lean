import Verif.Props.Fault
import Verif.Spec.Complaints

/-! # What the exceptions of `encode` say -/
namespace EthAbi
open Spec

/-! ## The type at fault -/

theorem faultAt_fault [Ext] (t : Ty) : ∀ v, (faultAt t v).map (·.2) = fault t v := by
  have find : ∀ {t : Ty}, (∀ v, (faultAt t v).map (·.2) = fault t v) → ∀ vs : List PyVal,
      (vs.findSome? (faultAt t)).map (·.2) = vs.findSome? (fault t) := by
    intro t ih vs
    induction vs with
    | nil => rfl
    | cons v vs ih2 =>
      rw [List.findSome?_cons, List.findSome?_cons, ← ih v]
      cases faultAt t v with
      | none => exact ih2
      | some f => rfl
  refine Spec.Ty.ind (P := fun t => ∀ v, (faultAt t v).map (·.2) = fault t v)
    ?_ ?_ ?_ ?_ ?_ ?_ ?_ ?_ ?_ ?_ ?_ ?_ t
  iterate 9
    intros
    simp only [faultAt, fault, Option.map_map]
    rfl
  · intro k t ih v
    rw [faultAt, fault]
    cases asListLike? v with
    | none => rfl
    | some vs =>
      simp only
      rw [← find ih vs]
      cases vs.findSome? (faultAt t) with
      | none => by_cases h : vs.length = k <;> simp [h]
      | some f => rfl
  · intro t ih v
    rw [faultAt, fault]
    cases asListLike? v with
    | none => rfl
    | some vs => exact find ih vs
  · intro ts ih v
    rw [faultAt, fault]
    cases asListLike? v with
    | none => rfl
    | some vs =>
      simp only
      split
      · next h =>
        clear h
        induction ts generalizing vs with
        | nil => cases vs <;> rfl
        | cons t ts ih2 =>
          cases vs with
          | nil => rfl
          | cons w ws =>
            rw [faultAtAny, faultAny, ← ih t (by simp) w, ← ih2 (fun t ht => ih t (by simp [ht])) ws]
            cases faultAt t w <;> rfl
      · rfl

/-! ## The complaint about a fault -/

/-- What is said about a fault. -/
def Blamed [Ext] (pk : Bool) : Option (Ty × PyVal × Exc) → Option Complaint → Prop
  | none, c => c = none
  | some (u, w, e), c => (e = .typeError ∧ c = none) ∨
      (e ≠ .typeError ∧ ∃ r, Because u w e r ∧ c = complain (className pk u) w r)

theorem Blamed.no [Ext] {pk : Bool} {u : Ty} {w : PyVal} {e : Exc} {r : Reason} (he : e ≠ .typeError) (h : Because u w e r)
    {c : Option Complaint} (hc : c = complain (className pk u) w r) : Blamed pk (some (u, w, e)) c :=
  .inr ⟨he, r, h, hc⟩

/-- The encoder object of a type, with what it says. -/
structure BlamesGood [Ext] (pk : Bool) (t : Ty) (c : Blaming) : Prop where
  enc : c.enc = encOf pk t
  blames : ∀ v, Blamed pk (faultAt t v) (c.blames v)

/-! ## Elementary types -/

theorem decRem_exact {n : Nat} (hn : n ≤ 80) {x : Dec10} (h0 : 0 ≤ x.V) (he : -999 ≤ x.2) {r : Dec10}
    (hr : decRem x (tenPowNeg n) = .ok r) : r.V = x.V - (⌊x.V * 10 ^ n⌋ : ℚ) * 10 ^ (-(n : Int)) := by
  obtain ⟨m, e⟩ := x
  obtain ⟨f, hf⟩ : ∃ f, f = min e (-(n : Int)) := ⟨_, rfl⟩
  have hdef : decRem (m, e) (tenPowNeg n) =
      if 10 ^ abiDecimalPrec ≤
          ((m * 10 ^ (e - f).toNat).tdiv (1 * 10 ^ (-(n : Int) - f).toNat)).natAbs then
        .error .decimalInvalidOperation
      else ctxFinal ((m * 10 ^ (e - f).toNat).tmod (1 * 10 ^ (-(n : Int) - f).toNat), f) := by
    subst hf; rfl
  rw [hdef] at hr
  clear hdef
  have hXV : Dec10.V (m, e) = ((m * 10 ^ (e - f).toNat : Int) : ℚ) * 10 ^ f :=
    V_shift m e f (by omega)
  have hYV : (10 : ℚ) ^ (-(n : Int)) = ((1 * 10 ^ (-(n : Int) - f).toNat : Int) : ℚ) * 10 ^ f := by
    have := V_shift 1 (-(n : Int)) f (by omega)
    rw [Dec10.V] at this
    simpa using this
  have hYpos : (0 : Int) < 1 * 10 ^ (-(n : Int) - f).toNat := by positivity
  have hYle : (1 * 10 ^ (-(n : Int) - f).toNat : Int) ≤ 10 ^ 999 := by
    rw [one_mul]
    simp only at he
    exact pow_le_pow_right₀ (by norm_num) (by omega)
  have hm : 0 ≤ m := (V_nonneg_iff (m, e)).1 h0
  have hX0 : 0 ≤ m * 10 ^ (e - f).toNat := mul_nonneg hm (by positivity)
  generalize m * 10 ^ (e - f).toNat = X at *
  generalize (1 * 10 ^ (-(n : Int) - f).toNat : Int) = Y at *
  have hYq : (0 : ℚ) < Y := by exact_mod_cast hYpos
  have h10 := ten_zpow_pos f
  have hdiv : Dec10.V (m, e) * 10 ^ n = (X : ℚ) / Y := by
    rw [eq_div_iff hYq.ne', hXV]
    have h1 : (10 : ℚ) ^ n * 10 ^ (-(n : Int)) = 1 := by
      rw [← zpow_natCast, ← zpow_add₀ (by norm_num)]; simp
    rw [hYV] at h1
    rw [show (X : ℚ) * 10 ^ f * 10 ^ n * Y = X * (10 ^ n * (Y * 10 ^ f)) by ring, h1, mul_one]
  have hfl : ⌊Dec10.V (m, e) * 10 ^ n⌋ = X / Y := by
    rw [hdiv]
    obtain ⟨y, rfl⟩ : ∃ y : Nat, Y = y := ⟨Y.toNat, by omega⟩
    rw [Int.cast_natCast]
    exact Rat.floor_intCast_div_natCast X y
  split at hr
  · cases hr
  · have hmod : X.tmod Y = X % Y := Int.tmod_eq_emod_of_nonneg hX0
    rw [hmod] at hr
    have h1 := Int.emod_nonneg X hYpos.ne'
    have h2 := Int.emod_lt_of_pos X hYpos
    have hlt : (X % Y).natAbs < 10 ^ 999 := by
      have : ((X % Y).natAbs : Int) < ((10 ^ 999 : Nat) : Int) := by
        rw [Int.natAbs_of_nonneg h1]
        push_cast
        exact lt_of_lt_of_le h2 hYle
      exact_mod_cast this
    have hft : decEtiny ≤ f := by
      simp only at he
      have : decEtiny ≤ -999 := by decide
      omega
    rw [ctxFinal_id hlt hft (by omega)] at hr
    cases hr
    rw [hfl, hXV, hYV, Dec10.V]
    have := Int.emod_add_mul_ediv X Y
    have hq : ((X % Y : Int) : ℚ) + Y * ((X / Y : Int) : ℚ) = X := by exact_mod_cast this
    simp only
    rw [← hq]
    ring

theorem fixed_blames [Ext] {pk : Bool} {t : Ty} {m n : Nat} {lo hi : Int} (ht : FixedType t m n lo hi) (hn : n ≤ 80)
    {L U : Dec10} (hL : L.V = lo * (10 : ℚ) ^ (-(n : Int))) (hU : U.V = hi * (10 : ℚ) ^ (-(n : Int)))
    (hlo : -2 ^ 256 ≤ lo) (hhi : hi ≤ 2 ^ 256) (v : PyVal) :
    Blamed pk ((fixedFault lo hi n v).map fun e => (t, v, e))
      (Blaming.fixed (className pk t) m (.ok (L, U)) n v) := by
  have hwrong : Because t v .encodingTypeError .plain := by
    refine .wrong ?_ ?_ ?_ <;> intros <;> cases ht <;> simp
  have number : ∀ x, number? v = some x → asDec10? v = some x → (isNumber v && v != .float) = true →
      Blamed pk (Option.map (fun e => (t, v, e))
      (if decValue x < lo * 10 ^ (-(n : Int)) ∨ hi * 10 ^ (-(n : Int)) < decValue x then some .valueOutOfBounds
      else if 0 < decValue x ∧
          10 ^ (-1000997 : Int) / 2 < decValue x - ⌊decValue x * 10 ^ n⌋ * 10 ^ (-(n : Int)) then some .illegalValue
      else none)) (Blaming.fixed (className pk t) m (.ok (L, U)) n v) := by
    intro x hx hx' hnum
    unfold Blaming.fixed
    rw [hnum]
    simp only [Bool.not_true, Bool.false_eq_true, if_false, hx']
    by_cases hb : (decLt x L || decLt U x) = true
    · rw [if_pos hb, if_pos]
      · exact .no (by decide) (.fixed ht hL hU) rfl
      · rwa [Bool.or_eq_true, decLt_iff, decLt_iff, hL, hU] at hb
    · rw [if_neg hb, if_neg (by rwa [Bool.or_eq_true, decLt_iff, decLt_iff, hL, hU] at hb)]
      rw [Bool.or_eq_true, decLt_iff, decLt_iff, not_or, not_lt, not_lt] at hb
      obtain ⟨r, hr, hneg, _⟩ := decRem_spec hn (small_of hL hU hlo hhi hb.1 hb.2)
      rw [hr]
      simp only
      have key : 0 < r.1 ↔ 0 < decValue x ∧
          10 ^ (-1000997 : Int) / 2 < decValue x - ⌊decValue x * 10 ^ n⌋ * 10 ^ (-(n : Int)) := by
        rcases lt_or_ge 0 x.V with h0 | h0
        · rw [decRem_pos hn h0.le hr]
          exact ⟨fun h => ⟨h0, h⟩, fun h => h.2⟩
        · have := hneg h0
          exact ⟨fun h => by omega, fun h => absurd h.1 (not_lt.2 h0)⟩
      by_cases h : 0 < r.1
      · rw [if_pos h, if_pos (key.1 h)]
        refine .no (by decide) (.places ht hx ?_ fun he => ?_) rfl
        · show 0 < (r.1 : ℚ) * 10 ^ r.2
          have : (0 : ℚ) < r.1 := by exact_mod_cast h
          exact mul_pos this (ten_zpow_pos _)
        · exact decRem_exact hn (key.1 h).1.le he hr
      · rw [if_neg h, if_neg (fun h' => h (key.2 h'))]
        rfl
  cases v with
  | dec d =>
    cases d with
    | fin m e => exact number _ rfl rfl rfl
    | nan => exact .no (by decide) (.infinite ht rfl) rfl
    | inf b => exact .no (by decide) (.infinite ht rfl) rfl
  | int i => exact number _ rfl rfl rfl
  | bool b => exact number _ rfl rfl rfl
  | complex => exact .inl ⟨rfl, rfl⟩
  | fraction a d =>
    have h1 : Blaming.fixed (className pk t) m (.ok (L, U)) n (.fraction a d) =
      Blaming.odd (className pk t) m (.ok (L, U)) (.fraction a d) := rfl
    rw [h1]
    simp only [Blaming.odd, fixedFault, Bool.or_eq_true, fracLt_cross, fracGt_cross, hL, hU]
    split
    · exact .no (by decide) (.fixed ht hL hU) rfl
    · exact .inl ⟨rfl, rfl⟩
  | _ => exact .no (by decide) hwrong rfl

/-- What the elementary encoders say. -/
def leafBlames [Ext] (pk : Bool) (t : Ty) : PyVal → Option Complaint :=
  match t with
  | .uint n => Blaming.int (className pk (.uint n)) n (computeUnsignedIntegerBounds n)
  | .int n => Blaming.int (className pk (.int n)) n (computeSignedIntegerBounds n)
  | .address => Blaming.address (className pk .address)
  | .bool => Blaming.bool (className pk .bool)
  | .ufixed m n => Blaming.fixed (className pk (.ufixed m n)) m (computeUnsignedFixedBounds m n) n
  | .fixed m n => Blaming.fixed (className pk (.fixed m n)) m (computeSignedFixedBounds m n) n
  | .bytesM m => Blaming.bytesM (className pk (.bytesM m)) (m * 8)
  | .bytes => Blaming.byteString (className pk .bytes)
  | .string => Blaming.text (className pk .string)
  | _ => fun _ => none

theorem int_blames [Ext] {pk : Bool} {t : Ty} {n : Nat} {lo hi : Int} (hlo : PrintableInt lo) (hhi : PrintableInt hi)
    (hw : ∀ v, Because t v .encodingTypeError .plain)
    (hb : ∀ i, (i < lo ∨ hi < i) → Because t (.int i) .valueOutOfBounds (.bounds n lo hi)) (v : PyVal) :
    Blamed pk (Option.map (fun e => (t, v, e)) (match v with
      | .int i => if lo ≤ i ∧ i ≤ hi then none else some .valueOutOfBounds
      | _ => some .encodingTypeError)) (Blaming.int (className pk t) n (lo, hi) v) := by
  cases v with
  | int i =>
    simp only [Blaming.int]
    by_cases h : lo ≤ i ∧ i ≤ hi
    · rw [if_pos h, if_neg (by omega)]
      rfl
    · rw [if_neg h, if_pos (by omega), (strOk_iff lo).2 hlo, (strOk_iff hi).2 hhi]
      exact .no (by decide) (hb i (by omega)) rfl
  | _ => exact .no (by decide) (hw _) rfl

theorem leaf_blames [Ext] (pk : Bool) {t : Ty} (hv : t.Valid) (hl : elementary t = true) (v : PyVal) :
    Blamed pk ((leafFault t v).map fun e => (t, v, e)) (leafBlames pk t v) := by
  have hw : ∀ v, Because t v .encodingTypeError .plain := by
    intro v
    refine .wrong ?_ ?_ ?_ <;> intros <;> rintro rfl <;> cases hl
  cases t with
  | uint n =>
    obtain ⟨_, hn, _⟩ : validBits n := hv
    have hp : (2 : Int) ^ n ≤ 2 ^ 256 := pow_le_pow_right₀ (by norm_num) hn
    have hp0 : (0 : Int) < 2 ^ n := by positivity
    have := int_blames (pk := pk) (n := n) printable_zero (printable_bound (i := 2 ^ n - 1) (by omega) (by omega)) hw
      (fun i hi => .uint hi) v
    cases v with
    | int i =>
      simp only [leafFault]
      simp only at this
      by_cases h : 0 ≤ i ∧ i < 2 ^ n
      · rw [if_pos h]; rw [if_pos (by omega)] at this; exact this
      · rw [if_neg h]; rw [if_neg (by omega)] at this; exact this
    | _ => exact this
  | int n =>
    obtain ⟨_, hn, _⟩ : validBits n := hv
    have hp : (2 : Int) ^ (n - 1) ≤ 2 ^ 256 := pow_le_pow_right₀ (by norm_num) (by omega)
    have hp0 : (0 : Int) < 2 ^ (n - 1) := by positivity
    have := int_blames (pk := pk) (n := n) (printable_bound (i := -2 ^ (n - 1)) (by omega) (by omega))
      (printable_bound (i := 2 ^ (n - 1) - 1) (by omega) (by omega)) hw (fun i hi => .int hi) v
    have hb : computeSignedIntegerBounds n = (-2 ^ (n - 1), 2 ^ (n - 1) - 1) := by simp [computeSignedIntegerBounds]
    have hd : leafBlames pk (.int n) v = Blaming.int (className pk (.int n)) n (computeSignedIntegerBounds n) v := rfl
    rw [hd, hb]
    cases v with
    | int i =>
      simp only [leafFault]
      simp only at this
      by_cases h : -2 ^ (n - 1) ≤ i ∧ i < 2 ^ (n - 1)
      · rw [if_pos h]; rw [if_pos (by omega)] at this; exact this
      · rw [if_neg h]; rw [if_neg (by omega)] at this; exact this
    | _ => exact this
  | ufixed m n =>
    obtain ⟨⟨_, hm, _⟩, _, hn⟩ : validBits m ∧ 0 < n ∧ n ≤ 80 := hv
    have hpow2 : (2 : Int) ^ m ≤ 2 ^ 256 := pow_le_pow_right₀ (by norm_num) hm
    have hd : leafBlames pk (.ufixed m n) v =
      Blaming.fixed (className pk (.ufixed m n)) m (computeUnsignedFixedBounds m n) n v := rfl
    rw [hd, unsignedFixedBounds_eq hm hn]
    exact fixed_blames (.ufixed m n) hn (by simp [V_zero]) (by simp [Dec10.V]) (by norm_num) (by omega) v
  | fixed m n =>
    obtain ⟨⟨_, hm, _⟩, _, hn⟩ : validBits m ∧ 0 < n ∧ n ≤ 80 := hv
    have hpow2 : (2 : Int) ^ (m - 1) ≤ 2 ^ 256 := pow_le_pow_right₀ (by norm_num) (by omega)
    have hpos : (0 : Int) < 2 ^ (m - 1) := by positivity
    have hd : leafBlames pk (.fixed m n) v =
      Blaming.fixed (className pk (.fixed m n)) m (computeSignedFixedBounds m n) n v := rfl
    rw [hd, signedFixedBounds_eq hm hn]
    exact fixed_blames (.fixed m n) hn (by simp [Dec10.V]) (by simp [Dec10.V]) (by omega) (by omega) v
  | bool => cases v <;> first | rfl | exact .no (by decide) (hw _) rfl
  | address =>
    have h1 : leafBlames pk .address v = Blaming.address (className pk .address) v := rfl
    have h2 : leafFault .address v = if (address? v).isSome then none else some .encodingTypeError := rfl
    rw [h1, h2, Blaming.address]
    cases ha : address? v with
    | none =>
      rw [(address_eq v).2 ha]
      exact .no (by decide) (hw _) rfl
    | some a =>
      rw [((address_eq v).1 a ha).1]
      rfl
  | bytesM m =>
    have key : ∀ b, IsBytes v b → Blamed pk (Option.map (fun e => (Ty.bytesM m, v, e))
        (if b.length ≤ m then none else some .valueOutOfBounds)) (Blaming.bytesM (className pk (.bytesM m)) (m * 8) v) := by
      intro b hb
      simp only [Blaming.bytesM, isBytes_iff.1 hb]
      rw [Nat.mul_div_cancel _ (by norm_num)]
      by_cases h : b.length ≤ m
      · rw [if_pos h, if_neg (by omega)]; rfl
      · rw [if_neg h, if_pos (by omega)]; exact .no (by decide) (.size hb (by omega)) rfl
    cases v <;> first | exact key _ (.bytes _) | exact key _ (.bytearray _) | exact .no (by decide) (hw _) rfl
  | bytes => cases v <;> first | rfl | exact .no (by decide) (hw _) rfl
  | string => cases v <;> first | rfl | exact .no (by decide) (hw _) rfl
  | sized k t => cases hl
  | dyn t => cases hl
  | tuple ts => cases hl

/-! ## Arrays and tuples -/

theorem raised_attribute [Ext] {t : Ty} {v : PyVal} {f : PyVal × Exc} (h : fault t v = some f) : raised f ≠ .attributeError := by
  obtain ⟨u, e⟩ := f
  have := (C73_part t v u e h).2
  unfold raised
  split
  · simp
  · unfold quoting
    split
    · rcases this with rfl | rfl | ⟨rfl, _⟩ | ⟨rfl, _⟩ <;> simp
    · simp

theorem BlamesGood.validate [Ext] {pk : Bool} {t : Ty} {c : Blaming} (h : BlamesGood pk t c) (hv : t.Valid) (v : PyVal) :
    c.enc.validateValue v = faulted ((faultAt t v).map (·.2)) := by
  rw [h.enc, validate_fault pk t hv, faultAt_fault]

theorem items_blames [Ext] {pk : Bool} {t : Ty} {c : Blaming} (h : BlamesGood pk t c) (hv : t.Valid) (vs : List PyVal) :
    Blamed pk (vs.findSome? (faultAt t)) (Blaming.arrayItems c vs) := by
  induction vs with
  | nil => rfl
  | cons v vs ih =>
    rw [Blaming.arrayItems, h.validate hv, List.findSome?_cons]
    have := h.blames v
    cases hf : faultAt t v with
    | none => exact ih
    | some f => rw [hf] at this; exact this

theorem array_blames [Ext] {pk : Bool} {u t : Ty} {c : Blaming} (h : BlamesGood pk t c) (hv : t.Valid)
    (hu : ∀ v, asListLike? v = none → Because u v .encodingTypeError .arrayList) (v : PyVal) :
    Blamed pk (match asListLike? v with
      | none => some (u, v, .encodingTypeError)
      | some vs => vs.findSome? (faultAt t)) (Blaming.arrayBlames (className pk u) c v) := by
  unfold Blaming.arrayBlames
  cases hl : asListLike? v with
  | none => exact .no (by decide) (hu v hl) rfl
  | some vs => exact items_blames h hv vs

theorem sized_blames [Ext] {pk : Bool} {k : Nat} {t : Ty} {c : Blaming} (h : BlamesGood pk t c) (hv : t.Valid) (v : PyVal) :
    Blamed pk (faultAt (.sized k t) v) (Blaming.sizedBlames (className pk (.sized k t)) c (some k) v) := by
  have h1 := array_blames (u := .sized k t) h hv (fun v hl => .noArray hl) v
  have h2 := array_fault (fun v => validate_fault pk t hv v) v
  unfold Blaming.sizedBlames
  rw [h.enc, h2, faultAt]
  cases hl : asListLike? v with
  | none => rw [hl] at h1; exact h1
  | some vs =>
    rw [hl] at h1
    simp only at h1 ⊢
    have h3 : vs.findSome? (fault t) = (vs.findSome? (faultAt t)).map (·.2) := by
      clear h1 h2 hl
      induction vs with
      | nil => rfl
      | cons w ws ih =>
        rw [List.findSome?_cons, List.findSome?_cons, ← faultAt_fault, ih]
        cases faultAt t w <;> rfl
    rw [h3]
    cases hf : vs.findSome? (faultAt t) with
    | some f => rw [hf] at h1; exact h1
    | none =>
      have hlen : pyLen v = .ok vs.length := by cases v <;> cases hl <;> rfl
      simp only [Option.map, faulted, hlen, Option.or]
      by_cases hk : vs.length = k
      · rw [if_pos hk, if_neg (by simpa using hk)]; rfl
      · rw [if_neg hk, if_pos hk]
        exact .no (by decide) (.elements (isSeqOf_iff.2 hl) hk) rfl

theorem dyn_blames [Ext] {pk : Bool} {t : Ty} {c : Blaming} (h : BlamesGood pk t c) (hv : t.Valid) (v : PyVal) :
    Blamed pk (faultAt (.dyn t) v) (Blaming.arrayBlames (className pk (.dyn t)) c v) :=
  array_blames (u := .dyn t) h hv (fun _ hl => .noList hl) v

theorem unsized_eq [Ext] (cls : List Char) (c : Blaming) (hc : ∀ v, c.enc.validateValue v = .ok () → c.blames v = none)
    (v : PyVal) : Blaming.sizedBlames cls c none v = Blaming.arrayBlames cls c v := by
  unfold Blaming.sizedBlames
  split
  · rfl
  · next h =>
    unfold arrayValidate at h
    unfold Blaming.arrayBlames
    cases hl : asListLike? v with
    | none =>
      rw [hl] at h
      simp only [invalidate_eq] at h
      cases h
    | some vs =>
      rw [hl] at h
      simp only at h ⊢
      clear hl
      induction vs with
      | nil => rfl
      | cons w ws ih =>
        rw [arrayValidateItems] at h
        rw [Blaming.arrayItems]
        cases hw : c.enc.validateValue w with
        | error e => rw [hw] at h; cases h
        | ok u => rw [hw] at h; exact ih h

theorem tuple_blames [Ext] {pk : Bool} {ts : List Ty} {cs : List Blaming} (hv : ∀ t ∈ ts, t.Valid)
    (h : List.Forall₂ (BlamesGood pk) ts cs) (v : PyVal) :
    Blamed pk (faultAt (.tuple ts) v) (Blaming.tupleBlames cs v) := by
  unfold Blaming.tupleBlames
  rw [faultAt]
  cases hl : asListLike? v with
  | none => exact .no (by decide) (.noTuple hl) rfl
  | some vs =>
    simp only
    by_cases hk : vs.length = ts.length
    · rw [if_pos hk, if_neg (by rw [← h.length_eq]; simpa using hk)]
      clear hk hl
      induction h generalizing vs with
      | nil => cases vs <;> rfl
      | @cons t c ts cs h1 h2 ih =>
        cases vs with
        | nil => rfl
        | cons w ws =>
          rw [faultAtAny, Blaming.tupleItems, h1.validate (hv t (by simp))]
          have hb := h1.blames w
          have hf := faultAt_fault t w
          cases hfa : faultAt t w with
          | none => exact ih (fun t ht => hv t (by simp [ht])) ws
          | some f =>
            rw [hfa] at hb hf
            simp only [Option.map, faulted]
            have hna := raised_attribute hf.symm
            generalize raised f.2 = e at hna
            cases e <;> first | exact hb | exact absurd rfl hna
    · rw [if_neg hk, if_pos (by rw [← h.length_eq]; exact hk), ← h.length_eq]
      exact .no (by decide) (.components (isSeqOf_iff.2 hl) hk) rfl

/-! ## Looking up -/

mutual
/-- The encoder object of a type, with what it says. -/
def blamingOf [Ext] (pk : Bool) : Ty → Blaming
  | .sized k t => ⟨encOf pk (.sized k t), Blaming.sizedBlames (className pk (.sized k t)) (blamingOf pk t) (some k)⟩
  | .dyn t => ⟨encOf pk (.dyn t), if pk then Blaming.sizedBlames (className pk (.dyn t)) (blamingOf pk t) none
      else Blaming.arrayBlames (className pk (.dyn t)) (blamingOf pk t)⟩
  | .tuple ts => ⟨encOf pk (.tuple ts), Blaming.tupleBlames (blamingsOf pk ts)⟩
  | t => ⟨encOf pk t, leafBlames pk t⟩
/-- The encoder objects of a list of types. -/
def blamingsOf [Ext] (pk : Bool) : List Ty → List Blaming
  | [] => []
  | t :: ts => blamingOf pk t :: blamingsOf pk ts
end

theorem blamingOf_enc [Ext] (pk : Bool) (t : Ty) : (blamingOf pk t).enc = encOf pk t := by
  cases t <;> simp only [blamingOf]

theorem blamingsOf_map [Ext] (pk : Bool) (ts : List Ty) : blamingsOf pk ts = ts.map (blamingOf pk) := by
  induction ts with
  | nil => rfl
  | cons t ts ih => simp [blamingsOf, ih]

theorem blamingOf_good [Ext] (pk : Bool) (t : Ty) (hv : t.Valid) : BlamesGood pk t (blamingOf pk t) := by
  revert hv
  refine Spec.Ty.ind (P := fun t => t.Valid → BlamesGood pk t (blamingOf pk t)) ?_ ?_ ?_ ?_ ?_ ?_ ?_ ?_ ?_ ?_ ?_ ?_ t
  iterate 9
    intros
    rename_i hv
    refine ⟨blamingOf_enc pk _, fun v => ?_⟩
    have := leaf_blames pk hv rfl v
    simp only [blamingOf, faultAt]
    exact this
  · intro k t ih hv
    simp only [Ty.Valid] at hv
    refine ⟨blamingOf_enc pk _, fun v => ?_⟩
    rw [blamingOf]
    exact sized_blames (ih hv.2) hv.2 v
  · intro t ih hv
    simp only [Ty.Valid] at hv
    refine ⟨blamingOf_enc pk _, fun v => ?_⟩
    rw [blamingOf]
    cases pk with
    | false => exact dyn_blames (ih hv) hv v
    | true =>
      simp only [if_true]
      rw [unsized_eq]
      · exact dyn_blames (ih hv) hv v
      · intro w hw
        rw [(ih hv).validate hv] at hw
        have := (ih hv).blames w
        cases hf : faultAt t w with
        | none => rw [hf] at this; exact this
        | some f => rw [hf] at hw; cases hw
  · intro ts ih hv
    simp only [Ty.Valid, Spec.Ty.allValid_iff] at hv
    refine ⟨blamingOf_enc pk _, fun v => ?_⟩
    rw [blamingOf]
    refine tuple_blames hv.2 ?_ v
    have hall := hv.2
    clear hv
    induction ts with
    | nil => exact .nil
    | cons t ts ih2 =>
      exact .cons (ih t (by simp) (hall t (by simp))) (ih2 (fun t ht => ih t (by simp [ht])) (fun t ht => hall t (by simp [ht])))

/-- The classes of `blamingEncoders` and `blamingPacked`. -/
def blamingKit [Ext] (pk : Bool) : Kit Blaming where
  uint n := Blaming.of (leafBlames pk (.uint n)) ((encKit pk).uint n)
  int n := Blaming.of (leafBlames pk (.int n)) ((encKit pk).int n)
  address := Blaming.of (leafBlames pk .address) (encKit pk).address
  bool := Blaming.of (leafBlames pk .bool) (encKit pk).bool
  ufixed m n := Blaming.of (leafBlames pk (.ufixed m n)) ((encKit pk).ufixed m n)
  fixed m n := Blaming.of (leafBlames pk (.fixed m n)) ((encKit pk).fixed m n)
  bytesM n := Blaming.of (leafBlames pk (.bytesM n)) ((encKit pk).bytesM n)
  bytes := ⟨(encKit pk).bytes, leafBlames pk .bytes⟩
  string := ⟨(encKit pk).string, leafBlames pk .string⟩
  array d c := if pk then Blaming.packedArray d c else Blaming.array d c
  tuple := Blaming.tuple

theorem blamingKit_default [Ext] : (blamingKit false).regs = blamingEncoders := rfl
theorem blamingKit_packed [Ext] : (blamingKit true).regs = blamingPacked := rfl

theorem Blaming.of_ok (b : PyVal → Option Complaint) (e : Encoder) : Blaming.of b (.ok e) = .ok ⟨e, b⟩ := rfl

theorem blamingKit_makes [Ext] (pk : Bool) : (blamingKit pk).Makes (blamingOf pk) where
  uint n h := by
    show Blaming.of _ _ = _
    rw [(encKit_makes pk).uint n h, Blaming.of_ok, blamingOf]
    all_goals simp
  int n h := by
    show Blaming.of _ _ = _
    rw [(encKit_makes pk).int n h, Blaming.of_ok, blamingOf]
    all_goals simp
  address := by
    show Blaming.of _ _ = _
    rw [(encKit_makes pk).address, Blaming.of_ok, blamingOf]
    all_goals simp
  bool := by
    show Blaming.of _ _ = _
    rw [(encKit_makes pk).bool, Blaming.of_ok, blamingOf]
    all_goals simp
  ufixed m n h h4 h5 := by
    show Blaming.of _ _ = _
    rw [(encKit_makes pk).ufixed m n h h4 h5, Blaming.of_ok, blamingOf]
    all_goals simp
  fixed m n h h4 h5 := by
    show Blaming.of _ _ = _
    rw [(encKit_makes pk).fixed m n h h4 h5, Blaming.of_ok, blamingOf]
    all_goals simp
  bytesM m h1 h2 := by
    show Blaming.of _ _ = _
    rw [(encKit_makes pk).bytesM m h1 h2, Blaming.of_ok, blamingOf]
    all_goals simp
  bytes := by
    show Blaming.mk (encKit pk).bytes _ = _
    rw [(encKit_makes pk).bytes, blamingOf]
    all_goals simp
  string := by
    show Blaming.mk (encKit pk).string _ = _
    rw [(encKit_makes pk).string, blamingOf]
    all_goals simp
  array d t := by
    have h : (encKit pk).array d (encOf pk t) = .ok (encOf pk (wrapDim t d)) := (encKit_makes pk).array d t
    cases pk with
    | true =>
      have h' : Except.ok (ε := Exc) (mkPackedArray d (encOf true t)) = .ok (encOf true (wrapDim t d)) := h
      show Except.ok (Blaming.mk (mkPackedArray d (blamingOf true t).enc) _) = _
      rw [blamingOf_enc, Except.ok.inj h']
      cases d <;> simp only [wrapDim] <;> rw [blamingOf] <;> rfl
    | false =>
      have h' : mkArray d (encOf false t) = .ok (encOf false (wrapDim t d)) := h
      show Blaming.array d (blamingOf false t) = _
      simp only [Blaming.array, blamingOf_enc, h', ok_bind, pure_eq_ok]
      cases d <;> simp only [wrapDim] <;> rw [blamingOf] <;> rfl
  tuple ts := by
    have h : mkTuple (ts.map (encOf pk)) = encOf pk (.tuple ts) := (encKit_makes pk).tuple ts
    show Blaming.tuple (ts.map (blamingOf pk)) = _
    simp only [Blaming.tuple, blamingOf, blamingsOf_map, List.map_map]
    rw [← h]
    congr 2
    simp [blamingOf_enc]

theorem getBlamingFuel_step [Ext] (pk : Bool) (n fuel : Nat) (s : TypeStr) :
    getBlamingFuel (mappingOf n defaultPreds (blamingKit pk).regs) (fuel + 1) s =
      lookStep (blamingKit pk) n (getBlamingFuel (mappingOf n defaultPreds (blamingKit pk).regs) fuel) s := by
  rw [getBlamingFuel, lookStep]
  split <;> simp_all

theorem getBlamingFuel_outcome [Ext] (pk : Bool) (n fuel : Nat) : ∀ a s, Derives a s → a.numsOk = true → depth a ≤ fuel →
    Outcome (blamingOf pk) (found a s) (getBlamingFuel (mappingOf n defaultPreds (blamingKit pk).regs) fuel s) := by
  induction fuel with
  | zero =>
    intro a s _ _ h
    cases a <;> simp [depth] at h
  | succ fuel ih =>
    intro a s hd hn hdep
    rw [getBlamingFuel_step]
    exact lookStep_outcome (blamingKit_makes pk) ih hd hn hdep

theorem getBlaming_eq [Ext] (pk : Bool) (n : Nat) {s : TypeStr} {t : Ty} (h : Supported s t) :
    getBlamingFuel (mappingOf n defaultPreds (blamingKit pk).regs) (s.length + 1) s = .ok (blamingOf pk t) := by
  cases hp : parse s with
  | error e => exact absurd h (not_supported hp t)
  | ok a =>
    obtain ⟨hd, hn⟩ := parse_ok_iff.1 hp
    have := lookStep_outcome (n := n) (blamingKit_makes pk) (getBlamingFuel_outcome pk n s.length) hd hn
      (by have := depth_le hd; omega)
    rw [(found_iff hd hn).2 h] at this
    simp only [Outcome] at this
    rw [getBlamingFuel_step, this]

theorem getBlamings_eq [Ext] (pk : Bool) (n : Nat) {types : List TypeStr} {ts : List Ty} (h : List.Forall₂ Supported types ts) :
    mapPyM (fun s => getBlamingFuel (mappingOf n defaultPreds (blamingKit pk).regs) (s.length + 1) s) types
      = .ok (ts.map (blamingOf pk)) := by
  rw [mapPyM_ok]
  induction h with
  | nil => exact .nil
  | cons h1 _ ih => exact .cons (getBlaming_eq pk n h1) ih

/-- What `encode` says is about the first fault. -/
theorem encodeBlames_blamed [Ext] (pk : Bool) {types : List TypeStr} {ts : List Ty} (h : List.Forall₂ Supported types ts)
    {args : PyVal} {vs : List PyVal} (ha : IsListOf args vs) :
    Blamed pk (faultAt (.tuple ts) args) (encodeBlames pk types args) := by
  have hval : validateListLikeParam args = .ok () := by cases ha <;> rfl
  have hv := supportedAll_valid h
  have heq : encodeBlames pk types args = Blaming.tupleBlames (ts.map (blamingOf pk)) args := by
    unfold encodeBlames
    rw [hval]
    cases pk with
    | false =>
      simp only [Bool.false_eq_true, if_false]
      rw [← blamingKit_default, getBlamings_eq false 0 h]
      rfl
    | true =>
      simp only [if_true]
      rw [← blamingKit_packed, getBlamings_eq true 100 h]
      rfl
  rw [heq]
  refine tuple_blames hv ?_ args
  clear heq h
  induction ts with
  | nil => exact .nil
  | cons t ts ih => exact .cons (blamingOf_good pk t (hv t (by simp))) (ih fun t ht => hv t (by simp [ht]))

end EthAbi
