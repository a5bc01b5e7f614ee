import Verif.Lemmas.Accept
import Verif.Lemmas.LeafSpec
import Verif.Spec.Taken

/-! # What `encode` takes each argument for -/
namespace EthAbi
open Spec

theorem taken_sized [Ext] {k : Nat} {t : Ty} {v : PyVal} {x : Val} :
    taken (.sized k t) v = some x ↔ ∃ vs xs, asListLike? v = some vs ∧
      List.Forall₂ (fun v x => taken t v = some x) vs xs ∧ vs.length = k ∧ x = .seq xs := by
  simp only [taken, Option.bind_eq_bind, Option.bind_eq_some_iff, mapM_some_iff]
  constructor
  · rintro ⟨vs, h1, xs, h2, h3⟩
    split at h3
    · cases h3; exact ⟨vs, xs, h1, h2, ‹_›, rfl⟩
    · cases h3
  · rintro ⟨vs, xs, h1, h2, h3, rfl⟩
    exact ⟨vs, h1, xs, h2, by rw [if_pos h3]⟩

theorem taken_dyn [Ext] {t : Ty} {v : PyVal} {x : Val} :
    taken (.dyn t) v = some x ↔ ∃ vs xs, asListLike? v = some vs ∧
      List.Forall₂ (fun v x => taken t v = some x) vs xs ∧ x = .seq xs := by
  simp only [taken, Option.bind_eq_bind, Option.bind_eq_some_iff, mapM_some_iff]
  constructor
  · rintro ⟨vs, h1, xs, h2, h3⟩
    cases h3; exact ⟨vs, xs, h1, h2, rfl⟩
  · rintro ⟨vs, xs, h1, h2, rfl⟩
    exact ⟨vs, h1, xs, h2, rfl⟩

theorem taken_tuple [Ext] {ts : List Ty} {v : PyVal} {x : Val} :
    taken (.tuple ts) v = some x ↔ ∃ vs xs, asListLike? v = some vs ∧
      takenAll ts vs = some xs ∧ x = .seq xs := by
  simp only [taken, Option.bind_eq_bind, Option.bind_eq_some_iff]
  constructor
  · rintro ⟨vs, h1, xs, h2, h3⟩
    cases h3; exact ⟨vs, xs, h1, h2, rfl⟩
  · rintro ⟨vs, xs, h1, h2, rfl⟩
    exact ⟨vs, h1, xs, h2, rfl⟩

theorem takenAll_cons [Ext] {t : Ty} {ts : List Ty} {v : PyVal} {vs : List PyVal} {xs : List Val} :
    takenAll (t :: ts) (v :: vs) = some xs ↔
      ∃ y ys, taken t v = some y ∧ takenAll ts vs = some ys ∧ xs = y :: ys := by
  simp only [takenAll, Option.bind_eq_bind, Option.bind_eq_some_iff]
  constructor
  · rintro ⟨y, h1, ys, h2, h3⟩
    cases h3; exact ⟨y, ys, h1, h2, rfl⟩
  · rintro ⟨y, ys, h1, h2, rfl⟩
    exact ⟨y, h1, ys, h2, rfl⟩

theorem taken_fixed [Ext] {m n : Nat} {v : PyVal} {x : Val} :
    taken (.fixed m n) v = some x ↔
      ∃ y k, number? v = some y ∧ takenFixed m n y = some k ∧ x = .num k := by
  simp only [taken, Option.bind_eq_bind, Option.bind_eq_some_iff]
  constructor
  · rintro ⟨y, h1, k, h2, h3⟩
    cases h3; exact ⟨y, k, h1, h2, rfl⟩
  · rintro ⟨y, k, h1, h2, rfl⟩
    exact ⟨y, h1, k, h2, rfl⟩

theorem places900_number {v : PyVal} {x : Dec10} (h : Places900 v) (hx : number? v = some x) :
    -900 ≤ x.2 := by
  cases v with
  | dec d =>
    cases d with
    | fin m e => simp only [number?, Option.some.injEq] at hx; subst hx; exact h
    | _ => simp [number?] at hx
  | int i => simp only [number?, Option.some.injEq] at hx; subst hx; norm_num
  | bool b => simp only [number?, Option.some.injEq] at hx; subst hx; norm_num
  | _ => simp [number?] at hx

theorem places900All_iff {vs : List PyVal} : Places900All vs ↔ ∀ v ∈ vs, Places900 v := by
  induction vs with
  | nil => simp [Places900All]
  | cons v vs ih => simp [Places900All, ih]

theorem places900_list {v : PyVal} {vs : List PyVal} (h : asListLike? v = some vs) :
    Places900 v ↔ Places900All vs := by
  cases v <;> simp [asListLike?] at h <;> subst h <;> rfl

/-! ## Numbers off the grid -/

/-- A number off the grid lies strictly between two neighbouring multiples of `10^-n`. -/
theorem offGrid_between {n : Nat} {x : Dec10} (h : onGrid? n x = none) :
    x.2 + n < 0 ∧ ((x.1 / 10 ^ (-(x.2 + n)).toNat : Int) : ℚ) * 10 ^ (-(n : Int)) < x.V ∧
      x.V < ((x.1 / 10 ^ (-(x.2 + n)).toNat + 1 : Int) : ℚ) * 10 ^ (-(n : Int)) ∧
      x.1 % 10 ^ (-(x.2 + n)).toNat ≠ 0 := by
  simp only [onGrid?] at h
  split at h
  · cases h
  · next hs =>
    split at h
    · cases h
    · next hne =>
      have hs : x.2 + n < 0 := by omega
      obtain ⟨p, hp⟩ : ∃ p : Nat, p = (-(x.2 + n)).toNat := ⟨_, rfl⟩
      rw [← hp] at hne ⊢
      have hpe : (p : Int) = -(x.2 + n) := by omega
      have hV : x.V = (x.1 : ℚ) / 10 ^ p * 10 ^ (-(n : Int)) := by
        have : (10 : ℚ) ^ x.2 = 10 ^ (-(p : Int)) * 10 ^ (-(n : Int)) := by
          rw [← zpow_add₀ (by norm_num)]; congr 1; omega
        rw [Dec10.V, this, zpow_neg, zpow_natCast]
        ring
      have hP : (0 : Int) < 10 ^ p := by positivity
      have hPq : (0 : ℚ) < 10 ^ p := by positivity
      have hdm := Int.mul_ediv_add_emod x.1 (10 ^ p)
      have hm0 : 0 < x.1 % 10 ^ p := lt_of_le_of_ne (Int.emod_nonneg _ hP.ne') (Ne.symm hne)
      have hm1 := Int.emod_lt_of_pos x.1 hP
      refine ⟨hs, ?_, ?_, hne⟩
      · rw [hV]
        apply mul_lt_mul_of_pos_right _ (ten_zpow_pos _)
        rw [lt_div_iff₀ hPq]
        have : x.1 / 10 ^ p * 10 ^ p < x.1 := by linarith [mul_comm (x.1 / 10 ^ p) (10 ^ p)]
        exact_mod_cast this
      · rw [hV]
        apply mul_lt_mul_of_pos_right _ (ten_zpow_pos _)
        rw [div_lt_iff₀ hPq]
        have : x.1 < (x.1 / 10 ^ p + 1) * 10 ^ p := by
          linarith [mul_comm (x.1 / 10 ^ p) (10 ^ p), add_mul (x.1 / 10 ^ p) 1 (10 ^ p)]
        exact_mod_cast this

/-- The neighbouring multiples determine the quotient. -/
theorem between_floor {n : Nat} {x : Dec10} {k : Int} (h1 : (k : ℚ) * 10 ^ (-(n : Int)) < decValue x)
    (h2 : decValue x < ((k + 1 : Int) : ℚ) * 10 ^ (-(n : Int))) :
    onGrid? n x = none ∧ x.1 / 10 ^ (-(x.2 + n)).toNat = k := by
  have h10 : (0 : ℚ) < (10 : ℚ) ^ (-(n : Int)) := ten_zpow_pos _
  have hlt : ∀ {a b : Int}, (a : ℚ) * 10 ^ (-(n : Int)) < (b : ℚ) * 10 ^ (-(n : Int)) → a < b := by
    intro a b h
    have := lt_of_mul_lt_mul_right h h10.le
    exact_mod_cast this
  have hg : onGrid? n x = none := by
    cases hg : onGrid? n x with
    | none => rfl
    | some j =>
      have hj : decValue x = (j : ℚ) * 10 ^ (-(n : Int)) := onGrid_some_iff.1 hg
      rw [hj] at h1 h2
      have := hlt h1
      have := hlt h2
      omega
  obtain ⟨_, h3, h4, _⟩ := offGrid_between hg
  have h5 := hlt (lt_trans h1 h4)
  have h6 := hlt (lt_trans h3 h2)
  exact ⟨hg, by omega⟩

/-- The integer an off-grid negative number is scaled to. -/
theorem fixedScaled_offGrid {n : Nat} (hn : n ≤ 80) {v : PyVal} {x : Dec10} (hx : number? v = some x)
    (hg : onGrid? n x = none) (hneg : x.1 < 0) (hp : -900 ≤ x.2)
    (hlo : -2 ^ 256 ≤ x.1 / 10 ^ (-(x.2 + n)).toNat) :
    fixedScaled n v = .ok (x.1 / 10 ^ (-(x.2 + n)).toNat + 1) := by
  obtain ⟨hs, _, _, hne⟩ := offGrid_between hg
  obtain ⟨m, e⟩ := x
  simp only at *
  obtain ⟨p, hpd⟩ : ∃ p : Nat, p = (-(e + n)).toNat := ⟨_, rfl⟩
  rw [← hpd] at hne hlo ⊢
  have hpe : (-e).toNat = p + n := by omega
  have hP : (0 : Int) < 10 ^ p := by positivity
  have hN : (0 : Int) < 10 ^ n := by positivity
  have hdm := Int.mul_ediv_add_emod m (10 ^ p)
  have hm0 := Int.emod_nonneg m hP.ne'
  have hm1 := Int.emod_lt_of_pos m hP
  have hbig : (m * 10 ^ n).natAbs < 10 ^ 999 := by
    have h1 : -(2 ^ 256 * 10 ^ p) ≤ m := by nlinarith
    have h2 : (m.natAbs : Int) ≤ 2 ^ 256 * 10 ^ p := by
      generalize (2 ^ 256 * 10 ^ p : Int) = Q at *
      omega
    have h3 : m.natAbs ≤ 2 ^ 256 * 10 ^ p := by exact_mod_cast h2
    have h99 : ∀ a b c : Nat, a + b = c → 10 ^ a * 10 ^ b = 10 ^ c := by
      rintro a b c rfl; rw [pow_add]
    rw [Int.natAbs_mul]
    have h4 : (10 ^ n : Int).natAbs = 10 ^ n := by
      rw [Int.natAbs_pow]; rfl
    have hT0 : 0 < 10 ^ 900 := Nat.pow_pos (by norm_num)
    have hT1 : 10 ^ p * 10 ^ n ≤ 10 ^ 900 := by
      rw [← pow_add]; exact Nat.pow_le_pow_right (by norm_num) (by omega)
    rw [h4, ← h99 99 900 999 (by norm_num)]
    have h5 := Nat.mul_le_mul_right (10 ^ n) h3
    rw [mul_assoc] at h5
    have h6 : 2 ^ 256 < 10 ^ 99 := by norm_num
    generalize 10 ^ 900 = T at *
    generalize 10 ^ p * 10 ^ n = W at *
    generalize m.natAbs * 10 ^ n = Z at *
    generalize 2 ^ 256 = A at *
    generalize 10 ^ 99 = B at *
    calc Z ≤ A * W := h5
      _ ≤ A * T := Nat.mul_le_mul_left _ hT1
      _ < B * T := Nat.mul_lt_mul_of_pos_right h6 hT0
  have hx' : asDec10? v = some (m, e) := by rw [asDec10_eq]; exact hx
  have hsc : fixedScaled n v = (ctxFinal (m * 10 ^ n, e) >>= fun y => .ok (decToInt y)) := by
    simp only [fixedScaled, hx', decMul, tenPow, add_zero]
    rfl
  rw [hsc, ctxFinal_id hbig (by simp only [decEtiny]; omega) (by omega), ok_bind]
  congr 1
  have hdef : decToInt (m * 10 ^ n, e) = (m * 10 ^ n).tdiv (10 ^ (-e).toNat) := by
    simp only [decToInt]
    rw [if_neg (by omega)]
  rw [hdef, hpe, pow_add, Int.mul_tdiv_mul_of_pos_left _ _ hN]
  rw [Int.tdiv_eq_ediv, if_neg, Int.sign_eq_one_of_pos hP]
  rintro (h | h)
  · omega
  · exact hne (Int.emod_eq_zero_of_dvd h)

theorem beBytes_neg256 {d : Nat} (hd : 0 < d) : fpad (intToBigEndian 0) d = beBytes d (-256) := by
  obtain ⟨a, rfl⟩ := Nat.exists_eq_add_of_le' hd
  have h := beN_ff a 1 0 (by norm_num)
  have hz : beN 1 0 = intToBigEndian 0 := by decide
  have hmod : ((-256 : Int) % 2 ^ (8 * (a + 1))).toNat = 0 + (256 ^ a - 1) * 256 ^ 1 := by
    have hA : 1 ≤ 256 ^ a := Nat.one_le_pow _ _ (by norm_num)
    have e1 : (2 : Int) ^ (8 * (a + 1)) = 256 ^ a * 256 := by
      have := pow_256_int (a + 1)
      push_cast at this
      rw [← this, pow_succ]
    have e2 : (-256 : Int) + 256 ^ a * 256 = (((256 ^ a - 1) * 256 : Nat) : Int) := by
      push_cast [Nat.cast_sub hA]; ring
    rw [e1, ← Int.add_emod_right, e2, Int.emod_eq_of_lt (Int.natCast_nonneg _), Int.toNat_natCast]
    · ring
    · rw [← e2]
      have : ∀ z : Int, -256 + z < z := by intro z; omega
      exact this _
  rw [beBytes_eq, hmod, h, hz]
  simp [fpad, intToBigEndian]

/-! ## The fixed-point encoder -/

theorem sfixed_call [Ext] {m n d : Nat} {v : PyVal} {y : Dec10} {i : Int}
    (h1 : (sfixedEnc m n d).validateValue v = .ok ()) (h2 : number? v = some y)
    (h3 : fixedScaled n v = .ok i) : (sfixedEnc m n d).call v = .ok
      (if 0 ≤ y.1 then zpad (intToBigEndian (i % 2 ^ m).toNat) d
        else fpad (intToBigEndian (i % 2 ^ m).toNat) d) := by
  have h2' : asDec10? v = some y := by rw [asDec10_eq]; exact h2
  have hnn : 0 ≤ i % 2 ^ m := Int.emod_nonneg _ (by positivity)
  simp only [sfixedEnc, Encoder.validateValue] at h1
  simp only [sfixedEnc, sfixedEncode, h1, ok_bind, h3, h2', intToBigEndian?,
    if_neg (not_lt.2 hnn), pure_eq_ok]
  split <;> rfl

/-- What the encoder of `fixedMxN` writes for a number off the grid. -/
theorem sfixed_offGrid [Ext] {m n d : Nat} (hm : validBits m) (hn : n ≤ 80) (hmd : m ≤ 8 * d)
    {v : PyVal} {y : Dec10} (hy : number? v = some y) (hg : onGrid? n y = none) (hp : -900 ≤ y.2) :
    ((sfixedEnc m n d).validateValue v = .ok () ↔ ∃ k, takenFixed m n y = some k) ∧
    ∀ k, takenFixed m n y = some k → (sfixedEnc m n d).call v = .ok (beBytes d k) := by
  obtain ⟨hm8, hm256, hmm⟩ := hm
  obtain ⟨k, rfl⟩ : ∃ k, m = 8 * k := ⟨m / 8, by omega⟩
  have hk : 0 < k := by omega
  have hkd : k ≤ d := by omega
  have hpow2 : (2 : Int) ^ (8 * k - 1) ≤ 2 ^ 256 := pow_le_pow_right₀ (by norm_num) (by omega)
  have hpos : (0 : Int) < 2 ^ (8 * k - 1) := by positivity
  have hb := signedFixedBounds_eq (m := 8 * k) hm256 hn
  obtain ⟨_, _, _, _, S5, S6⟩ := fixedValidate_spec (n := n) hn (L := (-2 ^ (8 * k - 1), -(n : Int)))
    (U := (2 ^ (8 * k - 1) - 1, -(n : Int))) (lo := -2 ^ (8 * k - 1)) (hi := 2 ^ (8 * k - 1) - 1)
    (by simp [Dec10.V]) (by simp [Dec10.V]) (by omega) (by omega) (by omega) (by omega) v
  have hv : (sfixedEnc (8 * k) n d).validateValue v = fixedValidate
      (.ok ((-2 ^ (8 * k - 1), -(n : Int)), (2 ^ (8 * k - 1) - 1, -(n : Int)))) n v := by
    simp only [sfixedEnc, Encoder.validateValue, hb]
  obtain ⟨hs, hlt, hgt, _⟩ := offGrid_between hg
  obtain ⟨q, hq⟩ : ∃ q, q = y.1 / 10 ^ (-(y.2 + n)).toNat := ⟨_, rfl⟩
  have htk : takenFixed (8 * k) n y =
      if y.1 < 0 ∧ -2 ^ (8 * k - 1) ≤ q then some (if q + 1 = 0 then -256 else q + 1) else none := by
    simp only [takenFixed, hg, hq]
  rw [← hq] at hlt hgt
  have h10 : (0 : ℚ) < (10 : ℚ) ^ (-(n : Int)) := ten_zpow_pos _
  have hval : (sfixedEnc (8 * k) n d).validateValue v = .ok () ↔ y.1 < 0 ∧ -2 ^ (8 * k - 1) ≤ q := by
    rw [hv]
    constructor
    · intro h
      have hneg : y.1 < 0 := by
        by_contra hc
        exact S5 y hy hg (by omega) (by simp only [decEtiny]; omega) h
      refine ⟨hneg, ?_⟩
      obtain ⟨x, hx, hl, _⟩ := fixedValidate_bounds h
      rw [hy] at hx
      cases hx
      have hL : Dec10.V (-2 ^ (8 * k - 1), -(n : Int)) = ((-2 ^ (8 * k - 1) : Int) : ℚ) * 10 ^ (-(n : Int)) := by
        simp [Dec10.V]
      rw [hL] at hl
      have h3 := lt_of_mul_lt_mul_right (lt_of_le_of_lt hl hgt) h10.le
      have h4 : -2 ^ (8 * k - 1) < q + 1 := by exact_mod_cast h3
      omega
    · rintro ⟨hneg, hq1⟩
      refine S6 y hy hneg (le_trans ?_ hlt.le)
      apply mul_le_mul_of_nonneg_right _ h10.le
      exact_mod_cast hq1
  have hyV : y.1 < 0 → q + 1 ≤ 0 := by
    intro hneg
    have hV : y.V < 0 := by
      have h0 : ¬ 0 ≤ y.V := fun h => by rw [V_nonneg_iff] at h; omega
      linarith
    have h3 : ((q : Int) : ℚ) * 10 ^ (-(n : Int)) < 0 := lt_trans hlt hV
    have h4 : ((q : Int) : ℚ) < 0 := by
      by_contra hc
      have := mul_nonneg (not_lt.1 hc) h10.le
      linarith
    have : q < 0 := by exact_mod_cast h4
    omega
  constructor
  · rw [hval, htk]
    constructor
    · intro h; exact ⟨_, if_pos h⟩
    · rintro ⟨i, hi⟩
      split at hi
      · assumption
      · cases hi
  · intro i hi
    rw [htk] at hi
    split at hi
    · next hc =>
      injection hi with hi
      have hsc := fixedScaled_offGrid hn hy hg hc.1 hp (by rw [← hq]; omega)
      rw [← hq] at hsc
      rw [sfixed_call (hval.2 hc) hy hsc, if_neg (by omega)]
      congr 1
      have := hyV hc.1
      split at hi
      · next h0 =>
        rw [h0, ← hi, Int.zero_emod, Int.toNat_zero]
        exact beBytes_neg256 (by omega)
      · next h0 =>
        rw [← hi]
        exact fpad_beBytes hk hkd (by omega) (by omega)
    · cases hi

/-! ## All types -/

theorem ufixed_onGrid [Ext] {m n : Nat} (hv : (Ty.ufixed m n).Valid) {v : PyVal}
    (h : (encOf false (.ufixed m n)).validateValue v = .ok ()) (hp : Places900 v) :
    OnGrid (.ufixed m n) v := by
  obtain ⟨L, U, hval, hn, hL, hU, h1, h2, h3, h4⟩ := fixed_bounds hv (.inl ⟨m, rfl, rfl, rfl⟩)
  rw [hval] at h
  obtain ⟨x, hx, hl, _⟩ := fixedValidate_bounds h
  obtain ⟨_, _, _, _, S5, _⟩ := fixedValidate_spec hn hL hU h1 h2 h3 h4 v
  have h0 : 0 ≤ x.1 := by
    rw [← V_nonneg_iff]; rw [hL] at hl; simpa using hl
  simp only [OnGrid]
  intro y hy
  rw [hx] at hy
  cases hy
  cases hg : onGrid? n x with
  | none =>
    exact absurd h (S5 x hx hg h0 (by
      have := places900_number hp hx
      simp only [decEtiny]; omega))
  | some k => rfl

/-- On the grid, an argument is taken for the value it denotes. -/
theorem takenFixed_onGrid {m n : Nat} {x : Dec10} {k : Int} (h : onGrid? n x = some k) :
    takenFixed m n x = if fitsS m k then some k else none := by
  simp only [takenFixed, h]

theorem taken_leaf [Ext] {t : Ty} {v : PyVal} (hl : t.isLeaf = true) (hg : OnGrid t v) :
    taken t v = denote t v := by
  cases t <;> first | (cases hl; done) | rfl | skip
  rename_i m n
  simp only [taken, denote]
  cases hx : number? v with
  | none => rfl
  | some x =>
    obtain ⟨k, hk⟩ := Option.isSome_iff_exists.1 (hg x hx)
    simp only [Option.bind_eq_bind, Option.bind_some, hk, takenFixed_onGrid hk]
    split <;> rfl

theorem leaf_taken [Ext] (pk : Bool) {t : Ty} (hl : t.isLeaf = true) (hv : t.Valid) {v : PyVal}
    {b : Bytes} (h : (encOf pk t).call v = .ok b) (hp : Places900 v) :
    ∃ x, taken t v = some x ∧ b = encBy pk t x := by
  have hon : OnGrid t v → ∃ x, taken t v = some x ∧ b = encBy pk t x := by
    intro hg
    rw [taken_leaf hl hg]
    exact call_spec pk t hv v b h hg
  have hval : (encOf false t).validateValue v = .ok () := by
    have := (encOf_good pk t hv).callVal v b h
    cases pk
    · exact this
    · rwa [validate_packed t hv] at this
  cases t with
  | ufixed m n => exact hon (ufixed_onGrid hv hval hp)
  | fixed m n =>
    by_cases hg : OnGrid (.fixed m n) v
    · exact hon hg
    · simp only [OnGrid] at hg
      push Not at hg
      obtain ⟨x, hx, hng⟩ := hg
      have hng : onGrid? n x = none := by simpa using hng
      simp only [Ty.Valid] at hv
      have hv' := hv.1
      simp only [validBits] at hv'
      have key : ∀ d, m ≤ 8 * d → (sfixedEnc m n d).call v = .ok b →
          ∃ k, takenFixed m n x = some k ∧ b = beBytes d k := by
        intro d hd hb
        obtain ⟨h1, h2⟩ := sfixed_offGrid (d := d) hv.1 hv.2.2 hd hx hng (places900_number hp hx)
        obtain ⟨k, hk⟩ := h1.1 ((sfixed_good hv.1 hv.2.2 hd).callVal v b hb)
        rw [h2 k hk] at hb
        injection hb with hb
        exact ⟨k, hk, hb.symm⟩
      cases pk
      · obtain ⟨k, h1, rfl⟩ := key 32 (by omega) h
        exact ⟨.num k, taken_fixed.2 ⟨x, k, hx, h1, rfl⟩, by simp [encBy, enc, wordOf_eq]⟩
      · obtain ⟨k, h1, rfl⟩ := key (m / 8) (by omega) h
        exact ⟨.num k, taken_fixed.2 ⟨x, k, hx, h1, rfl⟩, by simp [encBy, encPacked]⟩
  | sized k t => cases hl
  | dyn t => cases hl
  | tuple ts => cases hl
  | _ => exact hon (by simp [OnGrid])

theorem callAll_taken [Ext] {t : Ty} {item : Encoder} {f : Val → Bytes}
    (h : ∀ v b, item.call v = .ok b → Places900 v → ∃ x, taken t v = some x ∧ b = f x)
    {vs : List PyVal} {bs : List Bytes} (hc : callAll (vs.map fun _ => item) vs = .ok bs)
    (hg : ∀ u ∈ vs, Places900 u) :
    ∃ xs, List.Forall₂ (fun v x => taken t v = some x) vs xs ∧ bs = xs.map f := by
  induction vs generalizing bs with
  | nil => cases hc; exact ⟨[], .nil, rfl⟩
  | cons v vs ih =>
    obtain ⟨b, bs', h1, h2, rfl⟩ := callAll_ok_cons hc
    obtain ⟨x, hx, rfl⟩ := h v b h1 (hg v (by simp))
    obtain ⟨xs, hxs, rfl⟩ := ih h2 (fun u hu => hg u (by simp [hu]))
    exact ⟨x :: xs, .cons hx hxs, rfl⟩

theorem encodeElements_taken [Ext] {t : Ty} {item : Encoder} {dy : Bool} {f g : Val → Bytes}
    (hgood : EncGood t item dy g)
    (h : ∀ v b, item.call v = .ok b → Places900 v → ∃ x, taken t v = some x ∧ b = f x)
    {validate : PyVal → PyM Unit} {v : PyVal} {b : Bytes}
    (hc : encodeElements validate item v = .ok b) (hp : Places900 v) :
    ∃ vs xs, asListLike? v = some vs ∧ List.Forall₂ (fun v x => taken t v = some x) vs xs ∧
      validate v = .ok () ∧ b = layout (xs.map fun x => (dy, f x)) := by
  obtain ⟨vs, bs, h1, h2, h3, rfl⟩ := encodeElements_raw hc
  rw [places900_list h1, places900All_iff] at hp
  obtain ⟨xs, hxs, rfl⟩ := callAll_taken h h3 hp
  exact ⟨vs, xs, h1, hxs, h2, by rw [elems_map hxs.length_eq, hgood.dyn_eq]⟩

theorem tuple_taken [Ext] (pk : Bool) (ts : List Ty)
    (h : ∀ t ∈ ts, ∀ v b, (encOf pk t).call v = .ok b → Places900 v →
      ∃ x, taken t v = some x ∧ b = encBy pk t x) {v : PyVal} {b : Bytes}
    (hb : (mkTuple (encsOf pk ts)).call v = .ok b) (hp : Places900 v) :
    ∃ vs xs, asListLike? v = some vs ∧ takenAll ts vs = some xs ∧
      b = layout (elems (encsOf pk ts) (encBys pk ts xs)) := by
  obtain ⟨vs, bs, h1, h2, h3, rfl⟩ := tupleEncode_raw (show tupleEncode (encsOf pk ts) v = .ok b from hb)
  rw [places900_list h1] at hp
  suffices ∃ xs, takenAll ts vs = some xs ∧ bs = encBys pk ts xs by
    obtain ⟨xs, h4, rfl⟩ := this
    exact ⟨vs, xs, h1, h4, rfl⟩
  clear hb h1
  induction ts generalizing vs bs with
  | nil =>
    cases vs with
    | nil => cases h3; exact ⟨[], rfl, rfl⟩
    | cons u us => simp [encsOf] at h2
  | cons t ts ih =>
    cases vs with
    | nil => simp [encsOf] at h2
    | cons u us =>
      simp only [encsOf] at h3
      obtain ⟨c, cs, h4, h5, rfl⟩ := callAll_ok_cons h3
      simp only [Places900All] at hp
      obtain ⟨x, hx, rfl⟩ := h t (by simp) u c h4 hp.1
      obtain ⟨xs, hxs, rfl⟩ := ih (fun t ht => h t (by simp [ht])) us hp.2 cs
        (by simpa [encsOf] using h2) h5
      exact ⟨x :: xs, takenAll_cons.2 ⟨x, xs, hx, hxs, rfl⟩, rfl⟩

/-- What an encoder writes is the encoding of what it takes the argument for. -/
theorem call_taken [Ext] (pk : Bool) (t : Ty) : t.Valid → ∀ v b, (encOf pk t).call v = .ok b →
    Places900 v → ∃ x, taken t v = some x ∧ b = encBy pk t x := by
  refine Spec.Ty.ind (P := fun t => t.Valid → ∀ v b, (encOf pk t).call v = .ok b →
    Places900 v → ∃ x, taken t v = some x ∧ b = encBy pk t x) ?_ ?_ ?_ ?_ ?_ ?_ ?_ ?_ ?_ ?_ ?_ ?_ t
  iterate 7
    intros
    rename_i hv v b hb hp
    exact leaf_taken pk rfl hv hb hp
  · intro hv v b hb _
    exact call_spec pk .bytes hv v b hb (by simp [OnGrid])
  · intro hv v b hb _
    exact call_spec pk .string hv v b hb (by simp [OnGrid])
  · intro k t ih hv v b hb hp
    simp only [Ty.Valid] at hv
    have hgood := encOf_good pk t hv.2
    have hb' : encodeElements (sizedArrayValidate (encOf pk t) (some k)) (encOf pk t) v = .ok b := by
      cases pk <;> exact hb
    obtain ⟨vs, xs, h1, h2, h3, rfl⟩ := encodeElements_taken hgood (ih hv.2) hb' hp
    obtain ⟨vs', h4, _, h5⟩ := sizedArrayValidate_ok.1 h3
    rw [h1] at h4
    cases h4
    refine ⟨.seq xs, taken_sized.2 ⟨vs, xs, h1, h2, h5 k rfl, rfl⟩, ?_⟩
    cases pk
    · rfl
    · simp only [encBy, if_true, encPacked]
      rw [layout_static (by intro a ha; obtain ⟨_, _, rfl⟩ := List.mem_map.1 ha; rfl), List.map_map]
      rfl
  · intro t ih hv v b hb hp
    simp only [Ty.Valid] at hv
    have hgood := encOf_good pk t hv
    cases pk
    · have hb' : (mkDynamicArray (encOf false t)).call v = .ok b := hb
      simp only [mkDynamicArray, bind_eq_ok] at hb'
      obtain ⟨len, hl, sz, hsz, els, hels, he⟩ := hb'
      obtain ⟨vs, xs, h1, h2, _, rfl⟩ := encodeElements_taken hgood (ih hv) hels hp
      refine ⟨.seq xs, taken_dyn.2 ⟨vs, xs, h1, h2, rfl⟩, ?_⟩
      rw [(asListLike_weight h1).2.2] at hl
      injection hl with hl
      subst hl
      rw [encodeUint256_eq] at hsz
      split at hsz
      · injection hsz with hsz
        subst hsz
        injection he with he
        rw [← he, h2.length_eq]
        rfl
      · cases hsz
    · have hb' : encodeElements (sizedArrayValidate (encOf true t) none) (encOf true t) v = .ok b := hb
      obtain ⟨vs, xs, h1, h2, _, rfl⟩ := encodeElements_taken hgood (ih hv) hb' hp
      refine ⟨.seq xs, taken_dyn.2 ⟨vs, xs, h1, h2, rfl⟩, ?_⟩
      simp only [encBy, if_true, encPacked]
      rw [layout_static (by intro a ha; obtain ⟨_, _, rfl⟩ := List.mem_map.1 ha; rfl), List.map_map]
      rfl
  · intro ts ih hv v b hb hp
    simp only [Ty.Valid, Spec.Ty.allValid_iff] at hv
    obtain ⟨vs, xs, h1, h2, rfl⟩ := tuple_taken pk ts (fun t ht => ih t ht (hv.2 t ht)) hb hp
    refine ⟨.seq xs, taken_tuple.2 ⟨vs, xs, h1, h2, rfl⟩, ?_⟩
    cases pk
    · simp only [elems_std ts _ (fun t ht => encOf_good false t (hv.2 t ht))]
      rfl
    · simp only [elems_packed ts _ (fun t ht => encOf_good true t (hv.2 t ht))]
      rfl

/-! ## What is taken is accepted -/

/-- An argument that is taken for something passes validation and has no lone surrogates. -/
theorem leaf_accept [Ext] {t : Ty} (hl : t.isLeaf = true) (hv : t.Valid) {v : PyVal} {x : Val}
    (h : taken t v = some x) (hp : Places900 v) :
    (encOf false t).validateValue v = .ok () ∧ NoSurrogates v := by
  have hon : denote t v = some x → (encOf false t).validateValue v = .ok () ∧ NoSurrogates v := by
    intro hd
    have hg := encOf_good false t hv
    refine ⟨hg.valOk v x hd, leaf_noSurrogates hv hl (hg.enc v x hd
      (encBy_leaf_length false hl hv (denote_of t v x hd)))⟩
  cases t with
  | fixed m n =>
    obtain ⟨y, k, h1, h2, rfl⟩ := taken_fixed.1 h
    cases hg : onGrid? n y with
    | some j =>
      apply hon
      rw [← h, eq_comm]
      refine taken_leaf hl ?_
      simp only [OnGrid]
      intro z hz
      rw [h1] at hz
      cases hz
      rw [hg]; rfl
    | none =>
      simp only [Ty.Valid] at hv
      have hv' := hv.1
      simp only [validBits] at hv'
      obtain ⟨h3, _⟩ := sfixed_offGrid (d := 32) hv.1 hv.2.2 (by omega) h1 hg (places900_number hp h1)
      exact ⟨h3.2 ⟨k, h2⟩, by cases v <;> trivial⟩
  | sized k t => cases hl
  | dyn t => cases hl
  | tuple ts => cases hl
  | _ => exact hon h

theorem tuple_accept [Ext] (ts : List Ty) (hv : ∀ t ∈ ts, t.Valid)
    (h : ∀ t ∈ ts, ∀ v x, taken t v = some x → Places900 v →
      (encOf false t).validateValue v = .ok () ∧ NoSurrogates v)
    {v : PyVal} {vs : List PyVal} {xs : List Val} (hl : asListLike? v = some vs)
    (ht : takenAll ts vs = some xs) (hp : Places900 v) :
    tupleValidate (encsOf false ts) v = .ok () ∧ NoSurrogates v := by
  rw [noSurrogates_list hl]
  rw [places900_list hl] at hp
  simp only [tupleValidate, hl, encsOf_length]
  have hlen : vs.length = ts.length := by
    clear * - ht
    induction ts generalizing vs xs with
    | nil =>
      cases vs with
      | nil => rfl
      | cons u us => cases ht
    | cons t ts ih =>
      cases vs with
      | nil => cases ht
      | cons u us =>
        obtain ⟨y, ys, _, h2, rfl⟩ := takenAll_cons.1 ht
        simp [ih h2]
  rw [if_neg (by omega)]
  clear hlen hl
  induction ts generalizing vs xs with
  | nil =>
    cases vs with
    | nil => exact ⟨rfl, trivial⟩
    | cons u us => cases ht
  | cons t ts ih =>
    cases vs with
    | nil => cases ht
    | cons u us =>
      obtain ⟨y, ys, h1, h2, rfl⟩ := takenAll_cons.1 ht
      simp only [Places900All] at hp
      obtain ⟨a, b⟩ := h t (by simp) u y h1 hp.1
      obtain ⟨c, d⟩ := ih (fun t ht => hv t (by simp [ht])) (fun t ht => h t (by simp [ht])) h2 hp.2
      refine ⟨?_, ⟨b, d⟩⟩
      simp only [encsOf, tupleValidateItems, (encOf_good false t (hv t (by simp))).validateOrCall_eq, a,
        ok_bind]
      exact c

theorem items_accept [Ext] {t : Ty} {item : Encoder}
    (h : ∀ v x, taken t v = some x → Places900 v → item.validateValue v = .ok () ∧ NoSurrogates v)
    {vs : List PyVal} {xs : List Val} (ht : List.Forall₂ (fun v x => taken t v = some x) vs xs)
    (hp : ∀ u ∈ vs, Places900 u) : ∀ u ∈ vs, item.validateValue u = .ok () ∧ NoSurrogates u := by
  induction ht with
  | nil => simp
  | @cons v x vs xs h1 _ ih =>
    intro u hu
    rcases List.mem_cons.1 hu with rfl | hu
    · exact h _ x h1 (hp _ (by simp))
    · exact ih (fun u hu => hp u (by simp [hu])) u hu

theorem taken_accept [Ext] (t : Ty) : t.Valid → ∀ v x, taken t v = some x → Places900 v →
    (encOf false t).validateValue v = .ok () ∧ NoSurrogates v := by
  refine Spec.Ty.ind (P := fun t => t.Valid → ∀ v x, taken t v = some x → Places900 v →
    (encOf false t).validateValue v = .ok () ∧ NoSurrogates v) ?_ ?_ ?_ ?_ ?_ ?_ ?_ ?_ ?_ ?_ ?_ ?_ t
  iterate 7
    intros
    rename_i hv v x h hp
    exact leaf_accept rfl hv h hp
  · intro hv v x h _
    have h : denote .bytes v = some x := h
    refine ⟨(encOf_good false .bytes hv).valOk v x h, ?_⟩
    simp only [denote, Option.map_eq_some_iff] at h
    obtain ⟨b, hb, _⟩ := h
    cases v <;> first | trivial | simp [asBytes?] at hb
  · intro hv v x h _
    have h : denote .string v = some x := h
    refine ⟨(encOf_good false .string hv).valOk v x h, ?_⟩
    cases v <;> simp only [denote] at h <;> try cases h
    split at h
    · assumption
    · cases h
  · intro k t ih hv v x h hp
    simp only [Ty.Valid] at hv
    obtain ⟨vs, xs, h1, h2, h3, rfl⟩ := taken_sized.1 h
    rw [places900_list h1, places900All_iff] at hp
    have hi := items_accept (ih hv.2) h2 hp
    rw [noSurrogates_list h1, noSurrogatesAll_iff]
    have hs : sizedArrayValidate (encOf false t) (some k) v = .ok () :=
      sizedArrayValidate_ok.2 ⟨vs, h1, fun u hu => (hi u hu).1, fun n hn => by cases hn; exact h3⟩
    exact ⟨hs, fun u hu => (hi u hu).2⟩
  · intro t ih hv v x h hp
    simp only [Ty.Valid] at hv
    obtain ⟨vs, xs, h1, h2, rfl⟩ := taken_dyn.1 h
    rw [places900_list h1, places900All_iff] at hp
    have hi := items_accept (ih hv) h2 hp
    rw [noSurrogates_list h1, noSurrogatesAll_iff]
    exact ⟨arrayValidate_ok.2 ⟨vs, h1, fun u hu => (hi u hu).1⟩, fun u hu => (hi u hu).2⟩
  · intro ts ih hv v x h hp
    simp only [Ty.Valid, Spec.Ty.allValid_iff] at hv
    obtain ⟨vs, xs, h1, h2, rfl⟩ := taken_tuple.1 h
    exact tuple_accept ts hv.2 (fun t ht => ih t ht (hv.2 t ht)) h1 h2 hp

/-! ## Argument lists -/

theorem encode_taken [Ext] (pk : Bool) {types : List TypeStr} {ts : List Ty} (hT : Names types ts)
    {args : PyVal} {vs : List PyVal} (ha : listOrTuple? args = some vs) (hp : Places900All vs)
    (hw : 128 * weight args < 2 ^ 256) {b : Bytes} :
    (regBy pk).encode types args = .ok b ↔ ∃ xs, takenAll ts vs = some xs ∧ b = encTop pk ts xs := by
  have hv := supportedAll_valid hT
  rw [encode_eq pk hT ha]
  replace ha := listOrTuple_like ha
  have hp' : Places900 args := (places900_list ha).2 hp
  have hmp : ∀ b, (mkTuple (encsOf pk ts)).call args = .ok b →
      ∃ xs, takenAll ts vs = some xs ∧ b = encTop pk ts xs := by
    intro b hb
    obtain ⟨vs', xs, h1, h2, rfl⟩ :=
      tuple_taken pk ts (fun t ht => call_taken pk t (hv t ht)) hb hp'
    rw [ha] at h1
    cases h1
    refine ⟨xs, h2, ?_⟩
    cases pk
    · exact congrArg layout (elems_std ts _ (fun t ht => encOf_good false t (hv t ht)))
    · exact elems_packed ts _ (fun t ht => encOf_good true t (hv t ht))
  refine ⟨hmp b, ?_⟩
  rintro ⟨xs, hx, rfl⟩
  obtain ⟨h1, h2⟩ := tuple_accept ts hv (fun t ht => taken_accept t (hv t ht)) ha hx hp'
  have h3 : (mkTuple (encsOf pk ts)).validateValue args = .ok () := by
    cases pk
    · exact h1
    · exact (tupleValidate_packed hv (fun t ht => validate_packed t (hv t ht)) args).trans h1
  rcases (top_good pk hv).total args h3 with ⟨b, hb, _⟩ | ⟨_, h⟩ | ⟨_, h⟩
  · obtain ⟨ys, hy, rfl⟩ := hmp b hb
    rw [hx] at hy
    cases hy
    exact hb
  · exact absurd h2 h
  · omega

end EthAbi
