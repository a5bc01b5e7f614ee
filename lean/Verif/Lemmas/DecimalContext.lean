import Verif.Model.DecimalContext
import Verif.Lemmas.DecimalValue
import Verif.Lemmas.Bytes

/-! Lemmas about computations in decimal contexts. -/
namespace EthAbi.DecimalContext

open EthAbi

/-- Two contexts that differ in their flags only. -/
structure Same (c c' : Ctx) : Prop where
  prec : c'.prec = c.prec
  emin : c'.emin = c.emin
  emax : c'.emax = c.emax
  rounding : c'.rounding = c.rounding
  traps : c'.traps = c.traps

theorem Same.refl (c : Ctx) : Same c c := ⟨rfl, rfl, rfl, rfl, rfl⟩

theorem bind_run {α β : Type} (x : DM α) (f : α → DM β) (c : Ctx) : (x >>= f) c =
    match x c with
    | (.ok a, c') => f a c'
    | (.error e, c') => (.error e, c') := rfl

theorem pure_run {α : Type} (a : α) (c : Ctx) : (pure a : DM α) c = (.ok a, c) := rfl

/-- In every context that is like `c0` up to flags, `x` ends with `r` and leaves such a context. -/
def Run {α : Type} (c0 : Ctx) (x : DM α) (r : PyM α) : Prop :=
  ∀ c, Same c0 c → (x c).1 = lift r ∧ Same c0 (x c).2

/-- In every context `x` ends with `r` and leaves the context as it was. -/
def Quiet {α : Type} (x : DM α) (r : PyM α) : Prop := ∀ c, x c = (lift r, c)

theorem Run.pure {α : Type} (c0 : Ctx) (a : α) : Run c0 (Pure.pure a) (.ok a) := fun _ h => ⟨rfl, h⟩

theorem Run.bind {α β : Type} {c0 : Ctx} {x : DM α} {r : PyM α} {f : α → DM β} {g : α → PyM β} (hx : Run c0 x r)
    (hf : ∀ a, r = .ok a → Run c0 (f a) (g a)) : Run c0 (x >>= f) (r >>= g) := by
  intro c hc
  obtain ⟨h1, h2⟩ := hx c hc
  rw [bind_run]
  revert h1 h2
  rcases x c with ⟨y, c'⟩
  intro h1 h2
  cases r with
  | ok a =>
    obtain rfl : y = .ok a := h1
    exact hf a rfl c' h2
  | error e =>
    obtain rfl : y = .error (.exc e) := h1
    exact ⟨rfl, h2⟩

theorem Run.then_ {α β : Type} {c0 : Ctx} {x : DM α} {a : α} {f : α → DM β} {r : PyM β} (hx : Run c0 x (.ok a))
    (hf : Run c0 (f a) r) : Run c0 (x >>= f) r := by
  have := Run.bind hx (g := fun _ => r) (f := f) fun a' h => by cases h; exact hf
  exact this

theorem Quiet.pure {α : Type} (a : α) : Quiet (Pure.pure a) (.ok a) := fun _ => rfl

theorem Quiet.plain {α : Type} (r : PyM α) : Quiet (plain r) r := fun _ => rfl

theorem Quiet.bind {α β : Type} {x : DM α} {r : PyM α} {f : α → DM β} {g : α → PyM β} (hx : Quiet x r)
    (hf : ∀ a, r = .ok a → Quiet (f a) (g a)) : Quiet (x >>= f) (r >>= g) := by
  intro c
  rw [bind_run, hx c]
  cases r with
  | ok a => exact hf a rfl c
  | error e => rfl

theorem Quiet.localcontext {α : Type} {c0 : Ctx} {x : DM α} {r : PyM α} (h : Run c0 x r) :
    Quiet (localcontext c0 x) r := by
  intro c
  show ((x c0).1, c) = _
  rw [(h c0 (.refl c0)).1]

theorem addStatus_fst {α : Type} (ss : List Signal) (r : Except Stop α) (c : Ctx) : (addStatus ss r c).1 =
    match ss.find? c.traps with
    | some s => .error s.stop
    | none => r := rfl

theorem addStatus_same {α : Type} (ss : List Signal) (r : Except Stop α) {c0 c : Ctx} (h : Same c0 c) :
    Same c0 (addStatus ss r c).2 := ⟨h.1, h.2, h.3, h.4, h.5⟩

theorem addStatus_nil {α : Type} (r : Except Stop α) (c : Ctx) : addStatus [] r c = (r, c) := by
  obtain ⟨p, a, b, ro, t, f⟩ := c
  simp [addStatus]

/-- The context of the module in an unchanged Python. -/
abbrev abiContext : Ctx := importedContext defaultContext

theorem roundTo_halfEven (m : Int) (k : Nat) : roundTo .halfEven m k = roundHalfEven m k := by
  have hp : (0 : Nat) < 10 ^ k := by positivity
  have e : (if m.natAbs % 10 ^ k ≠ 0 ∧
      Rounding.halfEven.away (decide (m < 0)) (m.natAbs / 10 ^ k) (m.natAbs % 10 ^ k) (10 ^ k) = true
      then m.natAbs / 10 ^ k + 1 else m.natAbs / 10 ^ k) =
    (if 10 ^ k < 2 * (m.natAbs % 10 ^ k) ∨ (2 * (m.natAbs % 10 ^ k) = 10 ^ k ∧ m.natAbs / 10 ^ k % 2 = 1)
      then m.natAbs / 10 ^ k + 1 else m.natAbs / 10 ^ k) := by
    apply if_congr _ rfl rfl
    simp only [Rounding.away, decide_eq_true_eq]
    constructor
    · exact fun h => h.2
    · intro h
      exact ⟨by omega, h⟩
  show (if m < 0 then _ else _) = _
  rw [e]
  rfl

theorem find_untrapped {ss : List Signal} (h : ∀ s ∈ ss, s ≠ .invalidOperation ∧ s ≠ .overflow) :
    ss.find? abiContext.traps = none := by
  rw [List.find?_eq_none]
  intro s hs
  obtain ⟨h1, h2⟩ := h s hs
  simp [abiContext, importedContext, defaultContext, h1, h2]

theorem mem_ite {p : Prop} [Decidable p] {s a : Signal} (h : s ∈ (if p then [a] else [])) : s = a := by
  split at h
  · exact List.mem_singleton.1 h
  · cases h

theorem finalize_abi (x : Dec10) : Run abiContext (finalize x) (ctxFinal x) := by
  obtain ⟨m, e⟩ := x
  intro c hc
  have hp : c.prec = 999 := hc.prec
  have hmin : c.emin = -999999 := hc.emin
  have hmax : c.emax = 999999 := hc.emax
  have hro : c.rounding = .halfEven := hc.rounding
  have htiny : c.emin - ((c.prec : Int) - 1) = decEtiny := by rw [hmin, hp]; rfl
  have hfin : finalize (m, e) c =
      if m = 0 then addStatus (if e < decEtiny then [.clamped] else []) (.ok (0, max e decEtiny)) c
      else
        let digits : Int := ndigits m.natAbs
        let subnormal := decide (e + digits - 1 < c.emin)
        let e' := max (max e (e + (digits - 999))) decEtiny
        let k := (e' - e).toNat
        let m' := roundHalfEven m k
        let y : Dec10 :=
          if k = 0 then (m, e)
          else if m'.natAbs = 10 ^ 999 then (m' / 10, e' + 1) else (m', e')
        if 999999 < y.2 + (ndigits y.1.natAbs : Int) - 1 then
          addStatus [.overflow, .inexact, .rounded] (.error .notFinite) c
        else
          let changed := decide (k ≠ 0 ∧ m.natAbs % 10 ^ k ≠ 0)
          addStatus ((if changed && subnormal then [.underflow] else []) ++ (if subnormal then [.subnormal] else []) ++
            (if changed then [.inexact] else []) ++ (if k ≠ 0 then [.rounded] else []) ++
            (if k ≠ 0 ∧ y.1 = 0 then [.clamped] else [])) (.ok y) c := by
    rw [← htiny]
    simp only [← roundTo_halfEven, ← hro]
    rw [← hmax]
    have : ((999 : Nat) : Int) = (c.prec : Int) := by rw [hp]
    simp only [show (999 : Int) = (c.prec : Int) by rw [hp]; rfl]
    simp only [show ∀ z : Nat, (z = 10 ^ 999) = (z = 10 ^ c.prec) by rw [hp]; intro z; rfl]
    rfl
  rw [hfin]
  have hctx : ctxFinal (m, e) = if m = 0 then .ok (0, max e decEtiny)
    else
      let e' := max (max e (e + ((ndigits m.natAbs : Int) - 999))) decEtiny
      let k := (e' - e).toNat
      let y : Dec10 :=
        if k = 0 then (m, e)
        else if (roundHalfEven m k).natAbs = 10 ^ 999 then (roundHalfEven m k / 10, e' + 1) else (roundHalfEven m k, e')
      if 999999 < y.2 + (ndigits y.1.natAbs : Int) - 1 then .error .decimalOverflow else .ok y := rfl
  rw [hctx]
  by_cases h0 : m = 0
  · rw [if_pos h0, if_pos h0]
    refine ⟨?_, addStatus_same _ _ hc⟩
    rw [addStatus_fst, hc.traps, find_untrapped]
    · rfl
    · intro s hs
      rw [mem_ite hs]; decide
  · rw [if_neg h0, if_neg h0]
    dsimp only
    generalize (max (max e (e + ((ndigits m.natAbs : Int) - 999))) decEtiny) = e'
    generalize (e' - e).toNat = k
    generalize (if k = 0 then (m, e) else if (roundHalfEven m k).natAbs = 10 ^ 999 then (roundHalfEven m k / 10, e' + 1)
      else (roundHalfEven m k, e') : Dec10) = y
    split
    · refine ⟨?_, addStatus_same _ _ hc⟩
      rw [addStatus_fst, hc.traps]
      rfl
    · refine ⟨?_, addStatus_same _ _ hc⟩
      rw [addStatus_fst, hc.traps, find_untrapped]
      · rfl
      · intro s hs
        simp only [List.mem_append] at hs
        rcases hs with (((hs | hs) | hs) | hs) | hs <;> (rw [mem_ite hs]; decide)

theorem mul_abi (a b : Dec10) : Run abiContext (mul a b) (decMul a b) := finalize_abi _

theorem powTen_abi (p : Int) : Run abiContext (powTen p) (tenPowInt p) := finalize_abi _

theorem rem_abi (a b : Dec10) : Run abiContext (rem a b) (decRem a b) := by
  intro c hc
  have hp : c.prec = 999 := hc.prec
  have hd : decRem a b = if 10 ^ 999 ≤ ((decAlign a b).1.tdiv (decAlign a b).2.1).natAbs then .error .decimalInvalidOperation
    else ctxFinal ((decAlign a b).1.tmod (decAlign a b).2.1, (decAlign a b).2.2) := rfl
  have hr : rem a b c = if 10 ^ c.prec ≤ ((decAlign a b).1.tdiv (decAlign a b).2.1).natAbs then
      addStatus [.invalidOperation] (.error .notFinite) c
    else finalize ((decAlign a b).1.tmod (decAlign a b).2.1, (decAlign a b).2.2) c := rfl
  rw [hd, hr, hp]
  split
  · refine ⟨?_, addStatus_same _ _ hc⟩
    rw [addStatus_fst, hc.traps]
    rfl
  · exact finalize_abi _ c hc

theorem tenPowInt_pos {n : Nat} (hn : n ≤ 80) : tenPowInt (n : Int) = .ok (tenPow n) := by
  rw [tenPowInt, if_pos (by omega), Int.toNat_natCast]
  refine ctxFinal_fits ?_ (by simp [decEtiny]) (by norm_num)
  rw [Int.natAbs_pow]
  exact Nat.pow_lt_pow_right (by norm_num) (by omega)

/-- A number that the context holds as it is. -/
structure Holds (c : Ctx) (m e : Int) : Prop where
  digits : m.natAbs < 10 ^ c.prec
  lower : m ≠ 0 → c.emin ≤ e
  zero : c.emin - ((c.prec : Int) - 1) ≤ e
  upper : m ≠ 0 → e + (ndigits m.natAbs : Int) - 1 ≤ c.emax

theorem finalize_holds {c : Ctx} {m e : Int} (hp : 1 ≤ c.prec) (h : Holds c m e) : finalize (m, e) c = (.ok (m, e), c) := by
  have hfin : finalize (m, e) c =
      if m = 0 then addStatus (if e < c.emin - ((c.prec : Int) - 1) then [.clamped] else [])
        (.ok (0, max e (c.emin - ((c.prec : Int) - 1)))) c
      else
        let digits : Int := ndigits m.natAbs
        let subnormal := decide (e + digits - 1 < c.emin)
        let e' := max (max e (e + (digits - c.prec))) (c.emin - ((c.prec : Int) - 1))
        let k := (e' - e).toNat
        let m' := roundTo c.rounding m k
        let y : Dec10 :=
          if k = 0 then (m, e)
          else if m'.natAbs = 10 ^ c.prec then (m' / 10, e' + 1) else (m', e')
        if c.emax < y.2 + (ndigits y.1.natAbs : Int) - 1 then
          addStatus [.overflow, .inexact, .rounded] (.error .notFinite) c
        else
          let changed := decide (k ≠ 0 ∧ m.natAbs % 10 ^ k ≠ 0)
          addStatus ((if changed && subnormal then [.underflow] else []) ++ (if subnormal then [.subnormal] else []) ++
            (if changed then [.inexact] else []) ++ (if k ≠ 0 then [.rounded] else []) ++
            (if k ≠ 0 ∧ y.1 = 0 then [.clamped] else [])) (.ok y) c := rfl
  rw [hfin]
  by_cases h0 : m = 0
  · subst h0
    rw [if_pos rfl, if_neg (by have := h.zero; omega), addStatus_nil, max_eq_left h.zero]
  · rw [if_neg h0]
    have hd := ndigits_le hp h.digits
    have hpos := ndigits_pos m.natAbs
    have hl := h.lower h0
    have hu := h.upper h0
    have hz := h.zero
    have he : max (max e (e + ((ndigits m.natAbs : Int) - c.prec))) (c.emin - ((c.prec : Int) - 1)) = e := by omega
    dsimp only
    rw [he, sub_self, Int.toNat_zero]
    have hs : decide (e + (ndigits m.natAbs : Int) - 1 < c.emin) = false := by
      rw [decide_eq_false_iff_not]; omega
    rw [hs]
    simp only [if_true, ne_eq, not_true_eq_false, false_and, decide_false, Bool.false_and, if_false,
      Bool.false_eq_true, List.append_nil]
    rw [if_neg (by omega), addStatus_nil]

theorem finalize_run {c0 : Ctx} {m e : Int} (hp : 1 ≤ c0.prec) (h : Holds c0 m e) : Run c0 (finalize (m, e)) (.ok (m, e)) := by
  intro c hc
  have h' : Holds c m e := ⟨by rw [hc.prec]; exact h.digits, by rw [hc.emin]; exact h.lower,
    by rw [hc.emin, hc.prec]; exact h.zero, by rw [hc.emax]; exact h.upper⟩
  rw [finalize_holds (by rw [hc.prec]; exact hp) h']
  exact ⟨rfl, hc⟩

theorem ite_bind {α : Type} {p : Prop} [Decidable p] (x : PyM Unit) (r : PyM α) :
    (if p then (x >>= fun _ => r) else r) = ((if p then x else .ok ()) >>= fun _ => r) := by
  split <;> rfl

theorem fixedValidate_none [Ext] (bounds : PyM (Dec10 × Dec10)) (n : Nat) {v : PyVal} (h : asDec10? v = none) :
    EthAbi.fixedValidate bounds n v =
      ((if !(isNumber v && v != .float) then invalidateValue v .encodingTypeError else .ok ()) >>= fun _ =>
        oddValidate bounds v) := by
  unfold EthAbi.fixedValidate
  rw [h]
  exact ite_bind _ _

theorem fixedValidate_some [Ext] (bounds : PyM (Dec10 × Dec10)) (n : Nat) {v : PyVal} {x : Dec10} (h : asDec10? v = some x) :
    EthAbi.fixedValidate bounds n v =
      ((if !(isNumber v && v != .float) then invalidateValue v .encodingTypeError else .ok ()) >>= fun _ =>
        bounds >>= fun b =>
        (if decLt x b.1 || decLt b.2 x then invalidateValue v .valueOutOfBounds else .ok ()) >>= fun _ =>
        decRem x (tenPowNeg n) >>= fun residue =>
        if 0 < residue.1 then invalidateValue v .illegalValue else .ok ()) := by
  unfold EthAbi.fixedValidate
  rw [h]
  refine (ite_bind _ _).trans ?_
  congr 1
  funext _
  refine congrArg (fun f => bounds >>= f) ?_
  funext b
  exact ite_bind _ _

theorem quiet_validate [Ext] {abi : Ctx} {db : DM (Dec10 × Dec10)} {pb : PyM (Dec10 × Dec10)} {n : Nat} {v : PyVal}
    (hb : Quiet db pb)
    (hr : ∀ x b, asDec10? v = some x → pb = .ok b → decLt x b.1 = false → decLt b.2 x = false →
      Quiet (localcontext abi (do
        let exp ← powTen (-(n : Int))
        rem x exp)) (decRem x (tenPowNeg n))) :
    Quiet (fixedValidate abi db n v) (EthAbi.fixedValidate pb n v) := by
  cases hx : asDec10? v with
  | none =>
    rw [fixedValidate_none pb n hx]
    have hd : fixedValidate abi db n v =
        (plain (if !(isNumber v && v != .float) then invalidateValue v .encodingTypeError else .ok ()) >>= fun _ =>
        match v with
        | .complex => do
          let b ← db
          plain (oddValidate (.ok b) v)
        | .fraction _ _ => do
          let b ← db
          plain (oddValidate (.ok b) v)
        | _ => plain (invalidateValue v .illegalValue)) := by
      unfold fixedValidate
      rw [hx]
      cases v <;> rfl
    rw [hd]
    refine Quiet.bind (Quiet.plain _) fun _ _ => ?_
    cases v with
    | complex =>
      have : oddValidate pb .complex = (pb >>= fun b => oddValidate (.ok b) .complex) := by cases pb <;> rfl
      rw [this]
      exact Quiet.bind hb fun b _ => Quiet.plain _
    | fraction a d =>
      have : oddValidate pb (.fraction a d) = (pb >>= fun b => oddValidate (.ok b) (.fraction a d)) := by cases pb <;> rfl
      rw [this]
      exact Quiet.bind hb fun b _ => Quiet.plain _
    | _ => exact Quiet.plain _
  | some x =>
    rw [fixedValidate_some pb n hx]
    have hd : fixedValidate abi db n v =
        (plain (if !(isNumber v && v != .float) then invalidateValue v .encodingTypeError else .ok ()) >>= fun _ =>
        db >>= fun b =>
        plain (if decLt x b.1 || decLt b.2 x then invalidateValue v .valueOutOfBounds else .ok ()) >>= fun _ =>
        localcontext abi (do
          let exp ← powTen (-(n : Int))
          rem x exp) >>= fun residue =>
        plain (if 0 < residue.1 then invalidateValue v .illegalValue else .ok ())) := by
      unfold fixedValidate
      rw [hx]
    rw [hd]
    refine Quiet.bind (Quiet.plain _) fun _ _ => Quiet.bind hb fun b hb' => Quiet.bind (Quiet.plain _) fun _ hin => ?_
    refine Quiet.bind (hr x b hx hb' ?_ ?_) fun _ _ => Quiet.plain _
    · by_contra hc
      rw [Bool.not_eq_false] at hc
      rw [hc, Bool.true_or, if_pos rfl, invalidateValue] at hin
      split at hin <;> cases hin
    · by_contra hc
      rw [Bool.not_eq_false] at hc
      rw [hc, Bool.or_true, if_pos rfl, invalidateValue] at hin
      split at hin <;> cases hin

/-- A context wide enough for the numbers of fixed-point types. -/
structure Wide (c : Ctx) : Prop where
  emin : c.emin ≤ -900
  emax : 99 ≤ c.emax

theorem small_num {m e : Int} (he : -900 ≤ e) (hV : |Dec10.V (m, e)| < (10 : ℚ) ^ (99 : Int)) (h0 : m ≠ 0) :
    e + (ndigits m.natAbs : Int) - 1 < 99 ∧ m.natAbs < 10 ^ 999 := by
  have hlo := ndigits_le' (n := m.natAbs) (by omega)
  have hhi := ndigits_lt m.natAbs
  have hpos := ndigits_pos m.natAbs
  have habs : |Dec10.V (m, e)| = (m.natAbs : ℚ) * 10 ^ e := by
    rw [Dec10.V, abs_mul, abs_of_pos (ten_zpow_pos _), Nat.cast_natAbs, Int.cast_abs]
  have hsz : e + (ndigits m.natAbs : Int) - 1 < 99 := by
    have h1 : (10 : ℚ) ^ (e + (ndigits m.natAbs : Int) - 1) ≤ |Dec10.V (m, e)| := by
      rw [habs, show e + (ndigits m.natAbs : Int) - 1 = ((ndigits m.natAbs - 1 : Nat) : Int) + e by
        omega, zpow_add₀ (by norm_num), zpow_natCast]
      apply mul_le_mul_of_nonneg_right _ (ten_zpow_pos _).le
      exact_mod_cast hlo
    exact (zpow_lt_zpow_iff_right₀ (by norm_num : (1 : ℚ) < 10)).1 (lt_of_le_of_lt h1 hV)
  exact ⟨hsz, lt_of_lt_of_le hhi (Nat.pow_le_pow_right (by norm_num) (by omega))⟩

theorem wide_run {c0 : Ctx} (hp : c0.prec = 999) (hw : Wide c0) {m e : Int} (he : -900 ≤ e)
    (hV : |Dec10.V (m, e)| < (10 : ℚ) ^ (99 : Int)) :
    Run c0 (finalize (m, e)) (ctxFinal (m, e)) ∧ ctxFinal (m, e) = .ok (m, e) := by
  have h1 := hw.emin
  have h2 := hw.emax
  have hc : ctxFinal (m, e) = .ok (m, e) := by
    by_cases h0 : m = 0
    · subst h0
      have : ctxFinal (0, e) = .ok (0, max e decEtiny) := by rw [ctxFinal, if_pos rfl]
      rw [this, max_eq_left (by simp only [decEtiny]; omega)]
    · obtain ⟨hsz, hlt⟩ := small_num he hV h0
      have hpos := ndigits_pos m.natAbs
      exact ctxFinal_fits hlt (by simp only [decEtiny]; omega) (by omega)
  refine ⟨?_, hc⟩
  rw [hc]
  refine finalize_run (by omega) ⟨?_, ?_, ?_, ?_⟩
  · rw [hp]
    by_cases h0 : m = 0
    · subst h0; exact Nat.pow_pos (by norm_num)
    · exact (small_num he hV h0).2
  · intro _; omega
  · rw [hp]; omega
  · intro h0
    have := (small_num he hV h0).1
    omega

theorem abs_ten_zpow (e : Int) : |(10 : ℚ) ^ e| = 10 ^ e := abs_of_pos (ten_zpow_pos e)

theorem wide_powNeg {c0 : Ctx} (hp : c0.prec = 999) (hw : Wide c0) {n : Nat} (hn : n ≤ 80) :
    Run c0 (powTen (-(n : Int))) (.ok (tenPowNeg n)) := by
  by_cases h0 : n = 0
  · subst h0
    have := wide_run hp hw (m := 10 ^ (-((0 : Nat) : Int)).toNat) (e := 0) (by norm_num) (by
      simp only [Dec10.V]; norm_num)
    rw [this.2] at this
    rw [powTen, if_pos (by norm_num)]
    exact this.1
  · have := wide_run hp hw (m := 1) (e := -(n : Int)) (by omega) (by
      simp only [Dec10.V, Int.cast_one, one_mul, abs_ten_zpow]
      exact zpow_lt_zpow_right₀ (by norm_num) (by omega))
    rw [this.2] at this
    rw [powTen, if_neg (by omega)]
    exact this.1

theorem wide_pow {c0 : Ctx} (hp : c0.prec = 999) (hw : Wide c0) {n : Nat} (hn : n ≤ 80) :
    Run c0 (powTen (n : Int)) (.ok (tenPow n)) := by
  have := wide_run hp hw (m := 10 ^ (n : Int).toNat) (e := 0) (by norm_num) (by
    simp only [Dec10.V, zpow_zero, mul_one, Int.toNat_natCast, Int.cast_pow, Int.cast_ofNat]
    rw [← zpow_natCast, abs_ten_zpow]
    exact zpow_lt_zpow_right₀ (by norm_num) (by omega))
  rw [this.2] at this
  rw [powTen, if_pos (by omega)]
  exact this.1

theorem pow_bits {m : Nat} (hm : m ≤ 256) : (2 : ℚ) ^ m < 10 ^ (78 : Int) := by
  calc (2 : ℚ) ^ m ≤ 2 ^ 256 := pow_le_pow_right₀ (by norm_num) hm
    _ < 10 ^ (78 : Int) := by norm_num

theorem wide_mul_bound {c0 : Ctx} (hp : c0.prec = 999) (hw : Wide c0) {m n : Nat} (hm : m ≤ 256) (hn : n ≤ 80) {i : Int}
    (h1 : -2 ^ m ≤ i) (h2 : i ≤ 2 ^ m) : Run c0 (mul (i, 0) (tenPowNeg n)) (decMul (i, 0) (tenPowNeg n)) := by
  refine (wide_run hp hw (m := i * 1) (e := 0 + -(n : Int)) (by omega) ?_).1
  rw [mul_one, zero_add, Dec10.V, abs_mul, abs_ten_zpow]
  have h3 : |(i : ℚ)| < 10 ^ (78 : Int) := by
    refine lt_of_le_of_lt (abs_le.2 ⟨?_, ?_⟩) (pow_bits hm)
    · have : ((-2 ^ m : Int) : ℚ) ≤ i := by exact_mod_cast h1
      push_cast at this; exact this
    · have : (i : ℚ) ≤ ((2 ^ m : Int) : ℚ) := by exact_mod_cast h2
      push_cast at this; exact this
  have h4 : (10 : ℚ) ^ (-(n : Int)) ≤ 10 ^ (0 : Int) := zpow_le_zpow_right₀ (by norm_num) (by omega)
  calc |(i : ℚ)| * 10 ^ (-(n : Int)) ≤ |(i : ℚ)| * 10 ^ (0 : Int) := mul_le_mul_of_nonneg_left h4 (abs_nonneg _)
    _ = |(i : ℚ)| := by simp
    _ < 10 ^ (78 : Int) := h3
    _ < 10 ^ (99 : Int) := zpow_lt_zpow_right₀ (by norm_num) (by norm_num)

theorem wide_mul {c0 : Ctx} (hp : c0.prec = 999) (hw : Wide c0) {n : Nat} {x : Dec10} (hx : -900 ≤ x.2)
    (hV : |x.V| * 10 ^ n < 10 ^ (99 : Int)) : Run c0 (mul x (tenPow n)) (decMul x (tenPow n)) := by
  refine (wide_run hp hw (m := x.1 * 10 ^ n) (e := x.2 + 0) (by omega) ?_).1
  have : Dec10.V (x.1 * 10 ^ n, x.2 + 0) = x.V * 10 ^ n := by
    simp only [Dec10.V, add_zero, Int.cast_mul, Int.cast_pow, Int.cast_ofNat]; ring
  rw [this, abs_mul, abs_of_pos (a := (10 : ℚ) ^ n) (by positivity)]
  exact hV

theorem wide_rem {c0 : Ctx} (hp : c0.prec = 999) (hw : Wide c0) {n : Nat} (hn : n ≤ 80) {x : Dec10} (hx : -900 ≤ x.2)
    (hV : |x.V| * 10 ^ n < 10 ^ (99 : Int)) : Run c0 (rem x (tenPowNeg n)) (decRem x (tenPowNeg n)) := by
  obtain ⟨m, e⟩ := x
  obtain ⟨f, hf⟩ : ∃ f, f = min e (-(n : Int)) := ⟨_, rfl⟩
  dsimp only at hx
  have hV1 : |Dec10.V (m, e)| < (10 : ℚ) ^ (99 : Int) := by
    refine lt_of_le_of_lt ?_ hV
    exact le_mul_of_one_le_right (abs_nonneg _) (one_le_pow₀ (by norm_num))
  have hXV : Dec10.V (m, e) = ((m * 10 ^ (e - f).toNat : Int) : ℚ) * 10 ^ f := V_shift m e f (by omega)
  generalize hX : m * 10 ^ (e - f).toNat = X at *
  generalize hY : (1 * 10 ^ (-(n : Int) - f).toNat : Int) = Y
  have hd : decRem (m, e) (tenPowNeg n) = if 10 ^ 999 ≤ (X.tdiv Y).natAbs then .error .decimalInvalidOperation
      else ctxFinal (X.tmod Y, f) := by subst hX hY hf; rfl
  have hr : ∀ c : Ctx, rem (m, e) (tenPowNeg n) c = if 10 ^ c.prec ≤ (X.tdiv Y).natAbs then
      addStatus [.invalidOperation] (.error .notFinite) c else finalize (X.tmod Y, f) c := by
    subst hX hY hf; intro c; rfl
  have hXlt : X.natAbs < 10 ^ 999 := by
    by_cases h0 : X = 0
    · subst h0; exact Nat.pow_pos (by norm_num)
    · exact (small_num (e := f) (by omega) (by rw [Dec10.V, ← hXV]; exact hV1) h0).2
  have hq : (X.tdiv Y).natAbs < 10 ^ 999 := by
    rw [Int.natAbs_tdiv]
    exact lt_of_le_of_lt (Nat.div_le_self _ _) hXlt
  have ht : |Dec10.V (X.tmod Y, f)| < (10 : ℚ) ^ (99 : Int) := by
    refine lt_of_le_of_lt ?_ hV1
    rw [hXV, Dec10.V, abs_mul, abs_mul]
    refine mul_le_mul_of_nonneg_right ?_ (abs_nonneg _)
    have h2 : (X.tmod Y).natAbs ≤ X.natAbs := by rw [Int.natAbs_tmod]; exact Nat.mod_le _ _
    have h3 : |X.tmod Y| ≤ |X| := by rw [Int.abs_eq_natAbs, Int.abs_eq_natAbs]; exact_mod_cast h2
    exact_mod_cast h3
  intro c hc
  rw [hd, hr, hc.prec, hp, if_neg (not_le.2 hq), if_neg (not_le.2 hq)]
  exact (wide_run hp hw (by omega) ht).1 c hc

theorem decDivTenPow_value (m : Int) (f : Nat) :
    Dec10.V (decDivTenPow m f) = m * 10 ^ (-(f : Int)) ∧ -(f : Int) ≤ (decDivTenPow m f).2 := by
  induction f generalizing m with
  | zero => simp [decDivTenPow, Dec10.V]
  | succ f ih =>
    rw [decDivTenPow]
    split
    · next h =>
      obtain ⟨h1, h2⟩ := ih (m / 10)
      refine ⟨?_, by push_cast; omega⟩
      rw [h1]
      have hm : (m : ℚ) = ((m / 10 : Int) : ℚ) * 10 := by
        have : m = m / 10 * 10 := by omega
        exact_mod_cast this
      rw [hm, show (-(f : Int)) = 1 + -((f + 1 : Nat) : Int) by push_cast; ring, zpow_add₀ (by norm_num), zpow_one]
      ring
    · exact ⟨rfl, le_refl _⟩

theorem wide_div {c0 : Ctx} (hp : c0.prec = 999) (hw : Wide c0) {n : Nat} (hn : n ≤ 80) {i : Int}
    (h : |(i : ℚ)| < 10 ^ (99 : Int)) : Run c0 (divTenPow i n) (.ok (decDivTenPow i n)) := by
  have h1 := wide_pow hp hw hn
  obtain ⟨hv, he⟩ := decDivTenPow_value i n
  have h2 := wide_run hp hw (m := (decDivTenPow i n).1) (e := (decDivTenPow i n).2) (by omega) (by
    show |Dec10.V (decDivTenPow i n)| < _
    rw [hv, abs_mul, abs_ten_zpow]
    have h4 : (10 : ℚ) ^ (-(n : Int)) ≤ 10 ^ (0 : Int) := zpow_le_zpow_right₀ (by norm_num) (by omega)
    calc |(i : ℚ)| * 10 ^ (-(n : Int)) ≤ |(i : ℚ)| * 10 ^ (0 : Int) := mul_le_mul_of_nonneg_left h4 (abs_nonneg _)
      _ = |(i : ℚ)| := by simp
      _ < 10 ^ (99 : Int) := h)
  rw [h2.2] at h2
  exact Run.bind h1 (g := fun _ => .ok (decDivTenPow i n)) fun _ _ => h2.1

/-- What `encode_fn` needs: the scaled number. -/
theorem quiet_scaled {abi : Ctx} {n : Nat} {v : PyVal}
    (hp : Run abi (powTen (n : Int)) (.ok (tenPow n)))
    (hm : ∀ x, asDec10? v = some x → Run abi (mul x (tenPow n)) (decMul x (tenPow n))) :
    Quiet (DecimalContext.fixedScaled abi n v) (EthAbi.fixedScaled n v) := by
  unfold DecimalContext.fixedScaled EthAbi.fixedScaled
  cases hx : asDec10? v with
  | none => exact Quiet.plain _
  | some x =>
    refine Quiet.localcontext ?_
    exact Run.then_ hp (Run.bind (hm x hx) fun _ _ => Run.pure _ _)

theorem quiet_ufixed [Ext] {abi : Ctx} {m n d : Nat} {big : Bool} {v : PyVal}
    (hv : Quiet (DecimalContext.fixedValidate abi (unsignedFixedBounds abi m n) n v)
      (EthAbi.fixedValidate (computeUnsignedFixedBounds m n) n v))
    (hs : EthAbi.fixedValidate (computeUnsignedFixedBounds m n) n v = .ok () →
      Quiet (DecimalContext.fixedScaled abi n v) (EthAbi.fixedScaled n v)) :
    Quiet (DecimalContext.ufixedEncode abi m n d big v)
      (fixedSizeEncode (EthAbi.fixedValidate (computeUnsignedFixedBounds m n) n) (ufixedEncodeFn n) big d v) := by
  have hd : fixedSizeEncode (EthAbi.fixedValidate (computeUnsignedFixedBounds m n) n) (ufixedEncodeFn n) big d v =
      (EthAbi.fixedValidate (computeUnsignedFixedBounds m n) n v >>= fun _ => EthAbi.fixedScaled n v >>= fun i =>
        intToBigEndian? i >>= fun base => if big then .ok (zpad base d) else .ok (zpadRight base d)) := by
    unfold fixedSizeEncode ufixedEncodeFn
    cases EthAbi.fixedValidate (computeUnsignedFixedBounds m n) n v with
    | error => rfl
    | ok =>
      cases EthAbi.fixedScaled n v with
      | error => rfl
      | ok i => rfl
  rw [hd]
  refine Quiet.bind hv fun _ h => Quiet.bind (hs h) fun i _ => Quiet.bind (Quiet.plain _) fun base _ => ?_
  cases big <;> exact Quiet.pure _

theorem quiet_sfixed [Ext] {abi : Ctx} {m n d : Nat} {v : PyVal}
    (hv : Quiet (DecimalContext.fixedValidate abi (signedFixedBounds abi m n) n v)
      (EthAbi.fixedValidate (computeSignedFixedBounds m n) n v))
    (hs : EthAbi.fixedValidate (computeSignedFixedBounds m n) n v = .ok () →
      Quiet (DecimalContext.fixedScaled abi n v) (EthAbi.fixedScaled n v)) :
    Quiet (DecimalContext.sfixedEncode abi m n d v)
      (EthAbi.sfixedEncode (EthAbi.fixedValidate (computeSignedFixedBounds m n) n) m n d v) := by
  unfold DecimalContext.sfixedEncode EthAbi.sfixedEncode
  refine Quiet.bind hv fun _ h => Quiet.bind (hs h) fun i _ => Quiet.bind (Quiet.plain _) fun base _ => ?_
  cases asDec10? v with
  | none => exact Quiet.plain _
  | some x =>
    dsimp only
    split <;> exact Quiet.pure _

theorem quiet_ubounds {abi : Ctx} {m n : Nat}
    (hp : Run abi (powTen (-(n : Int))) (.ok (tenPowNeg n)))
    (hm : Run abi (mul (2 ^ m - 1, 0) (tenPowNeg n)) (decMul (2 ^ m - 1, 0) (tenPowNeg n))) :
    Quiet (unsignedFixedBounds abi m n) (computeUnsignedFixedBounds m n) := by
  unfold unsignedFixedBounds computeUnsignedFixedBounds
  refine Quiet.bind (Quiet.localcontext ?_) fun _ _ => Quiet.pure _
  exact Run.then_ hp hm

theorem quiet_sbounds {abi : Ctx} {m n : Nat}
    (hp : Run abi (powTen (-(n : Int))) (.ok (tenPowNeg n)))
    (hl : Run abi (mul (-1 * 2 ^ (m - 1), 0) (tenPowNeg n)) (decMul (-1 * 2 ^ (m - 1), 0) (tenPowNeg n)))
    (hu : Run abi (mul (2 ^ (m - 1) - 1, 0) (tenPowNeg n)) (decMul (2 ^ (m - 1) - 1, 0) (tenPowNeg n))) :
    Quiet (signedFixedBounds abi m n) (computeSignedFixedBounds m n) := by
  unfold signedFixedBounds computeSignedFixedBounds
  refine Quiet.localcontext ?_
  exact Run.then_ hp (Run.bind hl fun _ _ => Run.bind hu fun _ _ => Run.pure _ _)

theorem abi_powNeg {n : Nat} (hn : n ≤ 80) : Run abiContext (powTen (-(n : Int))) (.ok (tenPowNeg n)) := by
  have := powTen_abi (-(n : Int))
  rwa [tenPowInt_neg (by omega)] at this

theorem abi_pow {n : Nat} (hn : n ≤ 80) : Run abiContext (powTen (n : Int)) (.ok (tenPow n)) := by
  have := powTen_abi (n : Int)
  rwa [tenPowInt_pos hn] at this

theorem abi_rem {n : Nat} (hn : n ≤ 80) (x : Dec10) : Quiet (localcontext abiContext (do
    let exp ← powTen (-(n : Int))
    rem x exp)) (decRem x (tenPowNeg n)) :=
  Quiet.localcontext (Run.then_ (abi_powNeg hn) (rem_abi _ _))

/-- What the checks in the constructors leave of the number of places. -/
theorem places_le {n : Nat} (h : checkFrac n = .ok ()) : n ≤ 80 := by
  unfold checkFrac at h
  split at h
  · cases h
  · omega

theorem mkUFixed_places [Ext] {m n d : Nat} {enc : Encoder} (h : mkUFixed m n d = .ok enc) :
    n ≤ 80 ∧ enc.call = fixedSizeEncode (EthAbi.fixedValidate (computeUnsignedFixedBounds m n) n) (ufixedEncodeFn n) true d := by
  unfold mkUFixed at h
  obtain ⟨_, _, h⟩ := bind_eq_ok.1 h
  obtain ⟨_, h1, h⟩ := bind_eq_ok.1 h
  cases h
  exact ⟨places_le h1, rfl⟩

theorem mkSFixed_places [Ext] {m n d : Nat} {enc : Encoder} (h : mkSFixed m n d = .ok enc) :
    n ≤ 80 ∧ enc.call = EthAbi.sfixedEncode (EthAbi.fixedValidate (computeSignedFixedBounds m n) n) m n d := by
  unfold mkSFixed at h
  obtain ⟨_, _, h⟩ := bind_eq_ok.1 h
  obtain ⟨_, h1, h⟩ := bind_eq_ok.1 h
  cases h
  exact ⟨places_le h1, rfl⟩

/-- A number between the bounds of a fixed-point type is small. -/
theorem small_between {m n : Nat} (hm : m ≤ 256) {x : Dec10} {lo hi : Int} (hl : -2 ^ m ≤ lo) (hh : hi ≤ 2 ^ m)
    (h1 : Dec10.V (lo, -(n : Int)) ≤ x.V) (h2 : x.V ≤ Dec10.V (hi, -(n : Int))) : |x.V| * 10 ^ n < 10 ^ (99 : Int) := by
  have hp : (0 : ℚ) < 10 ^ n := by positivity
  have e : ∀ i : Int, Dec10.V (i, -(n : Int)) * 10 ^ n = i := by
    intro i
    rw [Dec10.V, zpow_neg, zpow_natCast, mul_assoc, inv_mul_cancel₀ hp.ne', mul_one]
  have h3 : (lo : ℚ) ≤ x.V * 10 ^ n := by rw [← e lo]; exact mul_le_mul_of_nonneg_right h1 hp.le
  have h4 : x.V * 10 ^ n ≤ hi := by rw [← e hi]; exact mul_le_mul_of_nonneg_right h2 hp.le
  have h5 : ((-2 ^ m : Int) : ℚ) ≤ lo := by exact_mod_cast hl
  have h6 : (hi : ℚ) ≤ ((2 ^ m : Int) : ℚ) := by exact_mod_cast hh
  push_cast at h5 h6
  have h7 : |x.V * 10 ^ n| ≤ 2 ^ m := abs_le.2 ⟨by linarith, by linarith⟩
  rw [abs_mul, abs_of_pos hp] at h7
  calc |x.V| * 10 ^ n ≤ 2 ^ m := h7
    _ < 10 ^ (78 : Int) := pow_bits hm
    _ < 10 ^ (99 : Int) := zpow_lt_zpow_right₀ (by norm_num) (by norm_num)

theorem u_small {m n : Nat} (hm : m ≤ 256) (hn : n ≤ 80) {x : Dec10} {b : Dec10 × Dec10}
    (hb : computeUnsignedFixedBounds m n = .ok b) (h1 : decLt x b.1 = false) (h2 : decLt b.2 x = false) :
    |x.V| * 10 ^ n < 10 ^ (99 : Int) := by
  rw [unsignedFixedBounds_eq hm hn] at hb
  cases hb
  rw [decLt_eq_false_iff] at h1 h2
  refine small_between (lo := 0) hm ?_ ?_ ?_ h2
  · have : (0 : Int) < 2 ^ m := by positivity
    omega
  · omega
  · rw [V_zero] at h1 ⊢; exact h1

theorem s_small {m n : Nat} (hm : m ≤ 256) (hn : n ≤ 80) {x : Dec10} {b : Dec10 × Dec10}
    (hb : computeSignedFixedBounds m n = .ok b) (h1 : decLt x b.1 = false) (h2 : decLt b.2 x = false) :
    |x.V| * 10 ^ n < 10 ^ (99 : Int) := by
  rw [signedFixedBounds_eq hm hn] at hb
  cases hb
  rw [decLt_eq_false_iff] at h1 h2
  exact small_between (m := m - 1) (by omega) (le_refl _) (by omega) h1 h2

theorem validated_between [Ext] {bounds : PyM (Dec10 × Dec10)} {n : Nat} {v : PyVal} {x : Dec10} (hx : asDec10? v = some x)
    (h : EthAbi.fixedValidate bounds n v = .ok ()) :
    ∃ b, bounds = .ok b ∧ decLt x b.1 = false ∧ decLt b.2 x = false := by
  rw [asDec10_eq] at hx
  rw [fixedValidate_number bounds n hx] at h
  obtain ⟨b, hb, h⟩ := bind_eq_ok.1 h
  refine ⟨b, hb, ?_⟩
  split at h
  · cases h
  · next hc => simpa using hc

theorem wide_residue {abi : Ctx} (hp : abi.prec = 999) (hw : Wide abi) {n : Nat} (hn : n ≤ 80) {x : Dec10} (hx : -900 ≤ x.2)
    (hV : |x.V| * 10 ^ n < 10 ^ (99 : Int)) : Quiet (localcontext abi (do
    let exp ← powTen (-(n : Int))
    rem x exp)) (decRem x (tenPowNeg n)) :=
  Quiet.localcontext (Run.then_ (wide_powNeg hp hw hn) (wide_rem hp hw hn hx hV))

theorem wide_u [Ext] {abi : Ctx} (hp : abi.prec = 999) (hw : Wide abi) {m n d : Nat} {big : Bool} (hm : m ≤ 256) (hn : n ≤ 80)
    {v : PyVal} (hv : ∀ x, asDec10? v = some x → -900 ≤ x.2) :
    Quiet (DecimalContext.ufixedEncode abi m n d big v)
      (fixedSizeEncode (EthAbi.fixedValidate (computeUnsignedFixedBounds m n) n) (ufixedEncodeFn n) big d v) := by
  have hpos : (0 : Int) < 2 ^ m := by positivity
  refine quiet_ufixed (quiet_validate (quiet_ubounds (wide_powNeg hp hw hn)
    (wide_mul_bound hp hw hm hn (by omega) (by omega))) ?_) ?_
  · intro x b hx hb h1 h2
    exact wide_residue hp hw hn (hv x hx) (u_small hm hn hb h1 h2)
  · intro h
    refine quiet_scaled (wide_pow hp hw hn) fun x hx => ?_
    obtain ⟨b, hb, h1, h2⟩ := validated_between hx h
    exact wide_mul hp hw (hv x hx) (u_small hm hn hb h1 h2)

theorem wide_s [Ext] {abi : Ctx} (hp : abi.prec = 999) (hw : Wide abi) {m n d : Nat} (hm : m ≤ 256) (hn : n ≤ 80)
    {v : PyVal} (hv : ∀ x, asDec10? v = some x → -900 ≤ x.2) :
    Quiet (DecimalContext.sfixedEncode abi m n d v)
      (EthAbi.sfixedEncode (EthAbi.fixedValidate (computeSignedFixedBounds m n) n) m n d v) := by
  have hpos : (0 : Int) < 2 ^ (m - 1) := by positivity
  refine quiet_sfixed (quiet_validate (quiet_sbounds (wide_powNeg hp hw hn)
    (wide_mul_bound (m := m - 1) hp hw (by omega) hn (by omega) (by omega))
    (wide_mul_bound (m := m - 1) hp hw (by omega) hn (by omega) (by omega))) ?_) ?_
  · intro x b hx hb h1 h2
    exact wide_residue hp hw hn (hv x hx) (s_small hm hn hb h1 h2)
  · intro h
    refine quiet_scaled (wide_pow hp hw hn) fun x hx => ?_
    obtain ⟨b, hb, h1, h2⟩ := validated_between hx h
    exact wide_mul hp hw (hv x hx) (s_small hm hn hb h1 h2)

/-! ## Decoding -/

theorem readFixed_length {st st' : Stream} {raw : Bytes} (h : readFixed 32 st = .ok (raw, st')) : raw.length = 32 := by
  unfold readFixed at h
  obtain ⟨⟨data, s⟩, _, h⟩ := bind_eq_ok.1 h
  dsimp only at h
  split at h
  · cases h
  · next hc =>
    cases h
    exact not_not.1 hc

theorem quiet_decode {m : Nat} {fn : Bytes → DM PyVal} {pf : Bytes → PyM PyVal} {neg : PyVal → Bool}
    (h : ∀ data : Bytes, data.length ≤ 32 → Quiet (fn data) (pf data)) (st : Stream) :
    Quiet (DecimalContext.decodeFixed m fn neg st) (decodeFixed32 m true pf neg st) := by
  unfold DecimalContext.decodeFixed decodeFixed32
  refine Quiet.bind (Quiet.plain _) fun r hr => ?_
  obtain ⟨raw, st'⟩ := r
  have hl := readFixed_length hr
  have hd : (raw.drop (32 - m / 8)).length ≤ 32 := by rw [List.length_drop]; omega
  exact Quiet.bind (h _ hd) fun _ _ => Quiet.bind (Quiet.plain _) fun _ _ => Quiet.pure _

theorem data_small {data : Bytes} (h : data.length ≤ 32) : bigEndianToInt data < 2 ^ 256 := by
  refine lt_of_lt_of_le (bigEndianToInt_lt data) ?_
  calc 256 ^ data.length ≤ 256 ^ 32 := Nat.pow_le_pow_right (by norm_num) h
    _ = 2 ^ 256 := by norm_num

theorem int_small {i : Int} (h1 : -2 ^ 256 ≤ i) (h2 : i ≤ 2 ^ 256) : |(i : ℚ)| < 10 ^ (99 : Int) := by
  have h3 : |i| ≤ 2 ^ 256 := abs_le.2 ⟨h1, h2⟩
  have h4 : |(i : ℚ)| ≤ 2 ^ 256 := by exact_mod_cast h3
  exact lt_of_le_of_lt h4 (by norm_num)

theorem wide_ufn {abi : Ctx} (hp : abi.prec = 999) (hw : Wide abi) {n : Nat} (hn : n ≤ 80) {data : Bytes}
    (h : data.length ≤ 32) : Quiet (ufixedDecoderFn abi n data) (.ok (decVal (decDivTenPow (bigEndianToInt data) n))) := by
  have := data_small h
  exact Quiet.bind (Quiet.localcontext (wide_div hp hw hn (int_small (by omega) (by omega)))) fun _ _ => Quiet.pure _

theorem wide_sfn {abi : Ctx} (hp : abi.prec = 999) (hw : Wide abi) {m n : Nat} (hm : m ≤ 256) (hn : n ≤ 80) {data : Bytes}
    (h : data.length ≤ 32) :
    Quiet (sfixedDecoderFn abi m n data) (.ok (decVal (decDivTenPow (toSigned m data) n))) := by
  have := data_small h
  have h2 : (2 : Int) ^ m ≤ 2 ^ 256 := pow_le_pow_right₀ (by norm_num) hm
  have h3 : (0 : Int) < 2 ^ m := by positivity
  have hs : -2 ^ 256 ≤ toSigned m data ∧ toSigned m data ≤ 2 ^ 256 := by
    simp only [toSigned]
    split <;> constructor <;> omega
  exact Quiet.bind (Quiet.localcontext (wide_div hp hw hn (int_small hs.1 hs.2))) fun _ _ => Quiet.pure _

theorem checkSizesD_le {m : Nat} (h : checkSizesD m 32 = .ok ()) : m ≤ 256 := by
  unfold checkSizesD at h
  split at h
  · cases h
  · split at h
    · cases h
    · omega

theorem placesD_le {n : Nat} (h : checkFracD n = .ok ()) : n ≤ 80 := by
  unfold checkFracD at h
  split at h
  · cases h
  · omega

end EthAbi.DecimalContext
