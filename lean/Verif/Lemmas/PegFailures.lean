import Verif.Model.PegFailures
import Verif.Lemmas.Peg

/-!
# The failures of the grammar's expressions, rule by rule
-/
namespace EthAbi
namespace Peg

theorem reads_none [Ext] {s : List Char} {x : Option (Node × List Char)} {o : Option (PyM Res × List Char)} (h : Reads s x o) :
    x.isNone = o.isNone := by
  cases o with
  | none => have h' : x = none := h; rw [h']; rfl
  | some y => obtain ⟨-, n, e, -⟩ := h; rw [e]; rfl

theorem own_none (named : Bool) (s : List Char) : own none named s = [⟨named, s⟩] := rfl

theorem own_some (x : Node × List Char) (named : Bool) (s : List Char) : own (some x) named s = [] := rfl

theorem own_map (f : Node × List Char → Node × List Char) (x : Option (Node × List Char)) (named : Bool) (s : List Char) :
    own (x.map f) named s = own x named s := by
  cases x <;> rfl

theorem own_map' {α : Type} (f : α → Node × List Char) (x : Option α) (named : Bool) (s : List Char) :
    own (x.map f) named s = if x.isNone then [⟨named, s⟩] else [] := by
  cases x <;> rfl

theorem own_reads [Ext] {α : Type} {s : List Char} {x : Option (Node × List Char)} {o : Option α} {g : α → PyM Res × List Char}
    (h : Reads s x (o.map g)) (named : Bool) : own x named s = if o.isNone then [⟨named, s⟩] else [] := by
  cases o with
  | none => have h' : x = none := h; rw [h']; rfl
  | some y => obtain ⟨-, n, e, -⟩ := h; rw [e]; rfl

theorem fails_lit [Ext] (f : Nat) (b : Bool) (c : Char) (r : List Char) : fails (f + 1) b (.lit [c]) (c :: r) = [] := by
  simp only [fails, run_lit, own_some]

theorem fails_lit_ne [Ext] (f : Nat) (c : Char) (s : List Char) (h : ∀ r, s ≠ c :: r) :
    fails (f + 1) false (.lit [c]) s = [.part s] := by
  simp only [fails, run_lit_ne f c s h, own_none, Failure.part]

theorem failsSeq_nil (m : Matcher) (k : Expr → List Char → List Failure) (s : List Char) : failsSeq m k [] s = [] := rfl

theorem failsSeq_some {m : Matcher} {k : Expr → List Char → List Failure} {e : Expr} {s r : List Char} {n : Node}
    (h : m e s = some (n, r)) (es : List Expr) : failsSeq m k (e :: es) s = k e s ++ failsSeq m k es r := by
  simp only [failsSeq, h]

theorem failsSeq_none {m : Matcher} {k : Expr → List Char → List Failure} {e : Expr} {s : List Char}
    (h : m e s = none) (es : List Expr) : failsSeq m k (e :: es) s = k e s := by
  simp only [failsSeq, h, List.append_nil]

theorem digits_fails [Ext] (f : Nat) (b : Bool) (s : List Char) : fails (f + 2) b (.ref .digits) s = tDigits s := by
  have h := own_reads (digits_run f s) true
  have : run (f + 2) (.ref .digits) s = (run (f + 1) (grammar .digits) s).map fun x => (x.1.named .digits, x.2) := rfl
  rw [this, own_map] at h
  show own (run (f + 1) (grammar .digits) s) true s = _
  rw [h, tDigits]
  cases pDigits s <;> rfl

theorem base_fails [Ext] (f : Nat) (b : Bool) (s : List Char) : fails (f + 3) b (.ref .base) s = (match pAlphas s with
    | some _ => []
    | none => [.rule s]) := by
  have h := own_reads (alphas_run f s) true
  have : run (f + 3) (.ref .base) s = (run (f + 1) (grammar .alphas) s).map fun x => (x.1.named .alphas, x.2) := rfl
  rw [this, own_map] at h
  show own (run (f + 1) (grammar .alphas) s) true s = _
  rw [h]
  cases pAlphas s <;> rfl

theorem two_fails [Ext] (f : Nat) (b : Bool) (s : List Char) : fails (f + 4) b (.ref .two_size) s = tTwoSize s := by
  have hown := own_reads (two_run f s) true
  rw [run_two, own_map] at hown
  show failsSeq (run (f + 2)) (fails (f + 2) false) [.ref .digits, .lit t!"x", .ref .digits] s ++
    own (run (f + 3) (.seq [.ref .digits, .lit t!"x", .ref .digits]) s) true s = _
  rw [hown]
  have h1 := digits_run f s
  cases hd : pDigits s with
  | none =>
    rw [hd] at h1
    rw [failsSeq_none h1, digits_fails]
    simp [pTwoSize, tTwoSize, hd, Failure.rule]
  | some x =>
    obtain ⟨m, r⟩ := x
    rw [hd] at h1
    obtain ⟨hl, n1, e1, v1, -⟩ := h1
    rw [failsSeq_some e1, digits_fails]
    by_cases hx : ∃ r', r = 'x' :: r'
    · obtain ⟨r', rfl⟩ := hx
      have h2 := digits_run f r'
      rw [failsSeq_some (run_lit (f + 1) 'x' r'), fails_lit]
      cases hd2 : pDigits r' with
      | none =>
        rw [hd2] at h2
        rw [failsSeq_none h2, digits_fails]
        simp [pTwoSize, tTwoSize, tDigits, hd, hd2, Failure.rule]
      | some y =>
        obtain ⟨k, r2⟩ := y
        rw [hd2] at h2
        obtain ⟨hl2, n2, e2, v2, -⟩ := h2
        rw [failsSeq_some e2, failsSeq_nil, digits_fails]
        simp [pTwoSize, tTwoSize, tDigits, hd, hd2]
    · have hx' : ∀ r', r ≠ 'x' :: r' := fun r' e => hx ⟨r', e⟩
      rw [failsSeq_none (run_lit_ne (f + 1) 'x' r hx')]
      have hp : pTwoSize s = none := by
        unfold pTwoSize
        rw [hd]
        split
        · rename_i heq; cases heq; exact absurd rfl (hx' _)
        · rfl
      have ht : tTwoSize s = [.part r, .rule s] := by
        unfold tTwoSize
        rw [hd]
        split
        · rename_i heq; cases heq; exact absurd rfl (hx' _)
        · rename_i heq; cases heq; rfl
        · rename_i heq; cases heq
      rw [hp, ht]
      have : fails (f + 2) false (.lit ['x']) r = [.part r] := fails_lit_ne (f + 1) 'x' r hx'
      simp [tDigits, hd, this, Failure.rule]

/-- The failures of `sub`. -/
def tSubIn (s : List Char) : List Failure :=
  match pTwoSize s with
  | some _ => []
  | none =>
    match pDigits s with
    | some _ => tTwoSize s
    | none => tTwoSize s ++ tDigits s ++ [.rule s]

theorem sub_fails [Ext] (f : Nat) (b : Bool) (s : List Char) : fails (f + 6) b (.ref .sub) s = tSubIn s := by
  show failsOneOf (run (f + 4)) (fails (f + 4) false) [.ref .two_size, .ref .digits] s ++
    own (run (f + 5) (.oneOf [.ref .two_size, .ref .digits]) s) true s = _
  have h1 := two_run f s
  have h2 := digits_run (f + 2) s
  rw [run_oneOf, own_map]
  unfold tSubIn
  cases ht : pTwoSize s with
  | some x =>
    rw [ht] at h1
    obtain ⟨hl, n, e, -⟩ := h1
    have ht0 : tTwoSize s = [] := by
      unfold pTwoSize at ht
      unfold tTwoSize
      split at ht
      · rename_i heq
        rw [heq]
        split at ht
        · rename_i heq2; simp [heq2]
        · cases ht
      · cases ht
    simp only [failsOneOf, runOneOf, e, two_fails, ht0, own_some, List.append_nil]
  | none =>
    rw [ht] at h1
    have h1' : run (f + 4) (.ref .two_size) s = none := h1
    have hd' : fails (f + 4) false (.ref .digits) s = tDigits s := digits_fails (f + 2) false s
    cases hd : pDigits s with
    | none =>
      rw [hd] at h2
      have h2' : run (f + 4) (.ref .digits) s = none := h2
      simp [failsOneOf, runOneOf, h1', h2', two_fails, hd', own_none, Failure.rule]
    | some x =>
      rw [hd] at h2
      obtain ⟨hl, n, e, -⟩ := h2
      have e' : run (f + 4) (.ref .digits) s = some (n, x.2) := e
      have h0 : tDigits s = [] := by simp [tDigits, hd]
      simp [failsOneOf, runOneOf, h1', e', two_fails, hd', h0, own_some]

theorem opt_fails [Ext] {f : Nat} {e : Expr} {s : List Char} {o : Option (PyM Res × List Char)}
    (h : Reads s (run f e s) o) (b : Bool) : fails (f + 1) b (.opt e) s = repeated s (fails f false e s) := by
  obtain ⟨n0, e0, -⟩ := opt_run h
  show failsMany (run f) (fails f false) e 0 (some 1) (s.length + 1) 0 s ++ own (run (f + 1) (.opt e) s) b s = _
  rw [e0, own_some, List.append_nil]
  have hmax : ∀ k r, failsMany (run f) (fails f false) e 0 (some 1) k (0 + 1) r = [] := by
    intro k r
    cases k <;> simp [failsMany]
  simp only [failsMany, repeated]
  by_cases hs : s = [] ∧ Ext.triesAtEnd = false
  · rw [if_pos (.inl hs), if_pos hs]
  · rw [if_neg (by simpa using hs), if_neg hs]
    cases o with
    | none =>
      have h' : run f e s = none := h
      rw [h']; simp
    | some x =>
      obtain ⟨-, n, e1, -, hn⟩ := h
      rw [e1]
      simp [hmax]

theorem const_fails [Ext] (f : Nat) (b : Bool) (s : List Char) : fails (f + 4) b (.ref .const_arr) s = tConstArr s ∧
    ((run (f + 4) (.ref .const_arr) s).isNone = (match s with
      | '[' :: r => (match pDigits r with
        | some (_, ']' :: _) => false
        | _ => true)
      | _ => true)) := by
  show failsSeq (run (f + 2)) (fails (f + 2) false) [.lit t!"[", .ref .digits, .lit t!"]"] s ++
    own (run (f + 3) (.seq [.lit t!"[", .ref .digits, .lit t!"]"]) s) true s = _ ∧ _
  rw [run_const (f + 3), run_seq]
  by_cases hs : ∃ r, s = '[' :: r
  · obtain ⟨r, rfl⟩ := hs
    have h1 := digits_run f r
    rw [runSeq_some (run_lit (f + 1) '[' r), failsSeq_some (run_lit (f + 1) '[' r), fails_lit]
    cases hd : pDigits r with
    | none =>
      rw [hd] at h1
      rw [failsSeq_none h1, runSeq_none h1, digits_fails]
      simp [tConstArr, hd, own_none, Failure.rule]
    | some x =>
      obtain ⟨n, r1⟩ := x
      rw [hd] at h1
      obtain ⟨hl, n1, e1, v1, -⟩ := h1
      rw [failsSeq_some e1, runSeq_some e1, digits_fails]
      by_cases hr : ∃ r', r1 = ']' :: r'
      · obtain ⟨r', rfl⟩ := hr
        rw [runSeq_some (run_lit (f + 1) ']' r'), runSeq_nil, failsSeq_some (run_lit (f + 1) ']' r'), failsSeq_nil, fails_lit]
        simp [tConstArr, tDigits, hd, own_some]
      · have h' : ∀ r', r1 ≠ ']' :: r' := fun r' e => hr ⟨r', e⟩
        have hl' : fails (f + 2) false (.lit [']']) r1 = [.part r1] := fails_lit_ne (f + 1) ']' r1 h'
        rw [runSeq_none (run_lit_ne (f + 1) ']' r1 h'), failsSeq_none (run_lit_ne (f + 1) ']' r1 h'), hl']
        constructor
        · have : tConstArr ('[' :: r) = [.part r1, .rule ('[' :: r)] := by
            simp only [tConstArr, hd]
          simp [this, tDigits, hd, own_none, Failure.rule]
        · simp only [Option.map_none, Option.isNone_none, hd]
          split
          · rename_i heq; cases heq; exact absurd rfl (h' _)
          · rfl
  · have h' : ∀ r, s ≠ '[' :: r := fun r e => hs ⟨r, e⟩
    have hl' : fails (f + 2) false (.lit ['[']) s = [.part s] := fails_lit_ne (f + 1) '[' s h'
    rw [runSeq_none (run_lit_ne (f + 1) '[' s h'), failsSeq_none (run_lit_ne (f + 1) '[' s h'), hl']
    have : tConstArr s = [.part s, .rule s] := by
      unfold tConstArr
      split
      · exact absurd rfl (h' _)
      · rfl
    constructor
    · rw [this]; rfl
    · split
      · exact absurd rfl (h' _)
      · rfl

theorem dim_fails [Ext] (f : Nat) (s : List Char) : fails (f + 5) false dimE s = tDim s := by
  show failsOneOf (run (f + 4)) (fails (f + 4) false) [.ref .const_arr, .ref .dynam_arr] s ++
    own (run (f + 5) (.oneOf [.ref .const_arr, .ref .dynam_arr]) s) false s = _
  obtain ⟨hc, hcn⟩ := const_fails f false s
  have hd := dim_run f s
  have hown := own_reads hd false
  have hdyn : fails (f + 4) false (.ref .dynam_arr) s = own (run (f + 3) (.lit t!"[]") s) true s := rfl
  have hdyn' : run (f + 4) (.ref .dynam_arr) s = (run (f + 3) (.lit t!"[]") s).map fun x => (x.1.named .dynam_arr, x.2) := rfl
  have hrun := reads_none hd
  rw [run_oneOf, Option.isNone_map, Option.isNone_map] at hrun
  unfold tDim
  simp only [failsOneOf, hc, hdyn, List.append_nil]
  have hown' : own (run (f + 5) (.oneOf [.ref .const_arr, .ref .dynam_arr]) s) false s =
      if (pDim s).isNone then [⟨false, s⟩] else [] := hown
  rw [hown']
  cases hcr : run (f + 4) (.ref .const_arr) s with
  | some x =>
    simp only [runOneOf, hcr, Option.isNone_some] at hrun
    cases hp : pDim s with
    | none => rw [hp] at hrun; cases hrun
    | some y => simp
  | none =>
    simp only [runOneOf, hcr] at hrun
    rw [hdyn'] at hrun
    cases hp : pDim s with
    | none =>
      rw [hp] at hrun
      cases hl : run (f + 3) (.lit t!"[]") s with
      | none => simp [hl, own_none, hdyn', Failure.rule, Failure.part]
      | some z => rw [hl] at hrun; cases hrun
    | some y =>
      rw [hp] at hrun
      cases hl : run (f + 3) (.lit t!"[]") s with
      | none => rw [hl] at hrun; cases hrun
      | some z => simp [hl, own_some, hdyn']

theorem failsMany_dims [Ext] (f : Nat) : ∀ (fuel rounds count : Nat) (s : List Char), s.length < rounds → s.length < fuel →
    failsMany (run (f + 5)) (fails (f + 5) false) dimE 1 none rounds count s = tDims fuel s
  | 0, _, _, s, _, h => absurd h (by omega)
  | _ + 1, 0, _, s, h, _ => absurd h (by omega)
  | fuel + 1, rounds + 1, count, s, hr, hf => by
    have h := dim_run f s
    simp only [failsMany, tDims, repeated, reduceCtorEq, or_false]
    split
    · rfl
    · rw [dim_fails]
      cases hd : pDim s with
      | none =>
        rw [hd] at h
        have h' : run (f + 5) dimE s = none := h
        rw [h']; simp
      | some x =>
        obtain ⟨d, r⟩ := x
        rw [hd] at h
        obtain ⟨hl, n, e, v, hn⟩ := h
        dsimp only at hl
        have e' : run (f + 5) dimE s = some (n, r) := e
        rw [e']
        simp only [hn, and_false, if_false]
        rw [failsMany_dims f fuel rounds (count + 1) r (by omega) (by omega)]

theorem arr_fails [Ext] (f fuel : Nat) (b : Bool) (s : List Char) (hf : s.length < fuel) :
    fails (f + 8) b (.opt (.ref .arrlist)) s = tArr fuel s := by
  obtain ⟨ns, h1, h2, h3, h4⟩ := runMany_dims f fuel (s.length + 1) 0 s (by omega) hf
  obtain ⟨n0, e0, -⟩ := arr_run f fuel s hf
  have hin : fails (f + 7) false (.ref .arrlist) s = (match pDim s with
      | some _ => tDims fuel s
      | none => tDims fuel s ++ [.rule s]) := by
    show failsMany (run (f + 5)) (fails (f + 5) false) dimE 1 none (s.length + 1) 0 s ++
      own (run (f + 6) (.quant dimE 1 none) s) true s = _
    rw [failsMany_dims f fuel (s.length + 1) 0 s (by omega) hf]
    simp only [run, h1]
    obtain ⟨fuel, rfl⟩ : ∃ g, fuel = g + 1 := ⟨fuel - 1, by omega⟩
    rw [h2]
    cases hd : pDim s with
    | none => simp [pArr, hd, own_none, Failure.rule]
    | some x => simp [pArr, hd, own_some]
  have hq : ∃ o, Reads s (run (f + 7) (.ref .arrlist) s) o := by
    cases hr : run (f + 7) (.ref .arrlist) s with
    | none => exact ⟨none, rfl⟩
    | some x =>
      obtain ⟨fuel, rfl⟩ : ∃ g, fuel = g + 1 := ⟨fuel - 1, by omega⟩
      have hrun := run_arrlist (f + 6) s
      rw [hr] at hrun
      simp only [run, h1] at hrun
      rw [h2] at hrun
      cases hd : pDim s with
      | none => simp [pArr, hd] at hrun
      | some y =>
        have hdim := dim_run f s
        rw [hd] at hdim
        obtain ⟨hl, -⟩ := hdim
        obtain ⟨-, -, -, -, h5⟩ := runMany_dims f fuel (y.2.length + 1) 0 y.2 (by omega) (by omega)
        have hl' : (pArr (fuel + 1) s).2.length < s.length := by
          simp only [pArr, hd]
          omega
        rw [if_pos (by simp [pArr, hd])] at hrun
        simp only [Option.map_some, Node.named, Option.some.injEq] at hrun
        refine ⟨some (visit x.1, x.2), ?_⟩
        rw [hrun]
        exact ⟨hl', _, rfl, rfl, before_ne hl'⟩
  obtain ⟨o, ho⟩ := hq
  rw [opt_fails ho, hin]
  rfl

theorem basic_fails [Ext] (f fuel : Nat) (b : Bool) (s : List Char) (hf : s.length ≤ fuel) :
    fails (f + 10) b (.ref .basic_type) s = tBasic fuel s := by
  have hown := own_reads (basic_run f fuel s hf) true
  rw [run_basic, own_map] at hown
  show failsSeq (run (f + 8)) (fails (f + 8) false) [.ref .base, .opt (.ref .sub), .opt (.ref .arrlist)] s ++
    own (run (f + 9) (.seq [.ref .base, .opt (.ref .sub), .opt (.ref .arrlist)]) s) true s = _
  rw [hown]
  have h1 := alphas_run (f + 5) s
  have hb : fails (f + 8) false (.ref .base) s = _ := base_fails (f + 5) false s
  unfold tBasic
  cases ha : pAlphas s with
  | none =>
    rw [ha] at h1 hb
    rw [failsSeq_none h1, hb]
    simp [pBasic, ha, Failure.rule]
  | some x =>
    obtain ⟨base, r⟩ := x
    rw [ha] at h1 hb
    obtain ⟨hl, n1, e1, v1, -⟩ := h1
    try dsimp only at hl
    obtain ⟨n2, e2, v2⟩ := opt_run (sub_run (f + 1) r)
    have hsub : ((subOut r).map Prod.snd).getD r = (pSub r).2 ∧ (pSub r).2.length ≤ r.length := by
      have h := sub_run 0 r
      have hnone : (pSub r).1 = .none → (pSub r).2 = r := by
        unfold pSub
        split
        · rename_i x hx
          unfold pTwoSize at hx
          split at hx
          · split at hx
            · cases hx; intro h; cases h
            · cases hx
          · cases hx
        · split
          · intro h; cases h
          · intro; rfl
      unfold subOut at h ⊢
      rcases hp : pSub r with ⟨sub, r'⟩
      rw [hp] at h hnone
      cases sub with
      | none => exact ⟨(hnone rfl).symm, Nat.le_of_eq (congrArg List.length (hnone rfl))⟩
      | one n => exact ⟨rfl, Nat.le_of_lt h.1⟩
      | two m n => exact ⟨rfl, Nat.le_of_lt h.1⟩
    rw [hsub.1] at e2
    have hl2 := hsub.2
    have hs : fails (f + 8) false (.opt (.ref .sub)) r = tSub r := by
      have := opt_fails (sub_run (f + 1) r) false
      rw [sub_fails] at this
      exact this
    obtain ⟨n3, e3, v3, hl3⟩ := arr_run f fuel (pSub r).2 (by omega)
    have h3 := arr_fails f fuel false (pSub r).2 (by omega)
    have e1' : run (f + 8) (.ref .base) s = some (n1, r) := e1
    rw [failsSeq_some e1', failsSeq_some e2, failsSeq_some e3, failsSeq_nil, hb, hs, h3]
    simp [pBasic, ha]

/-- The claim for the strings of at most a length. -/
def TypeFails [Ext] (k : Nat) : Prop :=
  ∀ (s : List Char), s.length ≤ k → ∀ (F fuel : Nat) (b : Bool), depth s ≤ F → s.length < fuel →
    fails F b (.ref .type) s = tType fuel s

/-- The failures of `next_type`. -/
def tNext [Ext] (fuel : Nat) (s : List Char) : List Failure :=
  match s with
  | ',' :: r => tType fuel r ++ (if (pType fuel r).isNone then [.rule s] else [])
  | s => [.part s, .rule s]

theorem tNext_ne [Ext] (fuel : Nat) (s : List Char) (h : ∀ r, s ≠ ',' :: r) : tNext fuel s = [.part s, .rule s] := by
  unfold tNext
  split
  · exact absurd rfl (h _)
  · rfl

theorem next_fails [Ext] {k : Nat} (ih : TypeFails k) {f fuel : Nat} {s : List Char} (hs : s.length ≤ k + 1)
    (hF : 12 * s.length + 12 ≤ f) (hf : s.length < fuel + 1) (b : Bool) :
    fails (f + 2) b (.ref .next_type) s = tNext fuel s := by
  show failsSeq (run f) (fails f false) [.lit t!",", .ref .type] s ++
    own (run (f + 1) (.seq [.lit t!",", .ref .type]) s) true s = _
  rw [run_seq, own_map']
  obtain ⟨f, rfl⟩ : ∃ g, f = g + 1 := ⟨f - 1, by omega⟩
  by_cases hc : ∃ r, s = ',' :: r
  · obtain ⟨r, rfl⟩ := hc
    simp only [List.length_cons] at hs hF hf
    have h := type_run k r (by omega) (f + 1) fuel (by unfold depth; omega) (by omega)
    have h' := ih r (by omega) (f + 1) fuel false (by unfold depth; omega) (by omega)
    rw [runSeq_some (run_lit f ',' r), failsSeq_some (run_lit f ',' r), fails_lit]
    cases hp : pType fuel r with
    | none =>
      rw [hp] at h
      rw [runSeq_none h, failsSeq_none h, h']
      simp [tNext, hp, Failure.rule]
    | some x =>
      obtain ⟨t, r'⟩ := x
      rw [hp] at h
      obtain ⟨hl, n, e, v, -⟩ := h
      rw [runSeq_some e, runSeq_nil, failsSeq_some e, failsSeq_nil, h']
      simp [tNext, hp]
  · have h' : ∀ r, s ≠ ',' :: r := fun r e => hc ⟨r, e⟩
    rw [runSeq_none (run_lit_ne f ',' s h'), failsSeq_none (run_lit_ne f ',' s h'), fails_lit_ne f ',' s h']
    rw [tNext_ne fuel s h']
    rfl

theorem nexts_fails [Ext] {k : Nat} (ih : TypeFails k) {f : Nat} : ∀ (fuel rounds count : Nat) (s : List Char),
    s.length ≤ k + 1 → 12 * s.length + 12 ≤ f → s.length < rounds → s.length < fuel →
    failsMany (run (f + 2)) (fails (f + 2) false) (.ref .next_type) 0 none rounds count s = tNexts fuel s
  | 0, _, _, s, _, _, _, h => absurd h (by omega)
  | _ + 1, 0, _, s, _, _, h, _ => absurd h (by omega)
  | fuel + 1, rounds + 1, count, s, hs, hF, hr, hf => by
    have h := next_run (type_run k) hs hF hf
    have hx := next_fails ih hs hF hf false
    simp only [failsMany, reduceCtorEq, or_false]
    by_cases hc : ∃ r, s = ',' :: r
    · obtain ⟨r, rfl⟩ := hc
      rw [if_neg (by simp), hx]
      simp only [tNext] at h ⊢
      cases hp : pType fuel r with
      | none =>
        rw [hp] at h
        have h' : run (f + 2) (.ref .next_type) (',' :: r) = none := h
        rw [h']
        simp [tNexts, hp]
      | some x =>
        obtain ⟨t, r'⟩ := x
        rw [hp] at h
        obtain ⟨hl, n, e, v, hn⟩ := h
        try dsimp only at hl
        have e' : run (f + 2) (.ref .next_type) (',' :: r) = some (n, r') := e
        simp only [List.length_cons] at hl hs hF hr hf
        have := nexts_fails ih (f := f) fuel rounds (count + 1) r' (by omega) (by omega) (by omega) (by omega)
        rw [e']
        simp [tNexts, hp, hn, this]
    · have h' : ∀ r, s ≠ ',' :: r := fun r e => hc ⟨r, e⟩
      have h0 : run (f + 2) (.ref .next_type) s = none := by
        split at h
        · exact absurd rfl (h' _)
        · exact h
      have hx' : fails (f + 2) false (.ref .next_type) s = [.part s, .rule s] := by
        rw [hx, tNext_ne fuel s h']
      have hp : tNexts (fuel + 1) s = repeated s [.part s, .rule s] := by
        unfold tNexts
        split
        · exact absurd rfl (h' _)
        · rfl
      rw [hp, h0, hx']
      simp [repeated]

/-- The failures of `tuple_type`. -/
def tTuple [Ext] (fuel : Nat) (s : List Char) : List Failure :=
  match s with
  | '(' :: r =>
    match pType fuel r with
    | some (_, r1) =>
      match pNexts fuel r1 with
      | (_, ')' :: r2) => tType fuel r ++ tNexts fuel r1 ++ tArr fuel r2
      | (_, r2) => tType fuel r ++ tNexts fuel r1 ++ [.part r2, .rule s, .rule s]
    | none => tType fuel r ++ [.rule s, .rule s]
  | s => [.part s, .rule s, .rule s]

theorem fails_quant_nexts [Ext] (f : Nat) (s : List Char) :
    fails (f + 1) false (.quant (.ref .next_type) 0 none) s =
      failsMany (run f) (fails f false) (.ref .next_type) 0 none (s.length + 1) 0 s := by
  simp only [fails, run_quant_nexts, own_some, List.append_nil]

theorem tuple_fails [Ext] {k : Nat} (ih : TypeFails k) {f fuel : Nat} {s : List Char} (hs : s.length ≤ k + 1)
    (hF : 12 * s.length + 12 ≤ f) (hf : s.length ≤ fuel) (b : Bool) :
    fails (f + 8) b (.ref .tuple_type) s = tTuple fuel s := by
  have hown := own_reads (tuple_run (type_run k) hs hF hf) true
  rw [run_tuple, own_map] at hown
  show failsSeq (run (f + 6)) (fails (f + 6) false) [.ref .components, .opt (.ref .arrlist)] s ++
    own (run (f + 7) (.seq [.ref .components, .opt (.ref .arrlist)]) s) true s = _
  rw [hown]
  have hcf : fails (f + 6) false (.ref .components) s =
      failsSeq (run (f + 3)) (fails (f + 3) false) [.lit t!"(", .ref .type, .quant (.ref .next_type) 0 none, .lit t!")"] s ++
        own (run (f + 4) (.seq [.lit t!"(", .ref .type, .quant (.ref .next_type) 0 none, .lit t!")"]) s) true s := rfl
  have hcomp := run_components (f + 4) s
  rw [run_seq, own_map'] at hcf
  rw [run_seq] at hcomp
  by_cases hc : ∃ r, s = '(' :: r
  · obtain ⟨r, rfl⟩ := hc
    simp only [List.length_cons] at hs hF hf
    have h := type_run k r (by omega) (f + 3) fuel (by unfold depth; omega) (by omega)
    have ht := ih r (by omega) (f + 3) fuel false (by unfold depth; omega) (by omega)
    rw [runSeq_some (run_lit (f + 2) '(' r)] at hcomp hcf
    rw [failsSeq_some (run_lit (f + 2) '(' r), fails_lit] at hcf
    cases hp : pType fuel r with
    | none =>
      rw [hp] at h
      rw [runSeq_none h] at hcomp hcf
      rw [failsSeq_none h, ht] at hcf
      rw [failsSeq_none hcomp, hcf]
      simp [pTuple, tTuple, hp, own_none, Failure.rule]
    | some x =>
      obtain ⟨t, r1⟩ := x
      rw [hp] at h
      obtain ⟨hl, n1, e1, v1, -⟩ := h
      try dsimp only at hl
      obtain ⟨ns, h1, h2, h3⟩ := nexts_run (type_run k) (f := f) fuel (r1.length + 1) 0 r1 (by omega) (by omega) (by omega)
        (by omega)
      have hnf := nexts_fails ih (f := f) fuel (r1.length + 1) 0 r1 (by omega) (by omega) (by omega) (by omega)
      have hq := run_quant_nexts (f + 2) r1
      have hqf := fails_quant_nexts (f + 2) r1
      rw [h1] at hq
      rw [hnf] at hqf
      rw [runSeq_some e1, runSeq_some hq] at hcomp hcf
      rw [failsSeq_some e1, failsSeq_some hq, ht, hqf] at hcf
      rcases hn : pNexts fuel r1 with ⟨ts, r2⟩
      rw [hn] at hcomp hcf h3
      by_cases hr : ∃ r', r2 = ')' :: r'
      · obtain ⟨r', rfl⟩ := hr
        simp only [List.length_cons] at h3
        dsimp only at hcomp hcf
        rw [runSeq_some (run_lit (f + 2) ')' r'), runSeq_nil] at hcomp hcf
        rw [failsSeq_some (run_lit (f + 2) ')' r'), failsSeq_nil, fails_lit] at hcf
        simp only [Option.map_some] at hcomp
        obtain ⟨f', rfl⟩ : ∃ g, f = g + 2 := ⟨f - 2, by omega⟩
        obtain ⟨n3, e3, v3, hl3⟩ := arr_run f' fuel r' (by omega)
        have h3f := arr_fails f' fuel false r' (by omega)
        rw [failsSeq_some hcomp, failsSeq_some e3, failsSeq_nil, h3f, hcf]
        simp [pTuple, tTuple, hp, hn, own_some]
      · have h' : ∀ r', r2 ≠ ')' :: r' := fun r e => hr ⟨r, e⟩
        have hlf : fails (f + 3) false (.lit [')']) r2 = [.part r2] := fails_lit_ne (f + 2) ')' r2 h'
        dsimp only at hcomp hcf
        rw [runSeq_none (run_lit_ne (f + 2) ')' r2 h')] at hcomp hcf
        rw [failsSeq_none (run_lit_ne (f + 2) ')' r2 h'), hlf] at hcf
        rw [failsSeq_none hcomp, hcf]
        have h0 : pTuple fuel ('(' :: r) = none := by
          simp only [pTuple, hp, hn]
          split
          · rename_i heq; cases heq; exact absurd rfl (h' _)
          · rfl
        have h1 : tTuple fuel ('(' :: r) =
            tType fuel r ++ tNexts fuel r1 ++ [.part r2, .rule ('(' :: r), .rule ('(' :: r)] := by
          simp only [tTuple, hp, hn]
        rw [h0, h1]
        simp [own_none, Failure.rule]
  · have h' : ∀ r, s ≠ '(' :: r := fun r e => hc ⟨r, e⟩
    have hlf : fails (f + 3) false (.lit ['(']) s = [.part s] := fails_lit_ne (f + 2) '(' s h'
    rw [runSeq_none (run_lit_ne (f + 2) '(' s h')] at hcomp hcf
    rw [failsSeq_none (run_lit_ne (f + 2) '(' s h'), hlf] at hcf
    rw [failsSeq_none hcomp, hcf]
    have h0 : pTuple fuel s = none := by
      unfold pTuple
      split
      · exact absurd rfl (h' _)
      · rfl
    have h1 : tTuple fuel s = [.part s, .rule s, .rule s] := by
      unfold tTuple
      split
      · exact absurd rfl (h' _)
      · rfl
    rw [h0, h1]
    rfl

theorem tType_eq [Ext] (fuel : Nat) (s : List Char) :
    tType (fuel + 1) s = tTuple fuel s ++ (if (pTuple fuel s).isNone then
      tBasic fuel s ++ (if (pBasic fuel s).isNone then [.rule s] else []) else []) := by
  by_cases hc : ∃ r, s = '(' :: r
  · obtain ⟨r, rfl⟩ := hc
    have hb : pBasic fuel ('(' :: r) = none := by simp [pBasic, pAlphas, isAlph]
    cases hp : pType fuel r with
    | none => simp [tType, tTuple, pTuple, hb, hp]
    | some x =>
      obtain ⟨t, r1⟩ := x
      obtain ⟨ts, r2, hn⟩ : ∃ ts r2, pNexts fuel r1 = (ts, r2) := ⟨_, _, rfl⟩
      by_cases h2 : ∃ r', r2 = ')' :: r'
      · obtain ⟨r', rfl⟩ := h2; simp [tType, tTuple, pTuple, hp, hn]
      · have h' : ∀ r', r2 ≠ ')' :: r' := fun r e => h2 ⟨r, e⟩
        have h0 : pTuple fuel ('(' :: r) = none := by
          simp only [pTuple, hp, hn]
          split
          · rename_i heq; cases heq; exact absurd rfl (h' _)
          · rfl
        have h1 : tTuple fuel ('(' :: r) =
            tType fuel r ++ tNexts fuel r1 ++ [.part r2, .rule ('(' :: r), .rule ('(' :: r)] := by
          simp only [tTuple, hp, hn]
        have h3 : tType (fuel + 1) ('(' :: r) =
            tType fuel r ++ tNexts fuel r1 ++ [.part r2, .rule ('(' :: r), .rule ('(' :: r)] ++
              tBasic fuel ('(' :: r) ++ [.rule ('(' :: r)] := by
          simp only [tType, hp, hn]
        rw [h0, h1, h3, hb]
        simp
  · have h' : ∀ r, s ≠ '(' :: r := fun r e => hc ⟨r, e⟩
    have h0 : pTuple fuel s = none := by
      unfold pTuple
      split
      · exact absurd rfl (h' _)
      · rfl
    have h1 : tTuple fuel s = [.part s, .rule s, .rule s] := by
      unfold tTuple
      split
      · exact absurd rfl (h' _)
      · rfl
    rw [h0, h1]
    unfold tType
    split
    · exact absurd rfl (h' _)
    · cases pBasic fuel s <;> simp

theorem type_fails_step [Ext] {f fuel : Nat} {s : List Char} {b : Bool}
    (h1 : Reads s (run (f + 10) (.ref .tuple_type) s) ((pTuple fuel s).map fun x => (typeV x.1, x.2)))
    (h2 : fails (f + 10) false (.ref .tuple_type) s = tTuple fuel s) (hf : s.length ≤ fuel) :
    fails (f + 12) b (.ref .type) s = tType (fuel + 1) s := by
  show failsOneOf (run (f + 10)) (fails (f + 10) false) [.ref .tuple_type, .ref .basic_type] s ++
    own (run (f + 11) (.oneOf [.ref .tuple_type, .ref .basic_type]) s) true s = _
  have h3 := basic_run f fuel s hf
  have h4 := basic_fails f fuel false s hf
  rw [run_oneOf, own_map', tType_eq]
  cases hp : pTuple fuel s with
  | some x =>
    rw [hp] at h1
    obtain ⟨hl, n, e, v, hn⟩ := h1
    simp [failsOneOf, runOneOf, e, h2, own_some]
  | none =>
    rw [hp] at h1
    have h1' : run (f + 10) (.ref .tuple_type) s = none := h1
    cases hb : pBasic fuel s with
    | some x =>
      rw [hb] at h3
      obtain ⟨hl, n, e, v, hn⟩ := h3
      simp [failsOneOf, runOneOf, h1', e, h2, h4, own_some]
    | none =>
      rw [hb] at h3
      have h3' : run (f + 10) (.ref .basic_type) s = none := h3
      simp [failsOneOf, runOneOf, h1', h3', h2, h4, own_none, Failure.rule]

theorem type_fails [Ext] : ∀ k, TypeFails k
  | 0 => by
    intro s hs F fuel b hF hf
    have : s = [] := List.length_eq_zero_iff.1 (by omega)
    subst this
    obtain ⟨f, rfl⟩ : ∃ g, F = g + 12 := ⟨F - 12, by simp [depth] at hF; omega⟩
    obtain ⟨fuel, rfl⟩ : ∃ g, fuel = g + 1 := ⟨fuel - 1, by omega⟩
    have hcomp := run_components (f + 6) []
    rw [run_seq, runSeq_none (run_lit_ne (f + 4) '(' [] (by simp))] at hcomp
    refine type_fails_step ?_ ?_ (by simp)
    · show run (f + 10) (.ref .tuple_type) [] = none
      rw [run_tuple, run_seq, runSeq_none hcomp]; rfl
    · show failsSeq (run (f + 8)) (fails (f + 8) false) [.ref .components, .opt (.ref .arrlist)] [] ++
        own (run (f + 9) (.seq [.ref .components, .opt (.ref .arrlist)]) []) true [] = _
      have hcf : fails (f + 8) false (.ref .components) [] =
          failsSeq (run (f + 5)) (fails (f + 5) false)
            [.lit t!"(", .ref .type, .quant (.ref .next_type) 0 none, .lit t!")"] [] ++
          own (run (f + 6) (.seq [.lit t!"(", .ref .type, .quant (.ref .next_type) 0 none, .lit t!")"]) []) true [] := rfl
      rw [run_seq, own_map', runSeq_none (run_lit_ne (f + 4) '(' [] (by simp)),
        failsSeq_none (run_lit_ne (f + 4) '(' [] (by simp)), fails_lit_ne (f + 4) '(' [] (by simp)] at hcf
      rw [failsSeq_none hcomp, hcf, run_seq, own_map', runSeq_none hcomp]
      rfl
  | k + 1 => by
    intro s hs F fuel b hF hf
    have ih := type_fails k
    unfold depth at hF
    obtain ⟨f, rfl⟩ : ∃ g, F = g + 12 := ⟨F - 12, by omega⟩
    obtain ⟨fuel, rfl⟩ : ∃ g, fuel = g + 1 := ⟨fuel - 1, by omega⟩
    exact type_fails_step (tuple_run (type_run k) (f := f + 2) (fuel := fuel) hs (by omega) (by omega))
      (tuple_fails ih (f := f + 2) (fuel := fuel) hs (by omega) (by omega) false) (by omega)

end Peg
end EthAbi
