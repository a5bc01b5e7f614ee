import Verif.Model.Peg
import Verif.Lemmas.Numeral
import Verif.Lemmas.Grammar

/-!
# The interpreter of the grammar and the parser in one pass
-/
namespace EthAbi
namespace Peg

/-- What a run on `s` gives: a shorter rest and a node with some text, which the visitor visits with the outcome `v`. -/
def Reads [Ext] (s : List Char) (x : Option (Node × List Char)) : Option (PyM Res × List Char) → Prop
  | none => x = none
  | some (v, r) => r.length < s.length ∧ ∃ n, x = some (n, r) ∧ visit n = v ∧ n.text ≠ []

theorem before_ne {s r : List Char} (h : r.length < s.length) : before s r ≠ [] := by
  intro h0
  have := congrArg List.length h0
  simp only [before, List.length_take, List.length_nil] at this
  omega

theorem inClass_19 (c : Char) : inClass [('1', '9')] c = isDig19 c := by
  rw [Bool.eq_iff_iff, isDig19_iff]; simp [inClass]

theorem inClass_09 : inClass [('0', '9')] = isDig := by
  funext c; rw [Bool.eq_iff_iff, isDig_iff]; simp [inClass]

theorem inClass_az : inClass [('A', 'Z'), ('a', 'z')] = isAlph := by
  funext c
  rw [Bool.eq_iff_iff]
  simp only [inClass, isAlph, List.any_cons, List.any_nil, Bool.or_false, Bool.or_eq_true, decide_eq_true_eq]
  rfl

/-- `int(text)` in the visitor. -/
def intRes [Ext] (n : Nat) : PyM Res := if numOk n then .ok (.int n) else .error .visitationError

theorem dropWhile_le (p : Char → Bool) (s : List Char) : (s.dropWhile p).length ≤ s.length :=
  (List.dropWhile_suffix p).length_le

theorem digits_run [Ext] (f : Nat) (s : List Char) :
    Reads s (run (f + 2) (.ref .digits) s) ((pDigits s).map fun x => (intRes x.1, x.2)) := by
  cases s with
  | nil => simp [run, grammar, rxMatch, pDigits, Reads]
  | cons c cs =>
    by_cases hc : isDig19 c = true
    · simp only [run, grammar, rxMatch, inClass_19, inClass_09, hc, pDigits, if_true, Option.map_some, Reads]
      refine ⟨?_, _, rfl, ?_, ?_⟩
      · have := dropWhile_le isDig cs
        simp only [List.length_cons]; omega
      · simp [visit, visitAll, Node.named, visitMethod, intRes]
      · simp [Node.named, Node.text]
    · simp [run, grammar, rxMatch, inClass_19, hc, pDigits, Reads]

theorem alphas_run [Ext] (f : Nat) (s : List Char) :
    Reads s (run (f + 3) (.ref .base) s) ((pAlphas s).map fun x => (.ok (.text x.1), x.2)) := by
  simp only [run, grammar, rxMatch, inClass_az, pAlphas]
  split
  · simp [Reads]
  · rename_i h
    simp only [Option.map_some, Reads, List.append_nil]
    refine ⟨?_, _, rfl, ?_, ?_⟩
    · have h1 : (s.takeWhile isAlph ++ s.dropWhile isAlph).length = s.length := by rw [List.takeWhile_append_dropWhile]
      rw [List.length_append] at h1
      have h2 : 0 < (s.takeWhile isAlph).length := List.length_pos_iff.2 h
      omega
    · simp [visit, visitAll, Node.named, visitMethod]
    · simpa [Node.named, Node.text] using h

/-- The result of `sub`. -/
def subRes : Sub → Res
  | .none => .none
  | .one n => .int n
  | .two m n => .tuple [.int m, .int n]

/-- The visitor on a `sub`. -/
def subV [Ext] (sub : Sub) : PyM Res := if sub.numsOk then .ok (subRes sub) else .error .visitationError

/-- A leaf. -/
abbrev leaf (t : List Char) : Node := .mk none .other t []

theorem visit_leaf [Ext] (t : List Char) : visit (leaf t) = .ok (.tuple []) := by
  simp [visit, visitAll, visitMethod, genericVisit]

theorem run_lit [Ext] (f : Nat) (c : Char) (r : List Char) : run (f + 1) (.lit [c]) (c :: r) = some (leaf [c], r) := by
  simp [run]

theorem run_lit_ne [Ext] (f : Nat) (c : Char) (s : List Char) (h : ∀ r, s ≠ c :: r) : run (f + 1) (.lit [c]) s = none := by
  cases s with
  | nil => simp [run]
  | cons d r =>
    have : ¬ c = d := fun e => h r (by rw [e])
    simp [run, this]

theorem runSeq_nil (m : Matcher) (s : List Char) : runSeq m [] s = some ([], s) := rfl

theorem runSeq_some {m : Matcher} {e : Expr} {s r : List Char} {n : Node} (h : m e s = some (n, r)) (es : List Expr) :
    runSeq m (e :: es) s = (runSeq m es r).map fun x => (n :: x.1, x.2) := by
  simp only [runSeq, h]
  cases runSeq m es r <;> rfl

theorem runSeq_none {m : Matcher} {e : Expr} {s : List Char} (h : m e s = none) (es : List Expr) :
    runSeq m (e :: es) s = none := by
  simp only [runSeq, h]

theorem run_seq [Ext] (f : Nat) (es : List Expr) (s : List Char) :
    run (f + 1) (.seq es) s = (runSeq (run f) es s).map fun x => (.mk none .other (before s x.2) x.1, x.2) := rfl

theorem run_oneOf [Ext] (f : Nat) (es : List Expr) (s : List Char) :
    run (f + 1) (.oneOf es) s = (runOneOf (run f) es s).map fun x => (.mk none .oneOf x.1.text [x.1], x.2) := rfl

theorem run_two [Ext] (f : Nat) (s : List Char) :
    run (f + 1) (.ref .two_size) s =
      (run f (.seq [.ref .digits, .lit t!"x", .ref .digits]) s).map fun x => (x.1.named .two_size, x.2) := rfl

theorem two_run [Ext] (f : Nat) (s : List Char) :
    Reads s (run (f + 4) (.ref .two_size) s) ((pTwoSize s).map fun x => (subV x.1, x.2)) := by
  have h1 := digits_run f s
  rw [run_two, run_seq]
  cases hd : pDigits s with
  | none =>
    rw [hd] at h1
    rw [runSeq_none h1]
    simp [pTwoSize, hd, Reads]
  | some x =>
    obtain ⟨m, r⟩ := x
    rw [hd] at h1
    obtain ⟨hl, n1, e1, v1, -⟩ := h1
    try dsimp only at hl
    rw [runSeq_some e1]
    by_cases hx : ∃ r', r = 'x' :: r'
    · obtain ⟨r', rfl⟩ := hx
      have h2 := digits_run f r'
      rw [runSeq_some (run_lit (f + 1) 'x' r')]
      cases hd2 : pDigits r' with
      | none =>
        rw [hd2] at h2
        rw [runSeq_none h2]
        simp [pTwoSize, hd, hd2, Reads]
      | some y =>
        obtain ⟨k, r2⟩ := y
        rw [hd2] at h2
        obtain ⟨hl2, n2, e2, v2, -⟩ := h2
        try dsimp only at hl2
        rw [runSeq_some e2, runSeq_nil]
        simp only [pTwoSize, hd, hd2, Option.map_some, Reads]
        simp only [List.length_cons] at hl
        refine ⟨by omega, _, rfl, ?_, ?_⟩
        · simp only [Node.named, visit, visitAll, v1, v2, visitMethod, genericVisit, subV, Sub.numsOk, intRes, subRes]
          by_cases hm : numOk m = true <;> by_cases hk : numOk k = true <;> simp [hm, hk]
        · simpa [Node.named, Node.text] using before_ne (by omega)
    · have hx' : ∀ r', r ≠ 'x' :: r' := fun r' e => hx ⟨r', e⟩
      rw [runSeq_none (run_lit_ne (f + 1) 'x' r hx')]
      have : pTwoSize s = none := by
        unfold pTwoSize
        rw [hd]
        split
        · rename_i heq; cases heq; exact absurd rfl (hx' _)
        · rfl
      simp [this, Reads]

theorem run_sub [Ext] (f : Nat) (s : List Char) :
    run (f + 1) (.ref .sub) s =
      (run f (.oneOf [.ref .two_size, .ref .digits]) s).map fun x => (x.1.named .sub, x.2) := rfl

theorem visit_sub [Ext] (n : Node) : visit (.mk (some .sub) .oneOf n.text [n]) = visit n := by
  simp only [visit, visitAll, visitMethod, genericVisit]
  cases visit n <;> rfl

/-- The outcome of `sub`. -/
def subOut [Ext] (s : List Char) : Option (PyM Res × List Char) :=
  match pSub s with
  | (.none, _) => none
  | (sub, r) => some (subV sub, r)

theorem sub_run [Ext] (f : Nat) (s : List Char) : Reads s (run (f + 6) (.ref .sub) s) (subOut s) := by
  have h1 := two_run f s
  have h2 := digits_run (f + 2) s
  rw [run_sub, run_oneOf]
  unfold subOut pSub
  cases ht : pTwoSize s with
  | some x =>
    obtain ⟨sub, r⟩ := x
    rw [ht] at h1
    obtain ⟨hl, n, e, v, hn⟩ := h1
    try dsimp only at hl
    have hsub : ∃ m k, sub = .two m k := by
      unfold pTwoSize at ht
      split at ht
      · split at ht
        · cases ht; exact ⟨_, _, rfl⟩
        · cases ht
      · cases ht
    obtain ⟨m, k, rfl⟩ := hsub
    simp only [runOneOf, e, Option.map_some, Node.named, Reads]
    exact ⟨hl, _, rfl, by rw [visit_sub]; exact v, hn⟩
  | none =>
    rw [ht] at h1
    have h1' : run (f + 4) (.ref .two_size) s = none := h1
    cases hd : pDigits s with
    | none =>
      rw [hd] at h2
      have h2' : run (f + 4) (.ref .digits) s = none := h2
      simp [runOneOf, h1', h2', Reads]
    | some x =>
      obtain ⟨m, r⟩ := x
      rw [hd] at h2
      obtain ⟨hl, n, e, v, hn⟩ := h2
      try dsimp only at hl
      have e' : run (f + 4) (.ref .digits) s = some (n, r) := e
      simp only [runOneOf, h1', e', Option.map_some, Node.named, Reads]
      exact ⟨hl, _, rfl, by rw [visit_sub]; exact v, hn⟩

/-- `e?` for an expression that does not match the empty string. -/
theorem opt_run [Ext] {f : Nat} {e : Expr} {s : List Char} {o : Option (PyM Res × List Char)}
    (h : Reads s (run f e s) o) :
    ∃ n, run (f + 1) (.opt e) s = some (n, ((o.map Prod.snd).getD s)) ∧ visit n = (o.map Prod.fst).getD (.ok .none) := by
  cases o with
  | none =>
    have h' : run f e s = none := h
    refine ⟨.mk none .optional (before s s) [], ?_, by simp [visit, visitAll, visitMethod, genericVisit]⟩
    simp [Expr.opt, run, runMany, h']
  | some x =>
    obtain ⟨v, r⟩ := x
    obtain ⟨hl, n, e1, v1, hn⟩ := h
    try dsimp only at hl
    have hs : s ≠ [] := by rintro rfl; simp at hl
    refine ⟨.mk none .optional (before s r) [n], ?_, ?_⟩
    · have : ∀ k, runMany (run f) e 0 (some 1) k (0 + 1) r = ([], r) := by
        intro k
        cases k <;> simp [runMany]
      simp [Expr.opt, run, runMany, hs, e1, hn, this]
    · simp only [visit, visitAll, v1, visitMethod, genericVisit, Option.map_some, Option.getD_some]
      cases v <;> rfl

/-! ## Arrays -/

/-- The result of a dimension. -/
def dimRes : Option Nat → Res
  | some n => .tuple [.int n]
  | none => .tuple []

/-- The visitor on a dimension. -/
def dimV [Ext] : Option Nat → PyM Res
  | some n => if numOk n then .ok (dimRes (some n)) else .error .visitationError
  | none => .ok (dimRes none)

/-- `(const_arr / dynam_arr)`. -/
abbrev dimE : Expr := .oneOf [.ref .const_arr, .ref .dynam_arr]

theorem run_const [Ext] (f : Nat) (s : List Char) :
    run (f + 1) (.ref .const_arr) s =
      (run f (.seq [.lit t!"[", .ref .digits, .lit t!"]"]) s).map fun x => (x.1.named .const_arr, x.2) := rfl

theorem run_dynam [Ext] (f : Nat) (r : List Char) :
    run (f + 2) (.ref .dynam_arr) ('[' :: ']' :: r) = some (.mk (some .dynam_arr) .other t!"[]" [], r) := by
  simp [run, grammar, Node.named]

theorem run_dynam_ne [Ext] (f : Nat) (s : List Char) (h : ∀ r, s ≠ '[' :: ']' :: r) :
    run (f + 2) (.ref .dynam_arr) s = none := by
  have : ¬ t!"[]" <+: s := by
    rintro ⟨r, rfl⟩
    exact h r rfl
  simp only [run, grammar]
  rw [if_neg this]
  rfl

/-- `dynam_arr` after the bracket. -/
def pDyn : List Char → Option (Option Nat × List Char)
  | ']' :: r' => some (none, r')
  | _ => none

theorem pDyn_none {r : List Char} (h : ∀ r', r ≠ ']' :: r') : pDyn r = none := by
  unfold pDyn
  split
  · exact absurd rfl (h _)
  · rfl

theorem pDim_dyn {r : List Char} (h : ∀ n r', pDigits r ≠ some (n, ']' :: r')) : pDim ('[' :: r) = pDyn r := by
  by_cases hr : ∃ r', r = ']' :: r'
  · obtain ⟨r', rfl⟩ := hr
    simp [pDim, pDyn, pDigits, isDig19]
  · have h' : ∀ r', r ≠ ']' :: r' := fun r' e => hr ⟨r', e⟩
    rw [pDyn_none h']
    cases hd : pDim ('[' :: r) with
    | none => rfl
    | some x =>
      exfalso
      unfold pDim at hd
      split at hd
      · rename_i r0 heq
        cases heq
        split at hd
        · rename_i heq; exact h _ _ heq
        · split at hd
          · exact h' _ rfl
          · cases hd
      · cases hd

theorem visit_dim [Ext] (n : Node) : visit (.mk none .oneOf n.text [n]) = visit n := by
  simp only [visit, visitAll, visitMethod, genericVisit]
  cases visit n <;> rfl

theorem dim_run [Ext] (f : Nat) (s : List Char) :
    Reads s (run (f + 5) dimE s) ((pDim s).map fun x => (dimV x.1, x.2)) := by
  rw [run_oneOf]
  have hdyn : ∀ r, run (f + 4) (.ref .const_arr) ('[' :: r) = none →
      Reads ('[' :: r) ((runOneOf (run (f + 4)) [.ref .const_arr, .ref .dynam_arr] ('[' :: r)).map
        fun x => (.mk none .oneOf x.1.text [x.1], x.2)) ((pDyn r).map fun x => (dimV x.1, x.2)) := by
    intro r hc
    by_cases hr : ∃ r', r = ']' :: r'
    · obtain ⟨r', rfl⟩ := hr
      simp only [runOneOf, hc, run_dynam, pDyn, Option.map_some, Reads]
      refine ⟨by simp only [List.length_cons]; omega, _, rfl, ?_, by simp [Node.text]⟩
      simp [visit, visitAll, visitMethod, genericVisit, dimV, dimRes]
    · have h' : ∀ r', r ≠ ']' :: r' := fun r' e => hr ⟨r', e⟩
      have h2 := run_dynam_ne (f + 2) ('[' :: r) (fun r' e => h' r' (by injection e))
      have h2' : run (f + 4) (.ref .dynam_arr) ('[' :: r) = none := h2
      simp only [runOneOf, hc, h2', pDyn_none h', Option.map_none, Reads]
  by_cases hs : ∃ r, s = '[' :: r
  · obtain ⟨r, rfl⟩ := hs
    have h1 := digits_run f r
    have hconst := run_const (f + 3) ('[' :: r)
    rw [run_seq, runSeq_some (run_lit (f + 1) '[' r)] at hconst
    cases hd : pDigits r with
    | none =>
      rw [hd] at h1
      rw [runSeq_none h1] at hconst
      rw [pDim_dyn (by simp [hd])]
      exact hdyn r hconst
    | some x =>
      obtain ⟨n, r1⟩ := x
      rw [hd] at h1
      obtain ⟨hl, n1, e1, v1, -⟩ := h1
      try dsimp only at hl
      rw [runSeq_some e1] at hconst
      by_cases hr : ∃ r', r1 = ']' :: r'
      · obtain ⟨r', rfl⟩ := hr
        rw [runSeq_some (run_lit (f + 1) ']' r'), runSeq_nil] at hconst
        simp only [Option.map_some] at hconst
        simp only [List.length_cons] at hl
        simp only [runOneOf, hconst, pDim, hd, Option.map_some, Reads]
        refine ⟨by simp only [List.length_cons]; omega, _, rfl, ?_, ?_⟩
        · rw [visit_dim]
          simp only [Node.named, visit, visitAll, v1, visitMethod, genericVisit, intRes, dimV, dimRes]
          by_cases hm : numOk n = true <;> simp [hm]
        · simpa [Node.named, Node.text] using before_ne (by simp only [List.length_cons]; omega)
      · have h' : ∀ r', r1 ≠ ']' :: r' := fun r' e => hr ⟨r', e⟩
        rw [runSeq_none (run_lit_ne (f + 1) ']' r1 h')] at hconst
        rw [pDim_dyn (by intro n' r' e; rw [hd] at e; cases e; exact h' _ rfl)]
        exact hdyn r hconst
  · have h' : ∀ r, s ≠ '[' :: r := fun r e => hs ⟨r, e⟩
    have h1 : run (f + 4) (.ref .const_arr) s = none := by
      rw [run_const (f + 3), run_seq, runSeq_none (run_lit_ne (f + 1) '[' s h')]; rfl
    have h2 : run (f + 4) (.ref .dynam_arr) s = none := run_dynam_ne (f + 2) s (fun r => h' _)
    rw [pDim_none h']
    simp [runOneOf, h1, h2, Reads]

theorem arrNumsOk_cons [Ext] (d : Option Nat) (ds : List (Option Nat)) :
    arrNumsOk (d :: ds) = ((match d with
      | some n => numOk n
      | none => true) && arrNumsOk ds) := rfl

theorem runMany_dims [Ext] (f : Nat) : ∀ (fuel rounds count : Nat) (s : List Char), s.length < rounds → s.length < fuel →
    ∃ ns, runMany (run (f + 5)) dimE 1 none rounds count s = (ns, (pArr fuel s).2) ∧ ns.length = (pArr fuel s).1.length ∧
      visitAll ns = (if arrNumsOk (pArr fuel s).1 then .ok ((pArr fuel s).1.map dimRes) else .error .visitationError) ∧
      (pArr fuel s).2.length ≤ s.length
  | 0, _, _, s, _, h => absurd h (by omega)
  | _ + 1, 0, _, s, h, _ => absurd h (by omega)
  | fuel + 1, rounds + 1, count, s, hr, hf => by
    have h := dim_run f s
    cases hd : pDim s with
    | none =>
      rw [hd] at h
      have h' : run (f + 5) dimE s = none := h
      refine ⟨[], ?_, ?_, ?_, ?_⟩
      · simp only [runMany, h', pArr, hd]
        split <;> rfl
      · simp [pArr, hd]
      · simp [pArr, hd, arrNumsOk, visitAll]
      · simp [pArr, hd]
    | some x =>
      obtain ⟨d, r⟩ := x
      rw [hd] at h
      obtain ⟨hl, n, e, v, hn⟩ := h
      try dsimp only at hl
      have e' : run (f + 5) dimE s = some (n, r) := e
      have hs : s ≠ [] := by rintro rfl; simp at hl
      obtain ⟨ns, h1, h2, h3, h4⟩ := runMany_dims f fuel rounds (count + 1) r (by omega) (by omega)
      refine ⟨n :: ns, ?_, ?_, ?_, ?_⟩
      · simp only [runMany, e', pArr, hd, h1, hs, hn]
        simp
      · simp [pArr, hd, h2]
      · simp only [visitAll, v, h3, pArr, hd, arrNumsOk_cons, List.map_cons]
        cases d with
        | none =>
          by_cases ha : arrNumsOk (pArr fuel r).1 = true <;> simp [dimV, ha]
        | some k =>
          by_cases hk : numOk k = true <;> by_cases ha : arrNumsOk (pArr fuel r).1 = true <;> simp [dimV, ha, hk]
      · simp only [pArr, hd]; omega

/-- The result of `arrlist?`. -/
def arrRes : List (Option Nat) → Res
  | [] => .none
  | d :: ds => .tuple ((d :: ds).map dimRes)

/-- The visitor on an `arrlist?`. -/
def arrV [Ext] (ds : List (Option Nat)) : PyM Res := if arrNumsOk ds then .ok (arrRes ds) else .error .visitationError

theorem run_arrlist [Ext] (f : Nat) (s : List Char) :
    run (f + 1) (.ref .arrlist) s = (run f (.quant dimE 1 none) s).map fun x => (x.1.named .arrlist, x.2) := rfl

/-- `arrlist?`. -/
theorem arr_run [Ext] (f fuel : Nat) (s : List Char) (hf : s.length < fuel) :
    ∃ n, run (f + 8) (.opt (.ref .arrlist)) s = some (n, (pArr fuel s).2) ∧ visit n = arrV (pArr fuel s).1 ∧
      (pArr fuel s).2.length ≤ s.length := by
  obtain ⟨ns, h1, h2, h3, h4⟩ := runMany_dims f fuel (s.length + 1) 0 s (by omega) hf
  have hrun : run (f + 7) (.ref .arrlist) s = (if 1 ≤ ns.length then
      some (.mk (some .arrlist) .other (before s (pArr fuel s).2) ns, (pArr fuel s).2) else none) := by
    rw [run_arrlist (f + 6)]
    simp only [run, h1]
    split
    · simp [Node.named]
    · rfl
  cases hp : (pArr fuel s).1 with
  | nil =>
    rw [hp] at h2
    rw [if_neg (by simp at h2; simp [h2])] at hrun
    have hrest : (pArr fuel s).2 = s := by
      cases fuel with
      | zero => rfl
      | succ fuel =>
        unfold pArr at hp ⊢
        split
        · rename_i heq; rw [heq] at hp; cases hp
        · rfl
    obtain ⟨n, e, v⟩ := opt_run (o := none) (s := s) hrun
    rw [hrest]
    exact ⟨n, e, v, Nat.le_refl _⟩
  | cons d ds =>
    rw [hp] at h2 h3
    have hl : (pArr fuel s).2.length < s.length := by
      cases fuel with
      | zero => omega
      | succ fuel =>
        unfold pArr at hp ⊢
        cases hd : pDim s with
        | none => rw [hd] at hp; cases hp
        | some x =>
          have h := dim_run f s
          rw [hd] at h
          obtain ⟨hl, -⟩ := h
          try dsimp only at hl
          try dsimp only at hl
          obtain ⟨-, -, -, -, h5⟩ := runMany_dims f fuel (x.2.length + 1) 0 x.2 (by omega) (by omega)
          show (pArr fuel x.2).2.length < _
          omega
    rw [if_pos (by simp [h2])] at hrun
    obtain ⟨n, e, v⟩ := opt_run (o := some (arrV (d :: ds), (pArr fuel s).2)) (s := s) (f := f + 7) (e := .ref .arrlist)
      ⟨hl, _, hrun, by
        simp only [visit, h3, visitMethod, genericVisit, arrV]
        by_cases ha : arrNumsOk (d :: ds) = true <;> simp [ha, arrRes], before_ne hl⟩
    exact ⟨n, e, v, Nat.le_of_lt hl⟩

/-! ## Basic types -/

/-- The visitor on a type. -/
def typeV [Ext] (t : ABIType) : PyM Res := if t.numsOk then .ok (.type t) else .error .visitationError

theorem dims_res : ∀ ds : List (Option Nat), Res.dims? (ds.map dimRes) = some ds
  | [] => rfl
  | none :: ds => by simp [dimRes, Res.dims?, dims_res ds]
  | some n :: ds => by simp [dimRes, Res.dims?, dims_res ds]

theorem arr_res (ds : List (Option Nat)) : (arrRes ds).arr? = some ds := by
  cases ds with
  | nil => rfl
  | cons d ds => exact dims_res (d :: ds)

theorem sub_res (s : Sub) : (subRes s).sub? = some s := by cases s <;> rfl

theorem run_basic [Ext] (f : Nat) (s : List Char) :
    run (f + 1) (.ref .basic_type) s =
      (run f (.seq [.ref .base, .opt (.ref .sub), .opt (.ref .arrlist)]) s).map fun x => (x.1.named .basic_type, x.2) := rfl

theorem basic_run [Ext] (f fuel : Nat) (s : List Char) (hf : s.length ≤ fuel) :
    Reads s (run (f + 10) (.ref .basic_type) s) ((pBasic fuel s).map fun x => (typeV x.1, x.2)) := by
  rw [run_basic, run_seq]
  have h1 := alphas_run (f + 5) s
  cases ha : pAlphas s with
  | none =>
    rw [ha] at h1
    rw [runSeq_none h1]
    simp [pBasic, ha, Reads]
  | some x =>
    obtain ⟨base, r⟩ := x
    rw [ha] at h1
    obtain ⟨hl, n1, e1, v1, -⟩ := h1
    try dsimp only at hl
    obtain ⟨n2, e2, v2⟩ := opt_run (sub_run (f + 1) r)
    have hsub : ((subOut r).map Prod.snd).getD r = (pSub r).2 ∧ ((subOut r).map Prod.fst).getD (.ok .none) = subV (pSub r).1 ∧
        (pSub r).2.length ≤ r.length := by
      have h := sub_run 0 r
      have hnone : (pSub r).1 = .none → (pSub r).2 = r := by
        unfold pSub
        split
        · rename_i x hx
          unfold pTwoSize at hx
          split at hx
          · split at hx
            · cases hx; intro h; cases h
            · cases hx
          · cases hx
        · split
          · intro h; cases h
          · intro; rfl
      unfold subOut at h ⊢
      rcases hp : pSub r with ⟨sub, r'⟩
      rw [hp] at h hnone
      cases sub with
      | none => exact ⟨(hnone rfl).symm, rfl, Nat.le_of_eq (congrArg List.length (hnone rfl))⟩
      | one n => exact ⟨rfl, rfl, Nat.le_of_lt h.1⟩
      | two m n => exact ⟨rfl, rfl, Nat.le_of_lt h.1⟩
    rw [hsub.1] at e2
    rw [hsub.2.1] at v2
    obtain ⟨n3, e3, v3, hl3⟩ := arr_run f fuel (pSub r).2 (by have := hsub.2.2; omega)
    have e1' : run (f + 8) (.ref .base) s = some (n1, r) := e1
    rw [runSeq_some e1', runSeq_some e2, runSeq_some e3, runSeq_nil]
    simp only [Option.map_some, pBasic, ha, Reads]
    have hl4 := hsub.2.2
    refine ⟨by omega, _, rfl, ?_, ?_⟩
    · simp only [Node.named, visit, visitAll, v1, v2, v3, visitMethod, subV, arrV, typeV, ABIType.numsOk]
      by_cases h1 : (pSub r).1.numsOk = true <;> by_cases h2 : arrNumsOk (pArr fuel (pSub r).2).1 = true <;>
        simp [Res.basic, sub_res, arr_res, h1, h2]
    · simpa [Node.named, Node.text] using before_ne (by omega)

/-! ## Tuples -/

/-- The visitor on several types. -/
def typesV [Ext] (ts : List ABIType) : PyM (List Res) :=
  if ABIType.allNumsOk ts then .ok (ts.map .type) else .error .visitationError

theorem types_res : ∀ ts : List ABIType, Res.types? (ts.map .type) = some ts
  | [] => rfl
  | t :: ts => by simp [Res.types?, types_res ts]

theorem run_next [Ext] (f : Nat) (s : List Char) :
    run (f + 1) (.ref .next_type) s =
      (run f (.seq [.lit t!",", .ref .type]) s).map fun x => (x.1.named .next_type, x.2) := rfl

theorem run_components [Ext] (f : Nat) (s : List Char) :
    run (f + 2) (.ref .components) s =
      (run f (.seq [.lit t!"(", .ref .type, .quant (.ref .next_type) 0 none, .lit t!")"]) s).map
        fun x => (x.1.named .non_zero_tuple, x.2) := rfl

theorem run_tuple [Ext] (f : Nat) (s : List Char) :
    run (f + 1) (.ref .tuple_type) s =
      (run f (.seq [.ref .components, .opt (.ref .arrlist)]) s).map fun x => (x.1.named .tuple_type, x.2) := rfl

theorem run_type [Ext] (f : Nat) (s : List Char) :
    run (f + 1) (.ref .type) s =
      (run f (.oneOf [.ref .tuple_type, .ref .basic_type]) s).map fun x => (x.1.named .type, x.2) := rfl

theorem visit_type [Ext] (n : Node) : visit (.mk (some .type) .oneOf n.text [n]) = visit n := by
  simp only [visit, visitAll, visitMethod, genericVisit]
  cases visit n <;> rfl

/-- The claim for the strings of at most a length. -/
def TypeRun [Ext] (k : Nat) : Prop :=
  ∀ (s : List Char), s.length ≤ k → ∀ (F fuel : Nat), depth s ≤ F → s.length < fuel →
    Reads s (run F (.ref .type) s) ((pType fuel s).map fun x => (typeV x.1, x.2))

theorem next_run [Ext] {k : Nat} (ih : TypeRun k) {f fuel : Nat} {s : List Char} (hs : s.length ≤ k + 1)
    (hF : 12 * s.length + 12 ≤ f) (hf : s.length < fuel + 1) :
    Reads s (run (f + 2) (.ref .next_type) s) (match s with
      | ',' :: r => (pType fuel r).map fun x => (typeV x.1, x.2)
      | _ => none) := by
  rw [run_next, run_seq]
  obtain ⟨f, rfl⟩ : ∃ g, f = g + 1 := ⟨f - 1, by omega⟩
  by_cases hc : ∃ r, s = ',' :: r
  · obtain ⟨r, rfl⟩ := hc
    simp only [List.length_cons] at hs hF hf
    have h := ih r (by omega) (f + 1) fuel (by unfold depth; omega) (by omega)
    rw [runSeq_some (run_lit f ',' r)]
    cases hp : pType fuel r with
    | none =>
      rw [hp] at h
      rw [runSeq_none h]
      simp [hp, Reads]
    | some x =>
      obtain ⟨t, r'⟩ := x
      rw [hp] at h
      obtain ⟨hl, n, e, v, -⟩ := h
      try dsimp only at hl
      rw [runSeq_some e, runSeq_nil]
      simp only [hp, Option.map_some, Reads]
      refine ⟨by simp only [List.length_cons]; omega, _, rfl, ?_, ?_⟩
      · simp only [Node.named, visit, visitAll, v, visitMethod, genericVisit, typeV]
        by_cases ht : t.numsOk = true <;> simp [ht]
      · simpa [Node.named, Node.text] using before_ne (by simp only [List.length_cons]; omega)
  · have h' : ∀ r, s ≠ ',' :: r := fun r e => hc ⟨r, e⟩
    rw [runSeq_none (run_lit_ne f ',' s h')]
    split
    · exact absurd rfl (h' _)
    · rfl

theorem nexts_run [Ext] {k : Nat} (ih : TypeRun k) {f : Nat} : ∀ (fuel rounds count : Nat) (s : List Char),
    s.length ≤ k + 1 → 12 * s.length + 12 ≤ f → s.length < rounds → s.length < fuel →
    ∃ ns, runMany (run (f + 2)) (.ref .next_type) 0 none rounds count s = (ns, (pNexts fuel s).2) ∧
      visitAll ns = typesV (pNexts fuel s).1 ∧ (pNexts fuel s).2.length ≤ s.length
  | 0, _, _, s, _, _, _, h => absurd h (by omega)
  | _ + 1, 0, _, s, _, _, h, _ => absurd h (by omega)
  | fuel + 1, rounds + 1, count, s, hs, hF, hr, hf => by
    have h := next_run ih hs hF hf
    by_cases hc : ∃ r, s = ',' :: r
    · obtain ⟨r, rfl⟩ := hc
      simp only at h
      cases hp : pType fuel r with
      | none =>
        rw [hp] at h
        have h' : run (f + 2) (.ref .next_type) (',' :: r) = none := h
        refine ⟨[], ?_, ?_, ?_⟩
        · simp [runMany, h', pNexts, hp]
        · simp [pNexts, hp, typesV, ABIType.allNumsOk, visitAll]
        · simp [pNexts, hp]
      | some x =>
        obtain ⟨t, r'⟩ := x
        rw [hp] at h
        obtain ⟨hl, n, e, v, hn⟩ := h
        try dsimp only at hl
        have e' : run (f + 2) (.ref .next_type) (',' :: r) = some (n, r') := e
        simp only [List.length_cons] at hl hs hF hr hf
        obtain ⟨ns, h1, h2, h3⟩ := nexts_run ih (f := f) fuel rounds (count + 1) r' (by omega) (by omega) (by omega) (by omega)
        refine ⟨n :: ns, ?_, ?_, ?_⟩
        · simp [runMany, e', pNexts, hp, hn, h1]
        · simp only [visitAll, v, h2, pNexts, hp, typesV, typeV, ABIType.allNumsOk, List.map_cons]
          by_cases ht : t.numsOk = true <;> by_cases hts : ABIType.allNumsOk (pNexts fuel r').1 = true <;> simp [ht, hts]
        · simp only [pNexts, hp, List.length_cons]; omega
    · have h' : ∀ r, s ≠ ',' :: r := fun r e => hc ⟨r, e⟩
      have h0 : run (f + 2) (.ref .next_type) s = none := by
        split at h
        · exact absurd rfl (h' _)
        · exact h
      have hp : pNexts (fuel + 1) s = ([], s) := by
        unfold pNexts
        split
        · exact absurd rfl (h' _)
        · rfl
      refine ⟨[], ?_, ?_, ?_⟩
      · rw [hp]
        simp only [runMany, h0]
        split <;> rfl
      · simp [hp, typesV, ABIType.allNumsOk, visitAll]
      · simp [hp]

/-- What `tuple_type` comes to. -/
def pTuple (fuel : Nat) : List Char → Option (ABIType × List Char)
  | '(' :: r =>
    match pType fuel r with
    | some (t, r) =>
      match pNexts fuel r with
      | (ts, ')' :: r) => some (.tuple (t :: ts) (pArr fuel r).1, (pArr fuel r).2)
      | _ => none
    | none => none
  | _ => none

theorem pType_eq (fuel : Nat) (s : List Char) :
    pType (fuel + 1) s = (match pTuple fuel s with
      | some x => some x
      | none => pBasic fuel s) := by
  by_cases hc : ∃ r, s = '(' :: r
  · obtain ⟨r, rfl⟩ := hc
    simp only [pType, pTuple]
    cases pType fuel r with
    | none => rfl
    | some x =>
      obtain ⟨t, r1⟩ := x
      simp only
      rcases hn : pNexts fuel r1 with ⟨ts, r2⟩
      by_cases h2 : ∃ r', r2 = ')' :: r'
      · obtain ⟨r', rfl⟩ := h2; rfl
      · have h' : ∀ r', r2 ≠ ')' :: r' := fun r e => h2 ⟨r, e⟩
        split
        · rename_i heq; cases heq; exact absurd rfl (h' _)
        · split
          · rename_i heq
            split at heq
            · rename_i heq2; cases heq2; exact absurd rfl (h' _)
            · cases heq
          · rfl
  · have h' : ∀ r, s ≠ '(' :: r := fun r e => hc ⟨r, e⟩
    have : pTuple fuel s = none := by
      unfold pTuple
      split
      · exact absurd rfl (h' _)
      · rfl
    rw [this]
    unfold pType
    split
    · exact absurd rfl (h' _)
    · rfl

theorem run_quant_nexts [Ext] (f : Nat) (s : List Char) :
    run (f + 1) (.quant (.ref .next_type) 0 none) s =
      some (.mk none .other (before s (runMany (run f) (.ref .next_type) 0 none (s.length + 1) 0 s).2)
        (runMany (run f) (.ref .next_type) 0 none (s.length + 1) 0 s).1,
        (runMany (run f) (.ref .next_type) 0 none (s.length + 1) 0 s).2) := by
  simp [run]

theorem tuple_run [Ext] {k : Nat} (ih : TypeRun k) {f fuel : Nat} {s : List Char} (hs : s.length ≤ k + 1)
    (hF : 12 * s.length + 12 ≤ f) (hf : s.length ≤ fuel) :
    Reads s (run (f + 8) (.ref .tuple_type) s) ((pTuple fuel s).map fun x => (typeV x.1, x.2)) := by
  rw [run_tuple, run_seq]
  have hcomp := run_components (f + 4) s
  rw [run_seq] at hcomp
  by_cases hc : ∃ r, s = '(' :: r
  · obtain ⟨r, rfl⟩ := hc
    simp only [List.length_cons] at hs hF hf
    have h := ih r (by omega) (f + 3) fuel (by unfold depth; omega) (by omega)
    rw [runSeq_some (run_lit (f + 2) '(' r)] at hcomp
    cases hp : pType fuel r with
    | none =>
      rw [hp] at h
      rw [runSeq_none h] at hcomp
      rw [runSeq_none hcomp]
      simp [pTuple, hp, Reads]
    | some x =>
      obtain ⟨t, r1⟩ := x
      rw [hp] at h
      obtain ⟨hl, n1, e1, v1, -⟩ := h
      try dsimp only at hl
      obtain ⟨ns, h1, h2, h3⟩ := nexts_run ih (f := f) fuel (r1.length + 1) 0 r1 (by omega) (by omega) (by omega) (by omega)
      have hq := run_quant_nexts (f + 2) r1
      rw [h1] at hq
      rw [runSeq_some e1, runSeq_some hq] at hcomp
      try simp only at hcomp
      rcases hn : pNexts fuel r1 with ⟨ts, r2⟩
      rw [hn] at hcomp h2 h3
      by_cases hr : ∃ r', r2 = ')' :: r'
      · obtain ⟨r', rfl⟩ := hr
        simp only [List.length_cons] at h3
        simp only at hcomp
        rw [runSeq_some (run_lit (f + 2) ')' r'), runSeq_nil] at hcomp
        simp only [Option.map_some] at hcomp
        obtain ⟨f', rfl⟩ : ∃ g, f = g + 2 := ⟨f - 2, by omega⟩
        obtain ⟨n3, e3, v3, hl3⟩ := arr_run f' fuel r' (by omega)
        rw [runSeq_some hcomp, runSeq_some e3, runSeq_nil]
        simp only [Option.map_some, pTuple, hp, hn, Reads]
        refine ⟨by simp only [List.length_cons]; omega, _, rfl, ?_, ?_⟩
        · simp only [Node.named, visit, visitAll, v1, h2, v3, visitMethod, genericVisit, typeV, typesV, arrV,
            ABIType.numsOk, ABIType.allNumsOk]
          have hts : Res.types? (Res.type t :: ts.map .type) = some (t :: ts) := types_res (t :: ts)
          by_cases h1 : t.numsOk = true <;> by_cases h2 : ABIType.allNumsOk ts = true <;>
            by_cases h3 : arrNumsOk (pArr fuel r').1 = true <;> simp [Res.tupleType, hts, arr_res, h1, h2, h3]
        · simpa [Node.named, Node.text] using before_ne (by simp only [List.length_cons]; omega)
      · have h' : ∀ r', r2 ≠ ')' :: r' := fun r e => hr ⟨r, e⟩
        simp only at hcomp
        rw [runSeq_none (run_lit_ne (f + 2) ')' r2 h')] at hcomp
        rw [runSeq_none hcomp]
        have : pTuple fuel ('(' :: r) = none := by
          simp only [pTuple, hp, hn]
          split
          · rename_i heq; cases heq; exact absurd rfl (h' _)
          · rfl
        simp [this, Reads]
  · have h' : ∀ r, s ≠ '(' :: r := fun r e => hc ⟨r, e⟩
    rw [runSeq_none (run_lit_ne (f + 2) '(' s h')] at hcomp
    rw [runSeq_none hcomp]
    have : pTuple fuel s = none := by
      unfold pTuple
      split
      · exact absurd rfl (h' _)
      · rfl
    simp [this, Reads]

theorem type_run [Ext] : ∀ k, TypeRun k
  | 0 => by
    intro s hs F fuel hF hf
    have : s = [] := List.length_eq_zero_iff.1 (by omega)
    subst this
    obtain ⟨f, rfl⟩ : ∃ g, F = g + 12 := ⟨F - 12, by simp [depth] at hF; omega⟩
    obtain ⟨fuel, rfl⟩ : ∃ g, fuel = g + 1 := ⟨fuel - 1, by omega⟩
    have h1 : run (f + 10) (.ref .tuple_type) [] = none := by
      rw [run_tuple, run_seq]
      have hcomp := run_components (f + 6) []
      rw [run_seq, runSeq_none (run_lit_ne (f + 4) '(' [] (by simp))] at hcomp
      rw [runSeq_none hcomp]; rfl
    have h2 := basic_run f fuel [] (by simp)
    rw [run_type (f + 11), run_oneOf (f + 10)]
    have hb : pBasic fuel [] = none := by simp [pBasic, pAlphas]
    rw [hb] at h2
    have h2' : run (f + 10) (.ref .basic_type) [] = none := h2
    have : pType (fuel + 1) [] = none := by simp [pType, hb]
    rw [this]
    simp [runOneOf, h1, h2', Reads]
  | k + 1 => by
    intro s hs F fuel hF hf
    have ih := type_run k
    unfold depth at hF
    obtain ⟨f, rfl⟩ : ∃ g, F = g + 10 := ⟨F - 10, by omega⟩
    obtain ⟨fuel, rfl⟩ : ∃ g, fuel = g + 1 := ⟨fuel - 1, by omega⟩
    have h1 := tuple_run ih (f := f) (fuel := fuel) hs (by omega) (by omega)
    obtain ⟨f', rfl⟩ : ∃ g, f = g + 2 := ⟨f - 2, by omega⟩
    have h2 := basic_run f' fuel s (by omega)
    rw [run_type (f' + 11), run_oneOf (f' + 10), pType_eq]
    cases hp : pTuple fuel s with
    | some x =>
      rw [hp] at h1
      obtain ⟨hl, n, e, v, hn⟩ := h1
      try dsimp only at hl
      have e' : run (f' + 10) (.ref .tuple_type) s = some (n, x.2) := e
      simp only [runOneOf, e', Option.map_some, Node.named, Reads]
      exact ⟨hl, _, rfl, by rw [visit_type]; exact v, hn⟩
    | none =>
      rw [hp] at h1
      have h1' : run (f' + 10) (.ref .tuple_type) s = none := h1
      cases hb : pBasic fuel s with
      | some x =>
        rw [hb] at h2
        obtain ⟨hl, n, e, v, hn⟩ := h2
        try dsimp only at hl
        simp only [runOneOf, h1', e, Option.map_some, Node.named, Reads]
        exact ⟨hl, _, rfl, by rw [visit_type]; exact v, hn⟩
      | none =>
        rw [hb] at h2
        have h2' : run (f' + 10) (.ref .basic_type) s = none := h2
        simp [runOneOf, h1', h2', Reads]

end Peg
end EthAbi
