import Verif.Lemmas.Taken
import Verif.Lemmas.Widen
import Verif.Props.Examples
import Verif.Props.RoundTrip

/-!
# C60: what `encode` writes for every argument it accepts, on the grid or not

`Places900All vs`: every `Decimal` in the arguments is written with at most 900 digits after the point.
`128 * weight args < 2 ^ 256`: the arguments are not larger than any machine could hold.
-/
namespace EthAbi
open Spec

/-- **C60.**  `encode` succeeds exactly if every argument is taken for something, and returns the
encoding that the ABI specification gives for what the arguments are taken for.  `Spec.taken` is
`Spec.denote` except for negative numbers given for `fixedMxN`. -/
theorem C60_encode [Ext] {types : List TypeStr} {ts : List Ty} (hT : Names types ts) {args : PyVal}
    {vs : List PyVal} (ha : IsListOf args vs) (hp : Places900All vs)
    (hw : 128 * weight args < 2 ^ 256) {b : Bytes} :
    encode types args = .ok b ↔ ∃ xs, takenAll ts vs = some xs ∧ b = encodeArgs ts xs :=
  encode_taken false hT (isListOf_iff.1 ha) hp hw

/-- **C60.**  The same for `encode_packed`. -/
theorem C60_encode_packed [Ext] {types : List TypeStr} {ts : List Ty} (hT : Names types ts)
    {args : PyVal} {vs : List PyVal} (ha : IsListOf args vs) (hp : Places900All vs)
    (hw : 128 * weight args < 2 ^ 256) {b : Bytes} :
    encodePacked types args = .ok b ↔ ∃ xs, takenAll ts vs = some xs ∧ b = encPackedAll ts xs :=
  encode_taken true hT (isListOf_iff.1 ha) hp hw

/-- **C60.**  If what the arguments are taken for are values of the types, `decode` returns those
values. -/
theorem C60_decode [Ext] {types : List TypeStr} {ts : List Ty} (hT : Names types ts) {args : PyVal}
    {vs : List PyVal} (ha : IsListOf args vs) (hp : Places900All vs)
    (hw : 128 * weight args < 2 ^ 256) {b : Bytes} (hb : Fits b) (h : encode types args = .ok b)
    (strict : Bool) :
    ∃ xs, takenAll ts vs = some xs ∧
      (Val.OfAll ts xs → decode types (.bytes b) strict = .ok (.tuple (toPyAll ts xs))) := by
  obtain ⟨xs, hx, rfl⟩ := (C60_encode hT ha hp hw).1 h
  refine ⟨xs, hx, fun hof => (decode_reads hT (.bytes _) hb).2 ⟨xs, ?_, rfl⟩⟩
  exact readsArgs_enc codeHead_ok (supportedAll_valid hT) strict hb hof (List.prefix_refl _)

/-- **C43, exactly.**  Of any two lists of arguments that `encode` accepts, on the grid or not, the encodings are the same
exactly if the arguments are taken for the same. -/
theorem C43_exact [Ext] {types : List TypeStr} {ts : List Ty} (hT : Names types ts) {args args' : PyVal}
    {vs vs' : List PyVal} (ha : IsListOf args vs) (ha' : IsListOf args' vs') (hp : Places900All vs)
    (hp' : Places900All vs') (hw : 128 * weight args < 2 ^ 256) (hw' : 128 * weight args' < 2 ^ 256) {b b' : Bytes}
    (hb : Fits b) (h : encode types args = .ok b) (h' : encode types args' = .ok b') :
    b = b' ↔ takenAll ts vs = takenAll ts vs' := by
  obtain ⟨xs, hx, rfl⟩ := (C60_encode hT ha hp hw).1 h
  obtain ⟨ys, hy, rfl⟩ := (C60_encode hT ha' hp' hw').1 h'
  have hv := supportedAll_valid hT
  have hv' := widenAll_valid (fun t _ => widen_valid t) hv
  constructor
  · intro he
    rw [← widen_args] at hb
    have e1 := (posTop_iff hv' true hb).2 (readsArgs_enc codeHead_ok hv' true hb
      (takenAll_of (fun t _ => taken_of t) hv hx) (List.prefix_refl _))
    have e2 := (posTop_iff hv' true hb).2 (readsArgs_enc codeHead_ok hv' true hb
      (takenAll_of (fun t _ => taken_of t) hv hy) (by
        have : encodeArgs (widenAll ts) ys <+: encodeArgs (widenAll ts) xs := by
          rw [widen_args, widen_args, he]
        exact this))
    rw [e1] at e2
    injection e2 with e2
    rw [hx, hy, e2]
  · intro he
    rw [hx, hy] at he
    injection he with he
    rw [he]

/-- **C60, one number.**  A number that lies strictly between the multiples `k` and `k + 1` of `10^-N`
is accepted for `fixedMxN` exactly if it is negative and `k` is at least `-2^(M-1)`; the word is that
of `k + 1`, but that of `-256` if `k + 1` is zero. -/
theorem C60_number [Ext] {s : TypeStr} {m n : Nat} (h : Supported s (.fixed m n)) {v : PyVal}
    {x : Dec10} (hx : number? v = some x) (hp : -900 ≤ x.2) {k : Int}
    (h1 : (k : ℚ) * 10 ^ (-(n : Int)) < decValue x)
    (h2 : decValue x < ((k + 1 : Int) : ℚ) * 10 ^ (-(n : Int))) (b : Bytes) :
    encode [s] (.list [v]) = .ok b ↔
      decValue x < 0 ∧ -2 ^ (m - 1) ≤ k ∧ b = wordOf (if k + 1 = 0 then -256 else k + 1) := by
  obtain ⟨hg, hq⟩ := between_floor h1 h2
  have hpl : Places900 v := by
    cases v with
    | dec d =>
      cases d with
      | fin a e => simp only [number?, Option.some.injEq] at hx; subst hx; exact hp
      | _ => trivial
    | int i => trivial
    | bool b => trivial
    | _ => simp [number?] at hx
  have hwt : 128 * weight (.list [v]) < 2 ^ 256 := by
    cases v <;> first | (simp [weight, weights]; done) | simp [number?] at hx
  have hneg : decValue x < 0 ↔ x.1 < 0 := by
    rw [← not_le, ← not_le]; exact not_congr (V_nonneg_iff x)
  rw [C60_encode (types := [s]) (ts := [.fixed m n]) (.cons h .nil) (.list [v]) ⟨hpl, trivial⟩ hwt,
    hneg]
  have htk : takenFixed m n x =
      if x.1 < 0 ∧ -2 ^ (m - 1) ≤ k then some (if k + 1 = 0 then -256 else k + 1) else none := by
    simp only [takenFixed, hg, hq]
  have henc : ∀ i, encodeArgs [.fixed m n] [.num i] = wordOf i := by
    intro i
    have := wordOf_length i
    simp [encodeArgs, encAll, enc, layout, heads, tails, headSize, Ty.dynamic]
  constructor
  · rintro ⟨xs, h3, rfl⟩
    obtain ⟨y, ys, h4, h5, rfl⟩ := takenAll_cons.1 h3
    cases h5
    obtain ⟨z, i, h6, h7, rfl⟩ := taken_fixed.1 h4
    rw [hx] at h6
    cases h6
    rw [htk] at h7
    split at h7
    · next hc =>
      injection h7 with h7
      exact ⟨hc.1, hc.2, by rw [henc, h7]⟩
    · cases h7
  · rintro ⟨h3, h4, rfl⟩
    refine ⟨[.num (if k + 1 = 0 then -256 else k + 1)], ?_, (henc _).symm⟩
    exact takenAll_cons.2 ⟨_, [], taken_fixed.2 ⟨x, _, hx, by rw [htk, if_pos ⟨h3, h4⟩], rfl⟩, rfl, rfl⟩

/-- **C60, one number, decoded.**  What `decode` makes of the word written for such a number: the
multiple `k + 1`, which is nearer to zero; if that is zero, `-256 / 10^N`, except that for `M = 8` it
raises `NonEmptyPaddingBytes`. -/
theorem C60_number_decoded [Ext] {s : TypeStr} {m n : Nat} (h : Supported s (.fixed m n)) {v : PyVal}
    {x : Dec10} (hx : number? v = some x) (hp : -900 ≤ x.2) {k : Int}
    (h1 : (k : ℚ) * 10 ^ (-(n : Int)) < decValue x)
    (h2 : decValue x < ((k + 1 : Int) : ℚ) * 10 ^ (-(n : Int))) {b : Bytes}
    (he : encode [s] (.list [v]) = .ok b) (strict : Bool) :
    (k + 1 ≠ 0 → ∃ c e, decode [s] (.bytes b) strict = .ok (.tuple [.dec (.fin c e)]) ∧
      decValue (c, e) = ((k + 1 : Int) : ℚ) * 10 ^ (-(n : Int))) ∧
    (k + 1 = 0 → m ≠ 8 → ∃ c e, decode [s] (.bytes b) strict = .ok (.tuple [.dec (.fin c e)]) ∧
      decValue (c, e) = -256 * 10 ^ (-(n : Int))) ∧
    (k + 1 = 0 → m = 8 → decode [s] (.bytes b) strict = .error .nonEmptyPaddingBytes) := by
  obtain ⟨h3, h4, rfl⟩ := (C60_number h hx hp h1 h2 b).1 he
  have hv := supported_valid h
  have hk : k + 1 ≤ 0 := by
    have h10 : (0 : ℚ) < (10 : ℚ) ^ (-(n : Int)) := ten_zpow_pos _
    have h5 : (k : ℚ) * 10 ^ (-(n : Int)) < 0 := lt_trans h1 h3
    have h6 : (k : ℚ) < 0 := by
      by_contra hc
      have := mul_nonneg (not_lt.1 hc) h10.le
      linarith
    have : k < 0 := by exact_mod_cast h6
    omega
  have hT : Names [s] [.fixed m n] := .cons h .nil
  have henc : ∀ i, encodeArgs [.fixed m n] [.num i] = wordOf i := by
    intro i
    simp [encodeArgs, encAll, enc, layout, heads, tails, headSize, Ty.dynamic]
  have hfit : ∀ i, Fits (wordOf i) := by
    intro i; simp only [Fits, wordOf_length]; decide
  have hback : ∀ i : Int, fitsS m i → ∃ c e,
      decode [s] (.bytes (wordOf i)) strict = .ok (.tuple [.dec (.fin c e)]) ∧
        decValue (c, e) = (i : ℚ) * 10 ^ (-(n : Int)) := by
    intro i hi
    refine ⟨(gridDec i n).1, (gridDec i n).2, ?_, gridDec_V i n⟩
    refine (decode_reads hT (.bytes _) (hfit i)).2 ⟨[.num i], ?_, rfl⟩
    rw [← henc i]
    exact readsArgs_enc codeHead_ok (supportedAll_valid hT) strict (by rw [henc]; exact hfit i)
      ⟨hi, trivial⟩ (List.prefix_refl _)
  obtain ⟨⟨hm8, _, hmm⟩, _, _⟩ : validBits m ∧ 0 < n ∧ n ≤ 80 := hv
  have hpos : (0 : Int) < 2 ^ (m - 1) := by positivity
  refine ⟨fun h0 => ?_, fun h0 hm => ?_, fun h0 hm => ?_⟩
  · rw [if_neg h0]
    exact hback _ ⟨by omega, by omega⟩
  · rw [if_pos h0]
    have h256 : (2 : Int) ^ 15 ≤ 2 ^ (m - 1) := pow_le_pow_right₀ (by norm_num) (by omega)
    obtain ⟨c, e, a, b⟩ := hback (-256) ⟨by omega, by omega⟩
    exact ⟨c, e, a, by rw [b]; norm_num⟩
  · subst hm
    rw [if_pos h0]
    have hw : wordOf (-256) = List.replicate 31 0xff ++ [0] := by decide +kernel
    rw [hw, decode_eq hT (data := .bytes (List.replicate 31 0xff ++ [0]))
      (d := List.replicate 31 0xff ++ [0]) rfl (by decide) strict]
    have h5 : posTop strict [.fixed 8 n] (List.replicate 31 0xff ++ [0]) =
        .error .nonEmptyPaddingBytes := by
      rfl
    rw [h5]
    rfl

/-! ## Examples -/

/-- `encode(['(fixed16x2,fixed8x1)[]', 'ufixed8x1'], [[(Decimal('-1.239'), Decimal('-0.05'))], 3])`
writes `-1.23`, the word of `-256` and `30`. -/
example : @takenAll Ex.ext [.dyn (.tuple [.fixed 16 2, .fixed 8 1]), .ufixed 8 1]
    [.list [.tuple [.dec (.fin (-1239) (-3)), .dec (.fin (-5) (-2))]], .int 3] =
      some [.seq [.seq [.num (-123), .num (-256)]], .num 30] := by rfl

example : @encode Ex.ext [t!"(fixed16x2,fixed8x1)[]", t!"ufixed8x1"]
    (.list [.list [.tuple [.dec (.fin (-1239) (-3)), .dec (.fin (-5) (-2))]], .int 3]) =
    .ok (encodeArgs [.dyn (.tuple [.fixed 16 2, .fixed 8 1]), .ufixed 8 1]
      [.seq [.seq [.num (-123), .num (-256)]], .num 30]) := by decide +kernel

example : Places900All [.list [.tuple [.dec (.fin (-1239) (-3)), .dec (.fin (-5) (-2))]], .int 3] := by
  simp [Places900All, Places900]

/-- A positive number off the grid is taken for nothing. -/
example : @taken Ex.ext (.fixed 16 2) (.dec (.fin 1239 (-3))) = none := by rfl

/-- `Decimal('-1.239')` as a `fixed16x2` comes back as `-1.23`. -/
example [Ext] (b : Bytes) (he : encode [t!"fixed16x2"] (.list [.dec (.fin (-1239) (-3))]) = .ok b) :
    ∃ c e, decode [t!"fixed16x2"] (.bytes b) = .ok (.tuple [.dec (.fin c e)]) ∧
      decValue (c, e) = -123 * 10 ^ (-2 : Int) := by
  have hS : Supported t!"fixed16x2" (.fixed 16 2) :=
    ⟨.fixed (m := 16) (n := 2) (by decide) (by decide) (by decide), by decide⟩
  have := (C60_number_decoded hS (v := .dec (.fin (-1239) (-3))) (x := (-1239, -3)) (k := -124) rfl
    (by norm_num) (by norm_num [decValue]) (by norm_num [decValue]) he true).1 (by norm_num)
  simpa using this

/-- The condition on the places is needed: this number, `-0.99…9` with 1005 nines, is rounded to 999
digits before it is cut off, and written as `-1`. -/
example : letI := Ex.ext
    encode [t!"fixed16x1"] (.list [.dec (.fin (1 - 10 ^ 1005) (-1005))]) = .ok (wordOf (-10)) ∧
      takenFixed 16 1 (1 - 10 ^ 1005, -1005) = some (-9) := by decide +kernel

end EthAbi
