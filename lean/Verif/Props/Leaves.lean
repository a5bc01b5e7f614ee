import Verif.Lemmas.LeafSpec
import Verif.Props.Examples

/-!
# C05–C10: integers, fixed-point numbers, `bytesM`, addresses

`Supported s t`: the type string `s` is a supported spelling of the type `t`.
-/
namespace EthAbi
open Spec

/-! ## C05 -/

/-- What an integer encoder does with a value of any type. -/
theorem int_cases [Ext] {s : TypeStr} {t : Ty} (h : Supported s t) {lo hi : Int}
    (ht : ∀ v, (encOf false t).validateValue v = intValidate (lo, hi) v) (hlo : PrintableInt lo)
    (hhi : PrintableInt hi) (v : PyVal) :
    ((∃ b, encode [s] (.list [v]) = .ok b) ↔ ∃ i, v = .int i ∧ lo ≤ i ∧ i ≤ hi) ∧
    (∀ i, v = .int i → ¬ (lo ≤ i ∧ i ≤ hi) → encode [s] (.list [v]) = .error (quoting v .valueOutOfBounds)) ∧
    ((∀ i, v ≠ .int i) → encode [s] (.list [v]) = .error (quoting v .encodingTypeError)) := by
  have he : encode [s] (.list [v]) = _ := encode_one false h v
  rw [ht] at he
  refine ⟨⟨?_, ?_⟩, ?_, ?_⟩
  · rintro ⟨b, hb⟩
    rw [he, bind_eq_ok] at hb
    obtain ⟨_, h1, _⟩ := hb
    exact (intValidate_iff lo hi v).1 h1
  · rintro ⟨i, rfl, h1, h2⟩
    rw [he, intValidate_ok h1 h2]
    obtain ⟨b, hb⟩ := call_accepts (pk := false) (supported_valid h) (v := .int i)
      (by rw [ht]; exact intValidate_ok h1 h2) trivial (by simp [weight])
    rw [hb]
    exact ⟨_, rfl⟩
  · rintro i rfl hi
    rw [he, intValidate_out (by omega) hlo hhi, shown_quoting]
    rfl
  · intro hn
    have : intValidate (lo, hi) v = .error (quoting v .encodingTypeError) := by
      rw [← shown_quoting, ← invalidate_eq]
      cases v <;> first | rfl | exact absurd rfl (hn _)
    rw [he, this]
    rfl

/-- **C05, unsigned.**  For `uintN`, `encode` accepts exactly the integers `0 .. 2^N - 1`; other
integers raise `ValueOutOfBounds`, other values (`True` and `False` included) `EncodingTypeError`;
but what cannot be printed raises `ValueError` (`quoting`). -/
theorem C05_uint [Ext] {s : TypeStr} {n : Nat} (h : Supported s (.uint n)) (v : PyVal) :
    ((∃ b, encode [s] (.list [v]) = .ok b) ↔ ∃ i : Int, v = .int i ∧ 0 ≤ i ∧ i < 2 ^ n) ∧
    (∀ i : Int, v = .int i → (i < 0 ∨ 2 ^ n ≤ i) →
      encode [s] (.list [v]) = .error (quoting v .valueOutOfBounds)) ∧
    ((∀ i, v ≠ .int i) → encode [s] (.list [v]) = .error (quoting v .encodingTypeError)) := by
  obtain ⟨h1, h2, h3⟩ := int_cases h (lo := 0) (hi := 2 ^ n - 1) (fun _ => rfl) printable_zero
    (valid_bounds _ (supported_valid h)) v
  refine ⟨h1.trans ?_, fun i hi hr => h2 i hi (by omega), h3⟩
  constructor <;> rintro ⟨i, a, b, c⟩ <;> exact ⟨i, a, b, by omega⟩

/-- **C05, signed.**  For `intN`, `encode` accepts exactly the integers `-2^(N-1) .. 2^(N-1) - 1`;
the rest is refused as for `uintN`. -/
theorem C05_int [Ext] {s : TypeStr} {n : Nat} (h : Supported s (.int n)) (v : PyVal) :
    ((∃ b, encode [s] (.list [v]) = .ok b) ↔
      ∃ i : Int, v = .int i ∧ -(2 ^ (n - 1)) ≤ i ∧ i < 2 ^ (n - 1)) ∧
    (∀ i : Int, v = .int i → (i < -(2 ^ (n - 1)) ∨ 2 ^ (n - 1) ≤ i) →
      encode [s] (.list [v]) = .error (quoting v .valueOutOfBounds)) ∧
    ((∀ i, v ≠ .int i) → encode [s] (.list [v]) = .error (quoting v .encodingTypeError)) := by
  obtain ⟨h1, h2, h3⟩ := int_cases h (lo := -1 * 2 ^ (n - 1)) (hi := 2 ^ (n - 1) - 1)
    (fun _ => rfl) (printableInt_le (by simp) (valid_bounds _ (supported_valid h)))
    (printableInt_le (by have : (0 : Int) < 2 ^ (n - 1) := by positivity
                         omega) (valid_bounds _ (supported_valid h))) v
  refine ⟨h1.trans ?_, fun i hi hr => h2 i hi (by omega), h3⟩
  constructor <;> rintro ⟨i, a, b, c⟩ <;> exact ⟨i, a, by omega, by omega⟩

theorem supported_uint8 [Ext] : Supported t!"uint8" (.uint 8) := 
  ⟨.uint (n := 8) (by decide), by decide⟩
theorem supported_int16 [Ext] : Supported t!"int16" (.int 16) := 
  ⟨.int (n := 16) (by decide), by decide⟩

example [Ext] : ∃ b, encode [t!"uint8"] (.list [.int 255]) = .ok b :=
  (C05_uint supported_uint8 _).1.2 ⟨255, rfl, by norm_num, by norm_num⟩
example [Ext] : encode [t!"uint8"] (.list [.int 256]) = .error .valueOutOfBounds :=
  ((C05_uint supported_uint8 _).2.1 256 rfl (by norm_num)).trans
    (by rw [quoting_of (v := .int 256) (printable_bound (i := 256) (by norm_num) (by norm_num))])
example [Ext] : encode [t!"int16"] (.list [.bool true]) = .error .encodingTypeError :=
  ((C05_int supported_int16 _).2.2 (by simp)).trans (by rw [quoting_of (v := .bool true) trivial])

/-! ## C06 -/

/-- **C06.**  The word `encode` produces for an integer type is the big-endian form, in 32 bytes, of
the value modulo `2^256`. -/
theorem C06_twosComplement [Ext] {s : TypeStr} {t : Ty} (h : Supported s t)
    (ht : (∃ n, t = .uint n) ∨ ∃ n, t = .int n) {i : Int} {b : Bytes}
    (he : encode [s] (.list [.int i]) = .ok b) :
    b.length = 32 ∧ (beValue b : Int) = i % 2 ^ 256 := by
  have hd : denote t (.int i) = some (.num i) := by
    rcases ht with ⟨n, rfl⟩ | ⟨n, rfl⟩
    · obtain ⟨j, hj, h1, h2⟩ := (C05_uint h _).1.1 ⟨b, he⟩
      cases hj
      simp only [denote]; rw [if_pos (show fitsU n i from ⟨h1, h2⟩)]
    · obtain ⟨j, hj, h1, h2⟩ := (C05_int h _).1.1 ⟨b, he⟩
      cases hj
      simp only [denote]; rw [if_pos (show fitsS n i from ⟨h1, h2⟩)]
  have hl : t.isLeaf = true := by rcases ht with ⟨n, rfl⟩ | ⟨n, rfl⟩ <;> rfl
  have hw : enc t (.num i) = wordOf i := by rcases ht with ⟨n, rfl⟩ | ⟨n, rfl⟩ <;> rfl
  obtain ⟨h1, h2, _⟩ := leaf_encode h hl hd
  rw [he] at h1
  injection h1 with h1
  subst h1
  exact ⟨h2, by rw [hw]; exact beValue_wordOf i⟩

example : @encode Ex.ext [t!"int16"] (.list [.int (-2)]) = .ok (List.replicate 31 255 ++ [254]) := by
  decide +kernel
example : (beValue (List.replicate 31 255 ++ [254]) : Int) = (-2) % 2 ^ 256 :=
  letI := Ex.ext
  (C06_twosComplement supported_int16 (.inr ⟨16, rfl⟩)
    (show encode [t!"int16"] (.list [.int (-2)]) = .ok (List.replicate 31 255 ++ [254]) by
      decide +kernel)).2

/-! ## C07

`number? v = some (m, e)`: `v` is the Python number `m * 10^e` (an int, a bool or a finite Decimal). -/

/-- **C07, unsigned, part.**  What `encode` accepts for `ufixedMxN` is a number not below zero and not
above `(2^M - 1) / 10^N`, and it is on the grid unless its exponent is below `-1000997`.
Missing: nonzero numbers with a smaller exponent, see `C07_ufixed_false`. -/
theorem C07_ufixed_partial [Ext] {s : TypeStr} {m n : Nat} (h : Supported s (.ufixed m n)) {v : PyVal}
    {b : Bytes} (he : encode [s] (.list [v]) = .ok b) :
    ∃ x, number? v = some x ∧ 0 ≤ decValue x ∧
      decValue x ≤ ((2 ^ m - 1 : Int) : ℚ) * 10 ^ (-(n : Int)) ∧
      (-1000997 ≤ x.2 → ∃ k : Int, decValue x = k * 10 ^ (-(n : Int)) ∧ 0 ≤ k ∧ k < 2 ^ m) := by
  obtain ⟨x, hx, h1, h2, h3⟩ := fixed_accepted h (.inl ⟨m, rfl, rfl, rfl⟩) he
  have h0 : 0 ≤ decValue x := by simpa using h1
  refine ⟨x, hx, h0, by simpa using h2, fun ht => ?_⟩
  obtain ⟨k, h4, h5, h6⟩ := h3 ((V_nonneg_iff x).1 h0) ht
  exact ⟨k, h4, h5, by omega⟩

/-- **C07, signed, part.**  What `encode` accepts for `fixedMxN` is a number from `-2^(M-1) / 10^N` to
`(2^(M-1) - 1) / 10^N`, and it is on the grid if it is not negative and its exponent is not below
`-1000997`.  Missing: negative numbers, see `C07_fixed_false` and `C07_negative`. -/
theorem C07_fixed_partial [Ext] {s : TypeStr} {m n : Nat} (h : Supported s (.fixed m n)) {v : PyVal}
    {b : Bytes} (he : encode [s] (.list [v]) = .ok b) :
    ∃ x, number? v = some x ∧ ((-(2 ^ (m - 1)) : Int) : ℚ) * 10 ^ (-(n : Int)) ≤ decValue x ∧
      decValue x ≤ ((2 ^ (m - 1) - 1 : Int) : ℚ) * 10 ^ (-(n : Int)) ∧
      (0 ≤ decValue x → -1000997 ≤ x.2 →
        ∃ k : Int, decValue x = k * 10 ^ (-(n : Int)) ∧ -(2 ^ (m - 1)) ≤ k ∧ k < 2 ^ (m - 1)) := by
  obtain ⟨x, hx, h1, h2, h3⟩ := fixed_accepted h (.inr ⟨m, rfl, rfl, rfl⟩) he
  refine ⟨x, hx, h1, h2, fun h0 ht => ?_⟩
  obtain ⟨k, h4, h5, h6⟩ := h3 ((V_nonneg_iff x).1 h0) ht
  exact ⟨k, h4, h5, by omega⟩

/-- **C07, the defect.**  For `fixedMxN`, a negative number in range is accepted whatever digits it
has after the `N`-th place. -/
theorem C07_negative [Ext] {s : TypeStr} {m n : Nat} (h : Supported s (.fixed m n)) {v : PyVal}
    {x : Dec10} (hx : number? v = some x) (h0 : decValue x < 0)
    (h1 : ((-(2 ^ (m - 1)) : Int) : ℚ) * 10 ^ (-(n : Int)) ≤ decValue x) :
    ∃ b, encode [s] (.list [v]) = .ok b :=
  fixed_negative h hx h0 h1

/-- `Decimal('-1.25')` is accepted as a `fixed8x1`, with the encoding of `-1.2`. -/
theorem C07_fixed_false [Ext] : ¬ ∀ (s : TypeStr) (m n : Nat), Supported s (.fixed m n) →
    ∀ (x : Dec10) (b : Bytes), encode [s] (.list [.dec (.fin x.1 x.2)]) = .ok b →
      ∃ k : Int, decValue x = k * 10 ^ (-(n : Int)) := by
  intro h
  have hS : Supported t!"fixed8x1" (.fixed 8 1) :=
    ⟨.fixed (m := 8) (n := 1) (by decide) (by decide) (by decide), by decide⟩
  obtain ⟨b, hb⟩ := C07_negative hS (v := .dec (.fin (-125) (-2))) (x := (-125, -2)) rfl
    (by norm_num [decValue]) (by norm_num [decValue])
  obtain ⟨k, hk⟩ := h _ _ _ hS (-125, -2) _ hb
  norm_num [decValue] at hk
  have : (2 * k : ℚ) = -25 := by linarith
  have : 2 * k = -25 := by exact_mod_cast this
  omega

/-- The tiny `Decimal((0, (1,), -2000000))` is accepted as a `ufixed8x1`. -/
theorem C07_ufixed_false [Ext] : ¬ ∀ (s : TypeStr) (m n : Nat), Supported s (.ufixed m n) →
    ∀ (x : Dec10) (b : Bytes), encode [s] (.list [.dec (.fin x.1 x.2)]) = .ok b →
      ∃ k : Int, decValue x = k * 10 ^ (-(n : Int)) := by
  intro h
  have hS : Supported t!"ufixed8x1" (.ufixed 8 1) :=
    ⟨.ufixed (m := 8) (n := 1) (by decide) (by decide) (by decide), by decide⟩
  obtain ⟨b, hb⟩ := ufixed_tiny hS (e := -2000000) (by norm_num)
  obtain ⟨k, hk⟩ := h _ _ _ hS (1, -2000000) _ hb
  exact tiny_not_grid (by norm_num) hk

/-- **C04, a `Fraction`.**  Given for a fixed-point type it is refused as any number if it is out of bounds; within
the bounds `is_encodable` and `encode` raise `TypeError`. -/
theorem C04_fraction [Ext] {s : TypeStr} {t : Ty} {n : Nat} {lo hi : Int} (h : Supported s t)
    (ht : (∃ m, t = .ufixed m n ∧ lo = 0 ∧ hi = 2 ^ m - 1) ∨
      ∃ m, t = .fixed m n ∧ lo = -(2 ^ (m - 1)) ∧ hi = 2 ^ (m - 1) - 1) {a : Int} {d : Nat} (hd : 0 < d)
    (hp : Printable (.fraction a d)) :
    ((a : ℚ) / d < lo * 10 ^ (-(n : Int)) ∨ (hi : ℚ) * 10 ^ (-(n : Int)) < a / d →
      isEncodable s (.fraction a d) = .ok false ∧ encode [s] (.list [.fraction a d]) = .error .valueOutOfBounds) ∧
    (¬ ((a : ℚ) / d < lo * 10 ^ (-(n : Int)) ∨ (hi : ℚ) * 10 ^ (-(n : Int)) < a / d) →
      isEncodable s (.fraction a d) = .error .typeError ∧ encode [s] (.list [.fraction a d]) = .error .typeError) :=
  fixed_fraction h ht hd hp

/-- `Fraction(77, 3)` and `Fraction(76, 3)` as a `ufixed8x1`, which ends at 25.5. -/
example [Ext] : isEncodable t!"ufixed8x1" (.fraction 77 3) = .ok false ∧
    isEncodable t!"ufixed8x1" (.fraction 76 3) = .error .typeError := by
  have hS : Supported t!"ufixed8x1" (.ufixed 8 1) :=
    ⟨.ufixed (m := 8) (n := 1) (by decide) (by decide) (by decide), by decide⟩
  have hp : ∀ i : Int, i.natAbs ≤ 99 → PrintableInt i := fun i hi =>
    printableInt_of_lt (lt_of_le_of_lt hi (lt_of_lt_of_le (b := 10 ^ 2) (by decide)
      (Nat.pow_le_pow_right (by decide) (by decide))))
  exact ⟨((C04_fraction (n := 1) hS (.inl ⟨8, rfl, rfl, rfl⟩) (by decide) ⟨hp _ (by decide), hp _ (by decide)⟩).1
      (by norm_num)).1,
    ((C04_fraction (n := 1) hS (.inl ⟨8, rfl, rfl, rfl⟩) (by decide) ⟨hp _ (by decide), hp _ (by decide)⟩).2
      (by norm_num)).1⟩

/-! ## C08 -/

/-- **C08.**  A number on the grid and in range, in any representation, is accepted, and the `Decimal`
its encoding decodes to has the same value. -/
theorem C08_fixed_roundTrip [Ext] {s : TypeStr} {t : Ty} {n : Nat} {lo hi : Int} (h : Supported s t)
    (ht : (∃ m, t = .ufixed m n ∧ lo = 0 ∧ hi = 2 ^ m - 1) ∨
      ∃ m, t = .fixed m n ∧ lo = -(2 ^ (m - 1)) ∧ hi = 2 ^ (m - 1) - 1)
    {v : PyVal} {x : Dec10} (hx : number? v = some x) {k : Int}
    (hk : decValue x = k * 10 ^ (-(n : Int))) (h1 : lo ≤ k) (h2 : k ≤ hi) :
    ∃ b c e, encode [s] (.list [v]) = .ok b ∧
      decode [s] (.bytes b) = .ok (.tuple [.dec (.fin c e)]) ∧ decValue (c, e) = decValue x := by
  have hgrid : onGrid? n x = some k := onGrid_some_iff.2 hk
  have hd : denote t v = some (.num k) := by
    rcases ht with ⟨m, rfl, rfl, rfl⟩ | ⟨m, rfl, rfl, rfl⟩
    · simp only [denote, hx, hgrid, Option.bind_eq_bind, Option.bind_some]
      rw [if_pos (show fitsU m k from ⟨h1, by omega⟩)]
    · simp only [denote, hx, hgrid, Option.bind_eq_bind, Option.bind_some]
      rw [if_pos (show fitsS m k from ⟨h1, by omega⟩)]
  have hl : t.isLeaf = true := by rcases ht with ⟨m, rfl, _⟩ | ⟨m, rfl, _⟩ <;> rfl
  obtain ⟨h3, _, h4⟩ := leaf_encode h hl hd
  have hp : toPy t (.num k) = .dec (.fin (gridDec k n).1 (gridDec k n).2) := by
    rcases ht with ⟨m, rfl, _⟩ | ⟨m, rfl, _⟩ <;> rfl
  refine ⟨_, (gridDec k n).1, (gridDec k n).2, h3, ?_, ?_⟩
  · rw [h4 true, hp]
  · rw [hk]; exact gridDec_V k n

/-- `Decimal('-12.00')` as a `fixed8x1`. -/
example [Ext] : ∃ b c e, encode [t!"fixed8x1"] (.list [.dec (.fin (-1200) (-2))]) = .ok b ∧
    decode [t!"fixed8x1"] (.bytes b) = .ok (.tuple [.dec (.fin c e)]) ∧
      decValue (c, e) = decValue (-1200, -2) :=
  C08_fixed_roundTrip (n := 1) (k := -120)
    ⟨.fixed (m := 8) (n := 1) (by decide) (by decide) (by decide), by decide⟩
    (.inr ⟨8, rfl, rfl, rfl⟩) rfl (by norm_num [decValue]) (by norm_num) (by norm_num)

/-! ## C09 -/

/-- **C09.**  For `bytesM`: a `bytes` or `bytearray` of at most `M` bytes is encoded as itself and zeros
up to 32 bytes, and decoded with zeros up to `M` bytes; a longer one raises `ValueOutOfBounds`; any
other value raises `EncodingTypeError`. -/
theorem C09_bytesM [Ext] {s : TypeStr} {m : Nat} (h : Supported s (.bytesM m)) (v : PyVal) :
    (∀ b, IsBytes v b → b.length ≤ m →
      encode [s] (.list [v]) = .ok (b ++ List.replicate (32 - b.length) 0) ∧
      ∀ strict, decode [s] (.bytes (b ++ List.replicate (32 - b.length) 0)) strict =
        .ok (.tuple [.bytes (b ++ List.replicate (m - b.length) 0)])) ∧
    (∀ b, IsBytes v b → m < b.length → encode [s] (.list [v]) = .error .valueOutOfBounds) ∧
    ((∀ b, ¬ IsBytes v b) → encode [s] (.list [v]) = .error (quoting v .encodingTypeError)) := by
  have he : encode [s] (.list [v]) = _ := encode_one false h v
  obtain ⟨hm0, hm⟩ : 0 < m ∧ m ≤ 32 := supported_valid h
  refine ⟨fun b hb hl => ?_, fun b hb hl => ?_, fun hn => ?_⟩
  · have hd : denote (.bytesM m) v = some (.raw (b ++ List.replicate (m - b.length) 0)) := by
      simp only [denote, isBytes_iff.1 hb, Option.bind_eq_bind, Option.bind_some]
      rw [if_pos hl]
    obtain ⟨h1, _, h3⟩ := leaf_encode h rfl hd
    have hw : enc (.bytesM m) (.raw (b ++ List.replicate (m - b.length) 0)) =
        b ++ List.replicate (32 - b.length) 0 := by
      simp only [enc, padRight32, List.length_append, List.length_replicate, List.append_assoc,
        List.replicate_append_replicate]
      congr 2
      rw [show b.length + (m - b.length) = m by omega]
      rcases Nat.lt_or_ge m 32 with hlt | hge
      · rw [Nat.mod_eq_of_lt hlt, Nat.mod_eq_of_lt (by omega)]; omega
      · rw [show m = 32 by omega]; simp
    rw [hw] at h1 h3
    exact ⟨h1, h3⟩
  · rw [he, show (encOf false (.bytesM m)).validateValue v = bytesMValidate (m * 8) v from rfl,
      bytesMValidate, isBytes_iff.1 hb]
    simp only
    rw [if_pos (by omega), invalidate_eq, shown_of (by cases hb <;> trivial)]; rfl
  · have hn' : asBytes? v = none := by
      cases hb : asBytes? v with
      | none => rfl
      | some b => exact absurd (isBytes_iff.2 hb) (hn b)
    rw [he, show (encOf false (.bytesM m)).validateValue v = bytesMValidate (m * 8) v from rfl,
      bytesMValidate, hn', ← shown_quoting]
    simp only [invalidate_eq, error_bind]

theorem supported_bytes4 [Ext] : Supported t!"bytes4" (.bytesM 4) :=
  ⟨.bytesM (m := 4) (by decide) (by decide), by decide⟩

example [Ext] : encode [t!"bytes4"] (.list [.bytearray [1, 2]]) = .ok ([1, 2] ++ List.replicate 30 0) :=
  ((C09_bytesM supported_bytes4 _).1 _ (.bytearray _) (by decide)).1
example [Ext] : encode [t!"bytes4"] (.list [.bytes [1, 2, 3, 4, 5]]) = .error .valueOutOfBounds :=
  (C09_bytesM supported_bytes4 _).2.1 _ (.bytes _) (by decide)

/-! ## C10 -/

/-- **C10.**  Whatever `encode` accepts for `address` spells 20 bytes `a`; the result is 12 zero bytes
and `a`; that decodes to `0x` and the lower-case hexadecimal digits of `a`, which encodes to the same
again. -/
theorem C10_address [Ext] {s : TypeStr} (h : Supported s .address) {v : PyVal} {b : Bytes}
    (he : encode [s] (.list [v]) = .ok b) :
    ∃ a digits, SpellsAddress v a ∧ b = List.replicate 12 0 ++ a ∧
      HexText digits a ∧ (∀ c ∈ digits, IsLowerHex c) ∧
      (∀ strict, decode [s] (.bytes b) strict = .ok (.tuple [.str (ofChars t!"0x" ++ digits)])) ∧
      encode [s] (.list [.str (ofChars t!"0x" ++ digits)]) = .ok b := by
  have he' : encode [s] (.list [v]) = _ := encode_one false h v
  rw [he, eq_comm, bind_eq_ok] at he'
  obtain ⟨_, hval, _⟩ := he'
  have hval' : isAddress v = true := by
    refine Decidable.byContradiction fun hc => ?_
    rw [show (encOf false .address).validateValue v = addressValidate v from rfl, addressValidate,
      if_neg hc, invalidate_eq] at hval
    cases hval
  cases ha : address? v with
  | none => rw [(address_eq v).2 ha] at hval'; cases hval'
  | some a =>
    have hd : denote .address v = some (.raw a) := by simp only [denote, ha]; rfl
    obtain ⟨h1, _, h3⟩ := leaf_encode h rfl hd
    rw [he] at h1
    injection h1 with h1
    have hl := ((address_eq v).1 a ha).2.2
    have hd' : denote .address (.str (zeroX ++ encodeHexDigits a)) = some (.raw a) := by
      simp only [denote, address_toPy hl]; rfl
    subst h1
    exact ⟨a, encodeHexDigits a, isAddress_spells ha, rfl, hexText_encode a,
      encodeHexDigits_lower a, h3, (leaf_encode h rfl hd').1⟩

/-- **C10, one word per address.**  Two accepted spellings of the same address have the same
encoding. -/
theorem C10_same [Ext] {s s' : TypeStr} (h : Supported s .address) (h' : Supported s' .address)
    {v v' : PyVal} {a b b' : Bytes} (hv : SpellsAddress v a) (hv' : SpellsAddress v' a)
    (he : encode [s] (.list [v]) = .ok b) (he' : encode [s'] (.list [v']) = .ok b') : b = b' := by
  obtain ⟨a1, _, h1, rfl, _⟩ := C10_address h he
  obtain ⟨a2, _, h2, rfl, _⟩ := C10_address h' he'
  rw [spellsAddress_unique h1 hv, spellsAddress_unique h2 hv']

/-- **C10, what is accepted.**  All spellings but texts in mixed case are accepted. -/
theorem C10_accepts [Ext] {s : TypeStr} (h : Supported s .address) {a : Bytes} (hl : a.length = 20) :
    encode [s] (.list [.bytes a]) = .ok (List.replicate 12 0 ++ a) ∧
    encode [s] (.list [.bytearray a]) = .ok (List.replicate 12 0 ++ a) ∧
    ∀ digits, HexText digits a → ¬ MixedCase digits →
      encode [s] (.list [.str digits]) = .ok (List.replicate 12 0 ++ a) ∧
      encode [s] (.list [.str (ofChars t!"0x" ++ digits)]) = .ok (List.replicate 12 0 ++ a) ∧
      encode [s] (.list [.str (ofChars t!"0X" ++ digits)]) = .ok (List.replicate 12 0 ++ a) := by
  have key : ∀ v, address? v = some a →
      encode [s] (.list [v]) = .ok (List.replicate 12 0 ++ a) := by
    intro v hv
    have hd : denote .address v = some (.raw a) := by simp only [denote, hv]; rfl
    exact (leaf_encode h rfl hd).1
  refine ⟨key _ (by simp [address?, hl]), key _ (by simp [address?, hl]), fun digits hh hm => ?_⟩
  refine ⟨key _ (spells_isAddress (.text hl hh) ?_), key _ (spells_isAddress (.text0x rfl (.inl rfl) hl hh) ?_),
    key _ (spells_isAddress (.text0x rfl (.inr rfl) hl hh) ?_)⟩
  · intro s hs; cases hs; rwa [remove0x_hex hh]
  · intro s hs; cases hs; exact hm
  · intro s hs; cases hs; exact hm

/-- **C10, mixed case.**  A text with letters in both cases is accepted if it starts with `0x` and the
case of the letters is the checksum of the address, and otherwise raises `EncodingTypeError`. -/
theorem C10_mixed [Ext] {s : TypeStr} (h : Supported s .address) {a : Bytes} (hl : a.length = 20)
    {digits low : PyStr} (hh : HexText digits a) (hm : MixedCase digits) (hlow : HexText low a)
    (hlow' : ∀ c ∈ low, IsLowerHex c) :
    (Checksummed low digits →
      encode [s] (.list [.str (ofChars t!"0x" ++ digits)]) = .ok (List.replicate 12 0 ++ a)) ∧
    (¬ Checksummed low digits →
      encode [s] (.list [.str (ofChars t!"0x" ++ digits)]) = .error .encodingTypeError) ∧
    encode [s] (.list [.str digits]) = .error .encodingTypeError ∧
    encode [s] (.list [.str (ofChars t!"0X" ++ digits)]) = .error .encodingTypeError := by
  have no : ∀ w : PyStr, isAddress (.str w) ≠ true →
      encode [s] (.list [.str w]) = .error .encodingTypeError := by
    intro w hw
    have he : encode [s] (.list [.str w]) = _ := encode_one false h _
    rw [he, show (encOf false .address).validateValue (.str w) = addressValidate (.str w) from rfl,
      addressValidate, if_neg hw, invalidate_eq, shown_of (v := .str w) trivial]
    rfl
  have h0 : remove0x (ofChars t!"0x" ++ digits) = digits := rfl
  have hX : remove0x (ofChars t!"0X" ++ digits) = digits := rfl
  refine ⟨fun hc => ?_, fun hc => no _ fun hw => ?_, no _ fun hw => ?_, no _ fun hw => ?_⟩
  · have ha := (isAddress_mixed h0 hl hh hlow hlow' hm).2 ⟨rfl, hc⟩
    have hd : denote .address (.str (ofChars t!"0x" ++ digits)) = some (.raw a) := by
      simp only [denote, address?, ha, if_true, h0, hexText_iff.1 hh]; rfl
    exact (leaf_encode h rfl hd).1
  · exact hc ((isAddress_mixed h0 hl hh hlow hlow' hm).1 hw).2
  · have := congrArg List.length ((isAddress_mixed (remove0x_hex hh) hl hh hlow hlow' hm).1 hw).1
    simp [zeroX] at this
    omega
  · have := ((isAddress_mixed hX hl hh hlow hlow' hm).1 hw).1
    injection this with _ this
    injection this with this _
    revert this
    decide

/-- **C10, the rest.**  A value that spells no address raises `EncodingTypeError` (or `ValueError`, if it
cannot be printed). -/
theorem C10_refuses [Ext] {s : TypeStr} (h : Supported s .address) {v : PyVal}
    (hv : ∀ a, ¬ SpellsAddress v a) : encode [s] (.list [v]) = .error (quoting v .encodingTypeError) := by
  have he : encode [s] (.list [v]) = _ := encode_one false h v
  cases ha : address? v with
  | some a => exact absurd (isAddress_spells ha) (hv a)
  | none =>
    rw [he, show (encOf false .address).validateValue v = addressValidate v from rfl, addressValidate,
      (address_eq v).2 ha, ← shown_quoting, if_neg (by decide), invalidate_eq]
    rfl

/-- `0xaB00...` when the hash has a digit below 8 in the first place and 8 in the second. -/
example : letI : Ext := { Ex.ext with keccakDigit := fun _ i => if i = 1 then 8 else 0 }
    encode [t!"address"] (.list [.str (ofChars t!"0xaB" ++ List.replicate 38 48)]) =
      .ok (List.replicate 12 0 ++ 0xab :: List.replicate 19 0) ∧
    encode [t!"address"] (.list [.str (ofChars t!"0xAb" ++ List.replicate 38 48)]) =
      .error .encodingTypeError ∧
    encode [t!"address"] (.list [.str (ofChars t!"aB" ++ List.replicate 38 48)]) =
      .error .encodingTypeError :=
  letI : Ext := { Ex.ext with keccakDigit := fun _ i => if i = 1 then 8 else 0 }
  by decide +kernel

theorem supported_address [Ext] : Supported t!"address" .address := ⟨.address, by decide⟩

example : @decode Ex.ext [t!"address"] (.bytes (List.replicate 12 0 ++ List.replicate 20 0xAB)) true =
    .ok (.tuple [.str (ofChars t!"0x" ++ ofChars t!"abababababababababababababababababababab")]) := by
  decide +kernel
example : @encode Ex.ext [t!"address"] (.list [.str (ofChars t!"ABABABABABABABABABABABABABABABABABABABAB")]) =
    .ok (List.replicate 12 0 ++ List.replicate 20 0xAB) := by
  decide +kernel

end EthAbi
