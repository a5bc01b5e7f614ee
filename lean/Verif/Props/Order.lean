import Verif.Lemmas.Order
import Verif.Props.RoundTrip
import Verif.Props.Leaves

/-! # The order of encodings (C76) -/
namespace EthAbi
open Spec

/-- **C76.**  For types made of unsigned numbers, `bool`, `address` and `bytesM` the encodings, compared as Python compares
`bytes`, are in the order of the values. -/
theorem C76_order [Ext] {types : List TypeStr} {ts : List Ty} (hT : Names types ts) (hu : ∀ t ∈ ts, t.Unsigned)
    {args args' : PyVal} {vs vs' : List PyVal} (ha : IsListOf args vs) (ha' : IsListOf args' vs')
    (hg : OnGridAll ts vs) (hg' : OnGridAll ts vs') {b b' : Bytes} (h : encode types args = .ok b)
    (h' : encode types args' = .ok b') :
    ∃ xs ys, denoteAll ts vs = some xs ∧ denoteAll ts vs' = some ys ∧ (b < b' ↔ BeforeSeq xs ys) := by
  obtain ⟨xs, hd, rfl⟩ := encode_spec hT ha h hg
  obtain ⟨ys, hd', rfl⟩ := encode_spec hT ha' h' hg'
  refine ⟨xs, ys, hd, hd', ?_⟩
  have hv := supportedAll_valid hT
  have hc (xs ys : List Val) (hx : Val.OfAll ts xs) (hy : Val.OfAll ts ys) :
      ComparedSeq xs ys (encodeArgs ts xs) (encodeArgs ts ys) :=
    encAll_compared hv hu (fun t ht x y => enc_compared t (hv t ht) (hu t ht) x y) hx hy
  have hx := denoteAll_of hd
  have hy := denoteAll_of hd'
  constructor
  · intro hlt
    rcases hc xs ys hx hy with ⟨h1, _⟩ | ⟨_, h2⟩ | ⟨_, h2⟩
    · exact h1
    · rw [h2] at hlt
      exact absurd hlt (bytes_lt_irrefl _)
    · exact absurd hlt (bytes_lt_asymm h2)
  · intro hb
    rcases hc xs ys hx hy with ⟨_, h1⟩ | ⟨h1, _⟩ | ⟨h1, _⟩
    · exact h1
    · subst h1
      exact absurd hb (beforeSeq_irrefl _)
    · exact absurd hb (beforeSeq_asymm _ _ h1)

/-- **C76** (integers).  For `uintN` the encodings of two integers are in the order of the integers; for `intN` they are,
except that every negative integer comes after all others. -/
theorem C76_integers [Ext] {s : TypeStr} {t : Ty} (hs : Supported s t) (ht : (∃ n, t = .uint n) ∨ ∃ n, t = .int n)
    {i j : Int} {b b' : Bytes} (h : encode [s] (.list [.int i]) = .ok b) (h' : encode [s] (.list [.int j]) = .ok b') :
    b < b' ↔ (i < j ∧ (0 ≤ i ∨ j < 0)) ∨ (0 ≤ i ∧ j < 0) := by
  obtain ⟨l1, e1⟩ := C06_twosComplement hs ht h
  obtain ⟨l2, e2⟩ := C06_twosComplement hs ht h'
  have bound : ∀ k : Int, (∃ b, encode [s] (.list [.int k]) = .ok b) → -(2 ^ 255) ≤ k ∧ k < 2 ^ 256 ∧ (k < 0 → -(2 ^ 255) ≤ k) := by
    intro k hk
    have hv := supported_valid hs
    rcases ht with ⟨n, rfl⟩ | ⟨n, rfl⟩
    · obtain ⟨_, h0, h1, h2⟩ := (C05_uint hs _).1.1 hk
      cases h0
      have hv' : validBits n := hv
      have := pow_le_256 hv'.2.1
      omega
    · obtain ⟨_, h0, h1, h2⟩ := (C05_int hs _).1.1 hk
      cases h0
      have hv' : validBits n := hv
      have h3 : (2 : Int) ^ (n - 1) ≤ 2 ^ 255 := pow_le_pow_right₀ (by decide) (by have := hv'.2.1; omega)
      omega
  have mixed : (0 ≤ i → j < 0 → i < 2 ^ 255) ∧ (0 ≤ j → i < 0 → j < 2 ^ 255) := by
    have hv := supported_valid hs
    rcases ht with ⟨n, rfl⟩ | ⟨n, rfl⟩
    · obtain ⟨_, h0, h1, h2⟩ := (C05_uint hs _).1.1 ⟨b, h⟩
      obtain ⟨_, h0', h1', h2'⟩ := (C05_uint hs _).1.1 ⟨b', h'⟩
      cases h0
      cases h0'
      omega
    · obtain ⟨_, h0, h1, h2⟩ := (C05_int hs _).1.1 ⟨b, h⟩
      obtain ⟨_, h0', h1', h2'⟩ := (C05_int hs _).1.1 ⟨b', h'⟩
      cases h0
      cases h0'
      have hv' : validBits n := hv
      have h3 : (2 : Int) ^ (n - 1) ≤ 2 ^ 255 := pow_le_pow_right₀ (by decide) (by have := hv'.2.1; omega)
      omega
  have b1 := bound i ⟨b, h⟩
  have b2 := bound j ⟨b', h'⟩
  rw [beValue_eq] at e1 e2
  have key : b < b' ↔ bigEndianToInt b < bigEndianToInt b' := by
    refine ⟨fun hlt => ?_, bytes_lt_of_num (l1.trans l2.symm)⟩
    rcases Nat.lt_trichotomy (bigEndianToInt b) (bigEndianToInt b') with h1 | h1 | h1
    · exact h1
    · have : b = b' := by rw [← be32_bigEndianToInt l1, ← be32_bigEndianToInt l2, h1]
      subst this
      exact absurd hlt (bytes_lt_irrefl _)
    · exact absurd hlt (bytes_lt_asymm (bytes_lt_of_num (l2.trans l1.symm) h1))
  rw [key]
  have p : (2 : Int) ^ 256 = 2 * 2 ^ 255 := by norm_num
  omega

/-- An address and a pair of numbers, against a larger second number. -/
example : letI := Ex.ext
    ∃ b b', encode [t!"bytes2", t!"uint8[2]"] (.list [.bytes [1, 2], .list [.int 3, .int 4]]) = .ok b ∧
      encode [t!"bytes2", t!"uint8[2]"] (.list [.bytes [1, 2], .list [.int 3, .int 5]]) = .ok b' ∧ b < b' := by
  letI := Ex.ext
  have hT : Names [t!"bytes2", t!"uint8[2]"] [.bytesM 2, .sized 2 (.uint 8)] :=
    .cons ⟨.bytesM (m := 2) (by decide) (by decide), by decide⟩
      (.cons ⟨.sized (k := 2) (s := t!"uint8") (.uint (n := 8) (by decide)) (by decide) (by decide), by decide⟩ .nil)
  have h1 : encode [t!"bytes2", t!"uint8[2]"] (.list [.bytes [1, 2], .list [.int 3, .int 4]]) =
    .ok (padRight32 [1, 2] ++ be32 3 ++ be32 4) := by decide +kernel
  have h2 : encode [t!"bytes2", t!"uint8[2]"] (.list [.bytes [1, 2], .list [.int 3, .int 5]]) =
    .ok (padRight32 [1, 2] ++ be32 3 ++ be32 5) := by decide +kernel
  obtain ⟨xs, ys, d1, d2, hb⟩ := C76_order hT (by simp [Ty.Unsigned]) (.list _) (.list _)
    (by simp [OnGridAll, OnGrid]) (by simp [OnGridAll, OnGrid]) h1 h2
  refine ⟨_, _, h1, h2, hb.2 ?_⟩
  obtain rfl : [.raw [1, 2], .seq [.num 3, .num 4]] = xs := Option.some.inj (Eq.trans (by rfl) d1)
  obtain rfl : [.raw [1, 2], .seq [.num 3, .num 5]] = ys := Option.some.inj (Eq.trans (by rfl) d2)
  simp [BeforeSeq, Before]

/-- `-1` comes after `1`. -/
example : letI := Ex.ext
    ∀ b b', encode [t!"int8"] (.list [.int 1]) = .ok b → encode [t!"int8"] (.list [.int (-1)]) = .ok b' → b < b' := by
  letI := Ex.ext
  intro b b' h h'
  exact (C76_integers (t := .int 8) ⟨.int (n := 8) (by decide), by decide⟩ (.inr ⟨8, rfl⟩) h h').2 (.inr (by decide))

end EthAbi
