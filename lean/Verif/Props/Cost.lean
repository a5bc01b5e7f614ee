import Verif.Lemmas.Blowup
import Verif.Props.Examples

/-!
# C44: the cost of decoding

`decodeSteps types data strict` is the number of calls `decoder(stream)` that
`decode(types, data, strict)` makes (`Model/Cost.lean`).
-/
namespace EthAbi
open Spec

/-- **C44, what holds.**  For fixed types the number of decoder calls is bounded by a polynomial in the
length of the data: its degree is the nesting depth of arrays, and only its coefficient is exponential
in the length of the type strings.  (The full claim asks for one polynomial for all types.) -/
theorem C44_bound_partial [Ext] {types : List TypeStr} {ts : List Ty} (hT : Names types ts)
    (data : Bytes) (strict : Bool) :
    decodeSteps types data strict ≤
      4 ^ (charCount types + types.length + 1) * (data.length / 32 + 1) ^ arrayNestingAll ts :=
  Counted.steps_bound hT data strict fun _ ht => Counted.nesting_mem ht

/-- **C44, the types fixed.**  Without arrays the number of calls does not depend on the data. -/
theorem C44_no_arrays [Ext] {types : List TypeStr} {ts : List Ty} (hT : Names types ts)
    (h : arrayNestingAll ts = 0) (data : Bytes) (strict : Bool) :
    decodeSteps types data strict ≤ 4 ^ (charCount types + types.length + 1) := by
  have := C44_bound_partial hT data strict
  rwa [h, Nat.pow_zero, Nat.mul_one] at this

/-- **C44, what is counted.**  The decoder objects with counts are the objects that `decode` looks up
and runs. -/
theorem C44_counted [Ext] {types : List TypeStr} {ts : List Ty} (hT : Names types ts) (strict : Bool) :
    ∃ cs, mapPyM (fun s => getCountedFuel (mappingOf 0 defaultPreds countedDecoders) (s.length + 1) s
        strict) types = .ok cs ∧
      mapPyM (fun s => getDecoder defaultRegistry s strict) types = .ok (cs.map (·.dec)) :=
  Counted.lookups_dec hT strict

/-- **C44 is false, in the type string.**  `((...(uint256)...))` with `d` pairs of parentheses is a type
of `7 + 2d` characters for which `decode` makes at least `2^d` calls on any word: validating the
pointers of a tuple decodes its static components, and so on at each level. -/
theorem C44_nested_false [Ext] (d : Nat) : ∃ s t, Supported s t ∧ s.length = 7 + 2 * d ∧
    ∀ w : Bytes, w.length = 32 → ∀ strict, 2 ^ d ≤ decodeSteps [s] w strict :=
  ⟨nestStr d, nestTy d, nest_supported d, nestStr_length d, fun _ hw strict =>
    Counted.nest_decodeSteps d hw strict⟩

/-- **C44 is false, in the data.**  `uint256[]...[]` with `d + 1` pairs of brackets, and data of
`64 + 96d` bytes in which both offsets of each array are the same: `decode` returns a value with
at least `2^d` parts. -/
theorem C44_shared_false [Ext] (d : Nat) (hd : 64 + 96 * d ≤ ssizeMax) :
    ∃ s t data v, Supported s t ∧ s.length = 9 + 2 * d ∧ data.length = 64 + 96 * d ∧
      decode [s] (.bytes data) = .ok v ∧ 2 ^ d ≤ valueCount v := by
  obtain ⟨v, h1, h2⟩ := amp_decode d hd true
  refine ⟨ampStr d, ampTy d, be32 32 ++ ampData d, v, amp_supported d, ampStr_length d, ?_, h1, h2⟩
  rw [List.length_append, be32_length, ampData_length]
  omega

/-- **C44 is false.**  No polynomial in the length of the type strings and of the data bounds the number
of decoder calls. -/
theorem C44_false [Ext] : ¬ ∃ c k, ∀ (types : List TypeStr) (ts : List Ty), Names types ts →
    ∀ data : Bytes, decodeSteps types data ≤ c * (charCount types + data.length + 1) ^ k := by
  rintro ⟨c, k, h⟩
  obtain ⟨d, hd⟩ := exp_beats c k
  have h1 := h [nestStr d] [nestTy d] (.cons (nest_supported d) .nil) (be32 0)
  have h2 := Counted.nest_decodeSteps d (w := be32 0) (be32_length 0) true
  have h3 : charCount [nestStr d] + (be32 0).length + 1 = 2 * d + 40 := by
    simp only [charCount, List.map_cons, List.map_nil, List.sum_cons, List.sum_nil, nestStr_length,
      be32_length]
    omega
  rw [h3] at h1
  omega

/-- `decode(["uint8[][2]", "bytes"], ...)` on the encoding of `[[7, 8], []], b""`. -/
example : letI := Ex.ext
    decodeSteps [t!"uint8[][2]", t!"bytes"]
      (be32 64 ++ be32 256 ++ be32 64 ++ be32 160 ++ be32 2 ++ be32 7 ++ be32 8 ++ be32 0 ++ be32 0) = 22 ∧
    Names [t!"uint8[][2]", t!"bytes"] [.sized 2 (.dyn (.uint 8)), .bytes] ∧
    arrayNestingAll [.sized 2 (.dyn (.uint 8)), .bytes] = 2 :=
  letI := Ex.ext
  ⟨by decide +kernel, .cons ⟨.sized (s := t!"uint8[]") (k := 2) (.dyn (s := t!"uint8") (.uint (n := 8)
    (by decide))) (by decide) (by decide +kernel), by decide⟩ (.cons ⟨.bytes, by decide⟩ .nil), rfl⟩

/-- `(((uint256)))` takes 31 calls, `uint256` takes 3. -/
example : letI := Ex.ext
    decodeSteps [t!"(((uint256)))"] (be32 5) = 31 ∧ decodeSteps [t!"uint256"] (be32 5) = 3 :=
  letI := Ex.ext; by decide +kernel

end EthAbi
