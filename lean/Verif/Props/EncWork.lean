import Verif.Lemmas.EncCost
import Verif.Lemmas.Api
import Verif.Props.Examples

/-!
# C62: the work of `encode`

`encodeChecks packed types args` is the number of calls `encoder.validate_value(value)` that `encode(types, args)`
(or, with `packed`, `encode_packed(types, args)`) makes; every call `encoder(value)` begins with one of them
(`Model/EncCost.lean`).
-/
namespace EthAbi
open Spec

/-- **C62.**  Whatever the arguments, and whether they are accepted or refused: the number of checks is at most the
number of parts of the argument times the nesting of the types (plus four). -/
theorem C62_bound [Ext] (packed : Bool) {types : List TypeStr} {ts : List Ty} (hT : Names types ts) (args : PyVal) :
    encodeChecks packed types args ≤ (nestingAll ts + 4) * valueCount args := by
  unfold encodeChecks
  refine Counted.after_le fun _ _ => ?_
  rw [Tallied.lookups packed hT, Tallied.after_ok rfl]
  have := Tallied.tupleCalls_le (Tallied.ofTys_counts packed (supportedAll_valid hT)) args
  exact Nat.le_trans (Nat.le_succ _) this

/-- **C62.**  If `encode` returns, the number of checks is a function of the types and the arguments. -/
theorem C62_exact [Ext] {types : List TypeStr} {ts : List Ty} (hT : Names types ts) {args : PyVal} {b : Bytes}
    (h : encode types args = .ok b) : encodeChecks false types args = checks (.tuple ts) args :=
  Tallied.encode_counts false hT h

/-- **C62.**  The same for `encode_packed`. -/
theorem C62_exact_packed [Ext] {types : List TypeStr} {ts : List Ty} (hT : Names types ts) {args : PyVal} {b : Bytes}
    (h : encodePacked types args = .ok b) : encodeChecks true types args = packedChecks (.tuple ts) args :=
  Tallied.encode_counts true hT h

/-- **C62.**  `is_encodable` checks no part of its argument twice; if it returns `True`, it has checked each part
once. -/
theorem C62_is_encodable [Ext] {typ : TypeStr} {t : Ty} (hT : Supported typ t) (arg : PyVal) :
    isEncodableChecks false typ arg ≤ valueCount arg ∧
      (isEncodable typ arg = .ok true → isEncodableChecks false typ arg = valueCount arg) :=
  Tallied.isEncodable_counts false hT arg

/-- **C62.**  The same for `is_encodable_packed`. -/
theorem C62_is_encodable_packed [Ext] {typ : TypeStr} {t : Ty} (hT : Supported typ t) (arg : PyVal) :
    isEncodableChecks true typ arg ≤ valueCount arg ∧
      (isEncodablePacked typ arg = .ok true → isEncodableChecks true typ arg = valueCount arg) :=
  Tallied.isEncodable_counts true hT arg

/-- The type string `(((uint8)))` with `n` pairs of parentheses. -/
def Ex.nestedType : Nat → TypeStr
  | 0 => t!"uint8"
  | n + 1 => t!"(" ++ Ex.nestedType n ++ t!")"

/-- The argument `(((7,),),)` with `n` pairs of parentheses. -/
def Ex.nestedArg : Nat → PyVal
  | 0 => .int 7
  | n + 1 => .tuple [Ex.nestedArg n]

theorem nested_count (n : Nat) : valueCount (Ex.nestedArg n) = n + 1 := by
  induction n with
  | zero => rfl
  | succ n ih => simp [Ex.nestedArg, valueCount, valueCounts, ih]

theorem nested_facts [Ext] (n : Nat) : ∃ t x, Supported (Ex.nestedType n) t ∧ t.dynamic = false ∧
    denote t (Ex.nestedArg n) = some x ∧ enc t x = be32 7 ∧
    2 * checks t (Ex.nestedArg n) = (n + 1) * (n + 2) := by
  induction n with
  | zero =>
    refine ⟨.uint 8, .num 7, ⟨.uint (n := 8) (by decide), by decide⟩, rfl, rfl, ?_, rfl⟩
    simp [enc]; rfl
  | succ n ih =>
    obtain ⟨t, x, h1, h2, h3, h4, h5⟩ := ih
    refine ⟨.tuple [t], .seq [x], ⟨.tuple (.one h1.1), ?_⟩, by simp [Ty.dynamic, Ty.anyDynamic, h2], ?_, ?_, ?_⟩
    · intro h
      have := congrArg List.head? h
      simp [Ex.nestedType] at this
    · simp [Ex.nestedArg, denote, asListLike?, denoteAll, h3]
    · simp only [enc, encAll, h2, h4]
      rfl
    · have := nested_count n
      simp only [Ex.nestedArg, checks, partsOf, checksAll, h2, valueCount, valueCounts, this]
      simp only [Bool.false_eq_true, if_false]
      have h6 : (n + 1 + 1) * (n + 1 + 2) = (n + 1) * (n + 2) + 2 * (n + 2) := by ring
      omega

/-- **C62: the factor is real.**  `encode(["(((uint8)))"], [(((7,),),)])` with `n` pairs of parentheses: the argument
has `n + 2` parts, the result is one word, and the number of checks is `(n + 2) * (n + 3) / 2`. -/
theorem C62_quadratic [Ext] (n : Nat) :
    valueCount (.list [Ex.nestedArg n]) = n + 2 ∧
    encode [Ex.nestedType n] (.list [Ex.nestedArg n]) = .ok (be32 7) ∧
    2 * encodeChecks false [Ex.nestedType n] (.list [Ex.nestedArg n]) = (n + 2) * (n + 3) := by
  obtain ⟨t, x, h1, h2, h3, h4, h5⟩ := nested_facts n
  have hT : Names [Ex.nestedType n] [t] := .cons h1 .nil
  have hc := nested_count n
  have he : encode [Ex.nestedType n] (.list [Ex.nestedArg n]) = .ok (be32 7) := by
    have := encode_of hT (.list [Ex.nestedArg n]) (xs := [x]) (by simp [denoteAll, h3])
    simp only [encodeArgs, encAll, h4, h2] at this
    exact this (by decide)
  refine ⟨by simp [valueCount, valueCounts, hc], he, ?_⟩
  rw [C62_exact hT he]
  simp only [checks, partsOf, checksAll, h2]
  simp only [valueCount, valueCounts, hc]
  have : 2 * checks t (Ex.nestedArg n) = (n + 1) * (n + 2) := h5
  simp only [Bool.false_eq_true, if_false]
  have h6 : (n + 2) * (n + 3) = (n + 1) * (n + 2) + 2 * (n + 2) := by ring
  omega

/-- `encode(["(uint8,bytes)[]", "bool"], [[(7, b""), (8, b"ab")], True])`. -/
example : letI := Ex.ext
    let args : PyVal := .list [.list [.tuple [.int 7, .bytes []], .tuple [.int 8, .bytes [97, 98]]], .bool true]
    (encode [t!"(uint8,bytes)[]", t!"bool"] args).isOk = true ∧
    encodeChecks false [t!"(uint8,bytes)[]", t!"bool"] args = 35 ∧ valueCount args = 9 ∧
    nestingAll [.dyn (.tuple [.uint 8, .bytes]), .bool] = 2 := by
  decide +kernel

/-- A refusal: `encode(["uint8[]"], [[1, 2, 300, 4]])`. -/
example : letI := Ex.ext
    let args : PyVal := .list [.list [.int 1, .int 2, .int 300, .int 4]]
    encode [t!"uint8[]"] args = .error .valueOutOfBounds ∧ encodeChecks false [t!"uint8[]"] args = 5 ∧
      valueCount args = 6 := by
  decide +kernel

end EthAbi
