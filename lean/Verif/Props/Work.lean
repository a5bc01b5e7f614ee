import Verif.Lemmas.CostOut
import Verif.Props.Examples

/-!
# C58: the work of `decode` and the value it returns

`decodeSteps types data strict` is the number of calls `decoder(stream)` that `decode(types, data, strict)` makes
(`Model/Cost.lean`).
-/
namespace EthAbi
open Spec

/-- **C58.**  If `decode` returns, the number of calls is a function of the types and the value. -/
theorem C58_exact [Ext] {types : List TypeStr} {ts : List Ty} (hT : Names types ts) {data : Bytes} {strict : Bool}
    {v : PyVal} (h : decode types (.bytes data) strict = .ok v) :
    decodeSteps types data strict = calls (.tuple ts) v := Counted.decode_counts hT h

/-- **C58.**  It is at least the number of parts of the value, and at most that many times a factor that depends on
how deep tuples are nested in the types. -/
theorem C58_bounds [Ext] {types : List TypeStr} {ts : List Ty} (hT : Names types ts) {data : Bytes} (hl : Fits data)
    {strict : Bool} {v : PyVal} (h : decode types (.bytes data) strict = .ok v) :
    valueCount v ≤ decodeSteps types data strict ∧
      decodeSteps types data strict ≤ 5 * 2 ^ (tupleNestingAll ts + 1) * valueCount v := by
  rw [C58_exact hT h]
  refine ⟨?_, ?_⟩
  · obtain ⟨xs, h1, rfl⟩ := (decode_reads hT (.bytes data) hl).1 h
    exact Counted.calls_ge (.tuple ts) (.seq xs) (readsArgs_of h1)
  · have := Counted.calls_le (.tuple ts) v
    rw [tupleNesting] at this
    omega

/-- **C58.**  Without tuples inside, the work is proportional to the value. -/
theorem C58_linear [Ext] {types : List TypeStr} {ts : List Ty} (hT : Names types ts) (hn : tupleNestingAll ts = 0)
    {data : Bytes} (hl : Fits data) {strict : Bool} {v : PyVal} (h : decode types (.bytes data) strict = .ok v) :
    decodeSteps types data strict ≤ 10 * valueCount v := by
  have := (C58_bounds hT hl h).2
  rwa [hn] at this

/-- `decode(["(uint8,bytes)[]", "bool"], ...)` on the encoding of `[(7, b"")], True`. -/
example : letI := Ex.ext
    let data := be32 64 ++ be32 1 ++ be32 1 ++ be32 32 ++ be32 7 ++ be32 64 ++ be32 0
    let v : PyVal := .tuple [.tuple [.tuple [.int 7, .bytes []]], .bool true]
    decode [t!"(uint8,bytes)[]", t!"bool"] (.bytes data) = .ok v ∧
    Names [t!"(uint8,bytes)[]", t!"bool"] [.dyn (.tuple [.uint 8, .bytes]), .bool] ∧
    calls (.tuple [.dyn (.tuple [.uint 8, .bytes]), .bool]) v = 19 ∧ valueCount v = 6 ∧
    tupleNestingAll [.dyn (.tuple [.uint 8, .bytes]), .bool] = 1 := by
  letI := Ex.ext
  refine ⟨?_, ?_, by decide +kernel, by decide +kernel, by decide +kernel⟩
  · decide +kernel
  · exact .cons ⟨.dyn (s := t!"(uint8,bytes)") (.tuple (s := t!"uint8,bytes") (.cons (s := t!"uint8") (s' := t!"bytes")
      (.uint (n := 8) (by decide)) (.one .bytes))), by decide⟩ (.cons ⟨.bool, by decide⟩ .nil)

end EthAbi
