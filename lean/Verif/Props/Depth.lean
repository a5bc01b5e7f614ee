import Verif.Lemmas.Depth
import Verif.Lemmas.Api
import Verif.Lemmas.Blowup
import Verif.Lemmas.CostOut
import Verif.Props.EncWork

/-!
# C63: how deep the calls are nested

`decodeDepth types data strict` is the largest number of calls `decoder(stream)` that are on the stack at one time in
`decode(types, data, strict)` (`Model/Cost.lean`); `encodeDepth packed types args` the same for the calls `encoder(value)`
and `encoder.validate_value(value)` in `encode` or `encode_packed`, and `isEncodableDepth` for `is_encodable` or
`is_encodable_packed` (`Model/EncCost.lean`).  Python refuses to nest calls too deep (`RecursionError`); what bounds the
nesting is the type, and never the data or the argument.
-/
namespace EthAbi
open Spec

/-- **C63.**  Whatever the data, and whether it is accepted or refused: the calls of `decode` are nested at most twice
as deep as arrays and tuples are nested in the types (plus four). -/
theorem C63_decode [Ext] {types : List TypeStr} {ts : List Ty} (hT : Names types ts) (data : Bytes) (strict : Bool) :
    decodeDepth types data strict ≤ 2 * nestingAll ts + 4 :=
  Counted.decodeDepth_le hT data strict

/-- **C63.**  Whatever the arguments, and whether they are accepted or refused: the calls of `encode` and of
`encode_packed` are nested at most as deep as arrays and tuples are nested in the types (plus four). -/
theorem C63_encode [Ext] (packed : Bool) {types : List TypeStr} {ts : List Ty} (hT : Names types ts) (args : PyVal) :
    encodeDepth packed types args ≤ nestingAll ts + 4 :=
  Tallied.encodeDepth_le packed hT args

/-- **C63.**  The same for `is_encodable` and `is_encodable_packed` (plus one). -/
theorem C63_is_encodable [Ext] (packed : Bool) {typ : TypeStr} {t : Ty} (hT : Supported typ t) (arg : PyVal) :
    isEncodableDepth packed typ arg ≤ nesting t + 1 :=
  Tallied.isEncodableDepth_le packed hT arg

/-- The type that `(((uint8)))` names. -/
def Ex.nestedTy : Nat → Ty
  | 0 => .uint 8
  | n + 1 => .tuple [Ex.nestedTy n]

theorem nestedTy_facts [Ext] (n : Nat) : Supported (Ex.nestedType n) (Ex.nestedTy n) ∧
    (Ex.nestedTy n).dynamic = false ∧ nesting (Ex.nestedTy n) = n := by
  induction n with
  | zero => exact ⟨⟨.uint (n := 8) (by decide), by decide⟩, rfl, rfl⟩
  | succ n ih =>
    obtain ⟨h1, h2, h3⟩ := ih
    refine ⟨⟨.tuple (.one h1.1), ?_⟩, by simp [Ex.nestedTy, Ty.dynamic, Ty.anyDynamic, h2], ?_⟩
    · intro h
      have := congrArg List.head? h
      simp [Ex.nestedType] at this
    · simp [Ex.nestedTy, nesting, nestingAll, h3]

theorem Counted.single_depth {c : Counted} {D : Nat} (h : ∀ fl st, c.deep fl st = D) (hd : c.dec.dyn = false)
    (ht : c.dec.isHeadTail = false) (fl : Flags) (st : Stream) :
    Counted.tupleDepth fl ([c].map Counted.wrapDyn) st = D + 1 := by
  have hw : Counted.wrapDyn c = c := by simp [Counted.wrapDyn, hd]
  have h0 : ∀ {α : Type} (r : PyM α), Counted.after r (fun _ => 0) = 0 := by
    intro α r
    cases r <;> rfl
  simp only [List.map_cons, List.map_nil, hw, Counted.tupleDepth, Counted.checkDepth, Counted.eachDepth, ht, h, h0,
    Bool.false_eq_true, if_false, Nat.max_zero]
  have : Counted.after (tupleValidatePointers fl [c.dec] st) (fun _ => D) ≤ D := Counted.after_le fun _ _ => Nat.le_refl _
  rw [Nat.max_eq_left this, Nat.add_comm]

theorem nestedTy_deep (n : Nat) (h : ∀ n, (Ex.nestedTy n).dynamic = false) (fl : Flags) (st : Stream) :
    (Counted.ofTy (Ex.nestedTy n)).deep fl st = n + 1 := by
  induction n generalizing fl st with
  | zero => rfl
  | succ n ih =>
    simp only [Ex.nestedTy, Counted.ofTy, Counted.ofTys]
    refine Counted.single_depth ih ?_ ?_ fl st
    · rw [Counted.ofTy_dec, Counted.decOf_dyn, h]
    · rw [Counted.ofTy_dec, Counted.decOf_notHT]

/-- **C63: the types do count.**  `decode(["(((uint8)))"], data)` with `n` pairs of parentheses: `n + 2` calls are on
the stack at one time, whatever the data. -/
theorem C63_decode_deep [Ext] (n : Nat) (data : Bytes) (strict : Bool) :
    decodeDepth [Ex.nestedType n] data strict = n + 2 := by
  obtain ⟨h1, h2, _⟩ := nestedTy_facts n
  rw [Counted.decodeDepth_eq (.cons h1 .nil)]
  refine Counted.single_depth (c := (Counted.ofTy (Ex.nestedTy n)).setStrict strict)
    (fun fl st => nestedTy_deep n (fun n => (nestedTy_facts n).2.1) fl st) ?_ ?_ _ _
  · simp only [Counted.setStrict, Counted.ofTy_dec]
    rw [← h2, ← Counted.decOf_dyn]
    unfold Decoder.setStrict Decoder.dyn
    split
    · split <;> rfl
    · rfl
  · simp only [Counted.setStrict, Counted.ofTy_dec]
    rw [← Counted.decOf_notHT (Ex.nestedTy n)]
    unfold Decoder.setStrict
    split
    · split <;> rfl
    · rfl

theorem nestedTy_check [Ext] (packed : Bool) (n : Nat) :
    n + 1 ≤ (Tallied.ofTy packed (Ex.nestedTy n)).checkDepth (Ex.nestedArg n) := by
  induction n with
  | zero => exact Nat.le_refl _
  | succ n ih =>
    simp only [Ex.nestedTy, Ex.nestedArg, Tallied.ofTy, Tallied.ofTys, Tallied.tupleCheckDepth, asListLike?,
      List.length_cons, List.length_nil, ne_eq, not_true_eq_false, if_false, Tallied.itemDepth]
    rw [Nat.add_comm]
    exact Nat.add_le_add_left (Nat.le_trans ih (Nat.le_max_left _ _)) 1

/-- **C63: the types do count.**  `encode(["(((uint8)))"], [(((7,),),)])` with `n` pairs of parentheses: at least `n + 3`
calls are on the stack at one time. -/
theorem C63_encode_deep [Ext] (packed : Bool) (n : Nat) :
    n + 3 ≤ encodeDepth packed [Ex.nestedType n] (.list [Ex.nestedArg n]) := by
  have h1 := (nestedTy_facts n).1
  unfold encodeDepth
  rw [Tallied.after_ok (show validateListLikeParam (.list [Ex.nestedArg n]) = .ok () from rfl), Tallied.lookups packed (.cons h1 .nil), Tallied.after_ok rfl]
  have h2 : n + 2 ≤ Tallied.tupleCheckDepth (Tallied.ofTys packed [Ex.nestedTy n]) (.list [Ex.nestedArg n]) := by
    simp only [Tallied.ofTys, Tallied.tupleCheckDepth, asListLike?, List.length_cons, List.length_nil, ne_eq,
      not_true_eq_false, if_false, Tallied.itemDepth]
    rw [show n + 2 = 1 + (n + 1) by omega]
    exact Nat.add_le_add_left (Nat.le_trans (nestedTy_check packed n) (Nat.le_max_left _ _)) 1
  rw [show n + 3 = 1 + (n + 2) by omega]
  exact Nat.add_le_add_left (Nat.le_trans h2 (Nat.le_max_left _ _)) 1

/-- The bound of `C63_decode` is reached: `decode(["bytes[][]"], data)` for the encoding of `[[[b"ab"]]]`.  Other
data: an empty array; an offset that is refused. -/
example : letI := Ex.ext
    let data : Bytes := be32 32 ++ be32 1 ++ be32 32 ++ be32 1 ++ be32 32 ++ be32 2 ++ ([97, 98] ++ List.replicate 30 0)
    decode [t!"bytes[][]"] (.bytes data) = .ok (.tuple [.tuple [.tuple [.bytes [97, 98]]]]) ∧
    decodeDepth [t!"bytes[][]"] data = 8 ∧ 2 * nestingAll [.dyn (.dyn .bytes)] + 4 = 8 ∧
    decodeDepth [t!"bytes[][]"] (be32 32 ++ be32 0) = 4 ∧ decodeDepth [t!"bytes[][]"] (be32 0 ++ be32 0) = 2 := by
  decide +kernel

/-- The bounds of `C63_encode` and `C63_is_encodable` are reached, and an argument that is nested deeper than the types
changes nothing: `[[[[[[]]]]]]` for `uint8`. -/
example : letI := Ex.ext
    encodeDepth false [t!"bytes[][]"] (.list [.list [.list [.bytes [97, 98]]]]) = 6 ∧
    nestingAll [.dyn (.dyn .bytes)] + 4 = 6 ∧
    isEncodableDepth false t!"bytes[][]" (.list [.list [.bytes [97, 98]]]) = 3 ∧
    encodeDepth false [t!"uint8"] (.list [.list [.list [.list [.list [.list []]]]]]) = 3 ∧
    isEncodableDepth false t!"uint8" (.list [.list [.list [.list [.list []]]]]) = 1 := by
  decide +kernel

end EthAbi
