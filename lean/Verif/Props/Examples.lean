import Verif.Lemmas.Api

/-!
# A concrete case used beside the theorems

`encode(["(int8,string)[2]", "bytes", "fixed8x1", "uint"], args)`: nested, static and dynamic.
-/
namespace EthAbi.Ex
open Spec

/-- Some choice of the parameters of the model. -/
@[reducible] def ext : Ext := ⟨fun _ _ => 0, fun _ => false, some 4300, by simp, false⟩

attribute [local instance] ext

/-- The type strings. -/
def types : List TypeStr := [t!"(int8,string)[2]", t!"bytes", t!"fixed8x1", t!"uint"]

/-- The types they name. -/
def tys : List Ty := [.sized 2 (.tuple [.int 8, .string]), .bytes, .fixed 8 1, .uint 256]

/-- The arguments. -/
def args : List PyVal :=
  [.list [.tuple [.int (-2), .str (ofChars t!"abc")], .tuple [.int 127, .str []]],
   .bytearray [1, 2, 3], .dec (.fin (-12) (-1)), .int 7]

/-- The values they denote. -/
def vals : List Val :=
  [.seq [.seq [.num (-2), .text (ofChars t!"abc")], .seq [.num 127, .text []]],
   .raw [1, 2, 3], .num (-12), .num 7]

theorem names : Names types tys := by
  refine .cons ⟨?_, by decide⟩ (.cons ⟨.bytes, by decide⟩ (.cons ⟨?_, by decide⟩
    (.cons ⟨.uint256, by decide⟩ .nil)))
  · exact .sized (s := t!"(int8,string)") (k := 2)
      (.tuple (s := t!"int8,string") (.cons (s := t!"int8") (s' := t!"string")
        (.int (n := 8) (by decide)) (.one .string))) (by decide) (by decide)
  · exact .fixed (m := 8) (n := 1) (by decide) (by decide) (by decide)

theorem onGrid : OnGridAll tys args := by
  simp [tys, args, OnGridAll, OnGrid, asListLike?, number?, onGrid?]

theorem denotes : denoteAll tys args = some vals := by rfl

theorem encodes : encode types (.list args) = .ok (encodeArgs tys vals) := by decide +kernel

theorem fits : Fits (encodeArgs tys vals) := by decide +kernel

theorem decodes : decode types (.bytes (encodeArgs tys vals)) = .ok (.tuple
    [.tuple [.tuple [.int (-2), .str (ofChars t!"abc")], .tuple [.int 127, .str []]],
     .bytes [1, 2, 3], .dec (.fin (-12) (-1)), .int 7]) := by decide +kernel

end EthAbi.Ex
