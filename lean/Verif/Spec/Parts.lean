import Verif.Model.Parts
import Verif.Spec.Direct
import Verif.Spec.Custom

/-! # Specification: coder objects put together by hand -/
namespace EthAbi.Spec

/-- What a coder object that is put together by hand is for: as `Ty`, but each elementary value has a number
`d` of bytes of its own in place of 32. -/
inductive Form where
  /-- Of class `c`: `v` bits of value in `d` bytes, with `f` decimal places. -/
  | leaf (c : Cls) (v d f : Nat)
  | bytes
  | string
  | sized (k : Nat) (s : Form)
  | dyn (s : Form)
  | tuple (ss : List Form)

mutual
/-- The ABI type of the values. -/
def Form.ty : Form → Ty
  | .leaf c v _ f => clsType c v f
  | .bytes => .bytes
  | .string => .string
  | .sized k s => .sized k s.ty
  | .dyn s => .dyn s.ty
  | .tuple ss => .tuple (Form.tys ss)
/-- The types of the components. -/
def Form.tys : List Form → List Ty
  | [] => []
  | s :: ss => s.ty :: Form.tys ss
end

mutual
/-- The encoding: as `enc`, with `d` bytes for each elementary value. -/
def Form.enc : Form → Val → Bytes
  | .leaf c v d f, x => encIn d (clsType c v f) x
  | .bytes, x => Spec.enc .bytes x
  | .string, x => Spec.enc .string x
  | .sized _ s, .seq xs => layout (xs.map fun x => (s.ty.dynamic, s.enc x))
  | .dyn s, .seq xs => be32 xs.length ++ layout (xs.map fun x => (s.ty.dynamic, s.enc x))
  | .tuple ss, .seq xs => layout (Form.encAll ss xs)
  | _, _ => []
/-- The elements of a tuple. -/
def Form.encAll : List Form → List Val → List Elem
  | s :: ss, x :: xs => (s.ty.dynamic, s.enc x) :: Form.encAll ss xs
  | _, _ => []
end

mutual
/-- The number of bytes of a static form. -/
def Form.width : Form → Nat
  | .leaf _ _ d _ => d
  | .sized k s => k * s.width
  | .tuple ss => Form.widths ss
  | _ => 32
/-- The sum. -/
def Form.widths : List Form → Nat
  | [] => 0
  | s :: ss => s.width + Form.widths ss
end

/-- The number of bytes of the head of a component. -/
def Form.headWidth (s : Form) : Nat := if s.ty.dynamic then 32 else s.width

/-- The number of words that the decoder of a tuple reckons for the head of a component: one, or one for each
element of an array of fixed length with static elements. -/
def Form.reckoned : Form → Nat
  | .sized k s => if s.ty.dynamic then 1 else k
  | _ => 1

mutual
/-- In each tuple with a dynamic component, the heads have at least 32 bytes for each reckoned word. -/
def Form.Roomy : Form → Prop
  | .sized _ s => s.Roomy
  | .dyn s => s.Roomy
  | .tuple ss => Form.AllRoomy ss ∧
    (Ty.anyDynamic (Form.tys ss) = true → 32 * (ss.map Form.reckoned).sum ≤ (ss.map Form.headWidth).sum)
  | _ => True
/-- The same for each component. -/
def Form.AllRoomy : List Form → Prop
  | [] => True
  | s :: ss => s.Roomy ∧ Form.AllRoomy ss
end

mutual
/-- The expression constructs a coder of this form.  Arrays of fixed length and tuples are not empty. -/
def Describes : Part → Form → Prop
  | .fixed c kwargs, .leaf c' v d f => c = c' ∧ Sized c kwargs v d f
  | .byteString, .bytes => True
  | .textString, .string => True
  | .sizedArray (some n) item, .sized k s => n = k ∧ 0 < k ∧ Describes item s
  | .dynamicArray item, .dyn s => Describes item s
  | .tuple parts, .tuple ss => parts ≠ [] ∧ DescribesAll parts ss
  | _, _ => False
/-- The components of a tuple. -/
def DescribesAll : List Part → List Form → Prop
  | [], [] => True
  | p :: ps, s :: ss => Describes p s ∧ DescribesAll ps ss
  | _, _ => False
end

end EthAbi.Spec
