import Verif.Model.Peg

/-!
# Parse trees
-/
namespace EthAbi.Spec
open Peg

mutual
/-- The characters at the leaves of a parse tree, from left to right. -/
def leaves : Node → List Char
  | .mk _ _ text [] => text
  | .mk _ _ _ (c :: cs) => leaves c ++ leavesAll cs
/-- The characters at the leaves of several trees. -/
def leavesAll : List Node → List Char
  | [] => []
  | c :: cs => leaves c ++ leavesAll cs
end

mutual
/-- Each node of a parse tree has as its text the characters at its leaves. -/
def TextsFit : Node → Prop
  | .mk name kind text children => text = leaves (.mk name kind text children) ∧ AllFit children
/-- The same for several trees. -/
def AllFit : List Node → Prop
  | [] => True
  | c :: cs => TextsFit c ∧ AllFit cs
end

end EthAbi.Spec
