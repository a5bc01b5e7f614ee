import Verif.Model.Frames

/-! # Specification: calls of the methods of a stream, and the frames that they leave open -/
namespace EthAbi.Spec

/-- The offsets of the open frames after some calls, the innermost first, given those before: `push_frame(k)` opens one of
offset `k`, `pop_frame()` closes the innermost. -/
def openAfter (o : List Int) : List FrameCall → List Int
  | [] => o
  | .pushFrame k :: cs => openAfter (k :: o) cs
  | .popFrame :: cs => openAfter o.tail cs
  | _ :: cs => openAfter o cs

/-- The offsets of the open frames after the calls on a new stream. -/
def openFrames (cs : List FrameCall) : List Int := openAfter [] cs

/-- Calls in which every `push_frame` has its `pop_frame` and every `pop_frame` its `push_frame`. -/
inductive Closed : List FrameCall → Prop where
  | nil : Closed []
  | tell : Closed [.tell]
  | read (n : Option Int) : Closed [.read n]
  | seek (pos whence : Int) : Closed [.seek pos whence]
  | seekInFrame (pos whence : Int) : Closed [.seekInFrame pos whence]
  | frame (k : Int) {body : List FrameCall} : Closed body → Closed (.pushFrame k :: body ++ [.popFrame])
  | append {a b : List FrameCall} : Closed a → Closed b → Closed (a ++ b)

/-- The largest position. -/
def maxPosition : Int := 2 ^ 63 - 1

end EthAbi.Spec
