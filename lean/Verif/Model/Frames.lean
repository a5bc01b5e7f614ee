import Verif.Model.Decoding

/-!
# `ContextFramesBytesIO` with all arguments

`Model/Decoding.lean` has the methods of the stream for the arguments that the library's decoders give them.  A decoder of
the user's own, function or class, gets the same stream and may call its methods as it likes: with negative offsets, with
`whence`, and catching what they raise.  Here they are in full.  Not modelled: the methods of `io.BytesIO` that write to it
or close it.
-/
namespace EthAbi

/-- A `ContextFramesBytesIO`: /repo/eth_abi/decoding.py:35-113.  `frames` is `_frames` with the top first. -/
structure FrameStream where
  data : Bytes
  pos : Nat
  frames : List (Int × Nat)
  total : Int
  deriving DecidableEq, Repr

/-- What a method returns.  /repo/eth_abi/decoding.py:85-113. -/
inductive FrameOut where
  | nothing
  | bytes (b : Bytes)
  | position (n : Nat)
  deriving DecidableEq, Repr

namespace FrameStream

/-- The constructor: /repo/eth_abi/decoding.py:79-83. -/
def new (data : Bytes) : FrameStream := ⟨data, 0, [], 0⟩

/-- `BytesIO.tell`: used in /repo/eth_abi/decoding.py:97. -/
def tell (st : FrameStream) : PyM FrameOut × FrameStream := (.ok (.position st.pos), st)

/-- `BytesIO.read`: used in /repo/eth_abi/decoding.py:388,599.  Without a size, or with a negative one, it reads all that is
left. -/
def read (n : Option Int) (st : FrameStream) : PyM FrameOut × FrameStream :=
  let rest := st.data.drop st.pos
  match n with
  | none => (.ok (.bytes rest), { st with pos := st.pos + rest.length })
  | some n =>
    if n < -ssizeMax - 1 ∨ ssizeMax < n then (.error .overflowError, st)
    else
      let b := if n < 0 then rest else rest.take n.toNat
      (.ok (.bytes b), { st with pos := st.pos + b.length })

/-- `BytesIO.seek`: used in /repo/eth_abi/decoding.py:89,113.  `whence` is 0 (from the start), 1 (from the cursor) or 2 (from
the end). -/
def seek (pos whence : Int) (st : FrameStream) : PyM FrameOut × FrameStream :=
  if pos < -ssizeMax - 1 ∨ ssizeMax < pos then (.error .overflowError, st)
  else if whence ≠ 0 ∧ whence ≠ 1 ∧ whence ≠ 2 then (.error .valueError, st)
  else if whence = 0 ∧ pos < 0 then (.error .valueError, st)
  else
    let base : Int := if whence = 0 then 0 else if whence = 1 then st.pos else st.data.length
    if ssizeMax < base + pos then (.error .overflowError, st)
    else
      let st := { st with pos := (base + pos).toNat }
      (.ok (.position st.pos), st)

/-- `seek_in_frame`: /repo/eth_abi/decoding.py:85-89. -/
def seekInFrame (pos whence : Int) (st : FrameStream) : PyM FrameOut × FrameStream :=
  match st.seek (st.total + pos) whence with
  | (.ok _, st) => (.ok .nothing, st)
  | (.error e, st) => (.error e, st)

/-- `push_frame`: /repo/eth_abi/decoding.py:91-100. -/
def pushFrame (offset : Int) (st : FrameStream) : PyM FrameOut × FrameStream :=
  let st := { st with frames := (offset, st.pos) :: st.frames }
  let st := { st with total := st.total + offset }
  st.seekInFrame 0 0

/-- `pop_frame`: /repo/eth_abi/decoding.py:102-113. -/
def popFrame (st : FrameStream) : PyM FrameOut × FrameStream :=
  match st.frames with
  | [] => (.error .indexError, st)
  | (offset, returnPos) :: frames =>
    let st := { st with frames := frames }
    let st := { st with total := st.total - offset }
    match st.seek returnPos 0 with
    | (.ok _, st) => (.ok .nothing, st)
    | (.error e, st) => (.error e, st)

end FrameStream

/-- A call of a method of the stream.  /repo/eth_abi/decoding.py:85-113. -/
inductive FrameCall where
  | tell
  | read (n : Option Int)
  | seek (pos whence : Int)
  | seekInFrame (pos whence : Int)
  | pushFrame (offset : Int)
  | popFrame

/-- What the call returns or raises, and the stream afterwards.  /repo/eth_abi/decoding.py:85-113. -/
def FrameStream.step (st : FrameStream) : FrameCall → PyM FrameOut × FrameStream
  | .tell => st.tell
  | .read n => st.read n
  | .seek pos whence => st.seek pos whence
  | .seekInFrame pos whence => st.seekInFrame pos whence
  | .pushFrame offset => st.pushFrame offset
  | .popFrame => st.popFrame

/-- The stream after calls one after the other, whatever each of them returns or raises.
/repo/eth_abi/decoding.py:85-113. -/
def FrameStream.run (st : FrameStream) : List FrameCall → FrameStream
  | [] => st
  | c :: cs => FrameStream.run (st.step c).2 cs

end EthAbi
