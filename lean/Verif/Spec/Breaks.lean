import Verif.Spec.Read

/-!
# Specification: what is wrong with data, and which exception says so

`Reads` (`Spec/Read.lean`) says what it means that data holds a value.  `Broken` says why it does not: a `Trouble`,
which has its exception.  A container is read in two rounds.  The first goes over its heads: a static component is read, the
offset of a dynamic one is looked at.  The second goes over the dynamic components where the offsets point.  The
first thing wrong decides.
-/
namespace EthAbi.Spec

/-- The words of a tuple's head behind which its offsets must point, as the library counts them: one for each component,
but as many as it has elements for an array of fixed length and of static elements. -/
def countedWords (t : Ty) : Nat :=
  match t.dynamic, t with
  | false, .sized k _ => k
  | _, _ => 1

/-- The same in bytes, for all components. -/
def countedHead (ts : List Ty) : Nat := 32 * (ts.map countedWords).sum

/-- The data `d` ends before the word at `p` does. -/
def NoWord (d : Bytes) (p : Nat) : Prop := d.length < p + 32

/-- The word at `p` is the number `n`. -/
def WordIs (d : Bytes) (p n : Nat) : Prop := n < 2 ^ 256 ∧ At d p (be32 n)

/-- Arrays and tuples. -/
inductive Container where
  | array
  | tuple
  deriving DecidableEq, Repr

/-- What can be wrong with data. -/
inductive Trouble where
  /-- Of a word of 32 bytes only `got` are there. -/
  | noWord (got : Nat)
  /-- Of the `asked` bytes of a byte string only `got` are there. -/
  | cut (asked got : Nat)
  /-- The offset at the position `loc`, in the head of an array or a tuple, points to where it must not. -/
  | pointer (c : Container) (loc : Nat)
  /-- The bytes `b` beside a value are not as they should be. -/
  | padding (b : Bytes)
  /-- The byte of a boolean is neither 0 nor 1. -/
  | boolean (b : Bytes)
  /-- A length that Python cannot read at once. -/
  | tooLong
  /-- A text that is not UTF-8. -/
  | notText
  deriving DecidableEq, Repr

/-- The exception for it. -/
def Trouble.exc : Trouble → Exc
  | .noWord _ => .insufficientDataBytes
  | .cut _ _ => .insufficientDataBytes
  | .pointer _ _ => .invalidPointer
  | .padding _ => .nonEmptyPaddingBytes
  | .boolean _ => .nonEmptyPaddingBytes
  | .tooLong => .overflowError
  | .notText => .unicodeDecodeError

/-- The word at `p` is not there. -/
def WordMissing (d : Bytes) (p : Nat) (w : Trouble) : Prop := NoWord d p ∧ w = .noWord (d.length - p)

/-- What is wrong with a word that is not the encoding of a value of an elementary type: the bytes that are not the value's
own, which are in front of it or, for `bytes1` to `bytes32`, behind it; or the byte of a boolean. -/
def wordTrouble : Ty → Bytes → Trouble
  | .uint n, word => .padding (word.take (32 - n / 8))
  | .int n, word => .padding (word.take (32 - n / 8))
  | .ufixed m _, word => .padding (word.take (32 - m / 8))
  | .fixed m _, word => .padding (word.take (32 - m / 8))
  | .address, word => .padding (word.take 12)
  | .bytesM m, word => .padding (word.drop m)
  | .bool, word =>
    if word.drop 31 = [0] ∨ word.drop 31 = [1] then .padding (word.take 31) else .boolean (word.drop 31)
  | _, _ => .notText

/-- What can be wrong with a byte string at `p`: no length; a length that Python cannot read at once; and, in strict mode,
fewer bytes than the length (rounded up to words) says, or something other than zeros after the string. -/
inductive BytesBreak (strict : Bool) (d : Bytes) (p : Nat) : Trouble → Prop where
  | noLength {w : Trouble} : WordMissing d p w → BytesBreak strict d p w
  | huge {n : Nat} : WordIs d p n → 2 ^ 63 - 32 < n → BytesBreak strict d p .tooLong
  | cut {n : Nat} : strict = true → WordIs d p n → n ≤ 2 ^ 63 - 32 → d.length < p + 32 + (n + 31) / 32 * 32 →
      BytesBreak strict d p (.cut ((n + 31) / 32 * 32) (d.length - (p + 32)))
  | padding {n q : Nat} {x : UInt8} : strict = true → WordIs d p n → n ≤ 2 ^ 63 - 32 →
      p + 32 + (n + 31) / 32 * 32 ≤ d.length → p + 32 + n ≤ q → q < p + 32 + (n + 31) / 32 * 32 →
      d[q]? = some x → x ≠ 0 →
      BytesBreak strict d p (.padding ((d.drop (p + 32 + n)).take ((n + 31) / 32 * 32 - n)))

/-- A component of an array or a tuple, as far as it matters here: whether it is dynamic, how many bytes its head has,
whether it can be read at a position, and why not. -/
structure Component where
  dynamic : Bool
  step : Nat
  reads : Nat → Prop
  breaks : Nat → Trouble → Prop

/-- The head at `q` is as it should be: the value of a static component, or an offset, counted from `base`, that points
neither before `lo` nor behind the data. -/
def Component.HeadFine (c : Component) (d : Bytes) (base lo q : Nat) : Prop :=
  if c.dynamic then ∃ off, WordIs d q off ∧ lo ≤ base + off ∧ base + off < d.length else c.reads q

/-- It is not. -/
def Component.HeadBreaks (c : Component) (k : Container) (d : Bytes) (base lo q : Nat) (w : Trouble) : Prop :=
  if c.dynamic then
    WordMissing d q w ∨
    (∃ off, WordIs d q off ∧ (base + off < lo ∨ d.length ≤ base + off) ∧ w = .pointer k q)
  else c.breaks q w

/-- The first round: something is wrong with one of the heads from `q` on, and nothing with the heads before. -/
def HeadsBreak (k : Container) (d : Bytes) (base lo : Nat) : Nat → List Component → Trouble → Prop
  | _, [], _ => False
  | q, c :: cs, w => c.HeadBreaks k d base lo q w ∨
      (c.HeadFine d base lo q ∧ HeadsBreak k d base lo (q + c.step) cs w)

/-- All heads from `q` on are as they should be. -/
def HeadsFine (d : Bytes) (base lo : Nat) : Nat → List Component → Prop
  | _, [] => True
  | q, c :: cs => c.HeadFine d base lo q ∧ HeadsFine d base lo (q + c.step) cs

/-- The second round: a dynamic component cannot be read where its offset points, and all before can. -/
def TailsBreak (d : Bytes) (base : Nat) : Nat → List Component → Trouble → Prop
  | _, [], _ => False
  | q, c :: cs, w =>
    (c.dynamic = true ∧ ∃ off, WordIs d q off ∧ c.breaks (base + off) w) ∨
    ((c.dynamic = true → ∃ off, WordIs d q off ∧ c.reads (base + off)) ∧ TailsBreak d base (q + c.step) cs w)

/-- The components of a container at `base`, whose offsets must not point before `lo`. -/
def ComponentsBreak (k : Container) (d : Bytes) (base lo : Nat) (cs : List Component) (w : Trouble) : Prop :=
  HeadsBreak k d base lo base cs w ∨ (HeadsFine d base lo base cs ∧ TailsBreak d base base cs w)

mutual
/-- `Broken strict t d p w`: there is no value of type `t` at `p`, and `w` is what is wrong. -/
def Broken (strict : Bool) : Ty → Bytes → Nat → Trouble → Prop
  | .bytes, d, p, w => BytesBreak strict d p w
  | .string, d, p, w => BytesBreak strict d p w ∨
      (w = .notText ∧ ∃ b, (if strict then ReadsBytes d p b else ReadsBytesLax d p b) ∧
        ∀ s, utf8Encode? s ≠ some b)
  | .sized k t, d, p, w => ComponentsBreak .array d p (p + 32 * k)
      (List.replicate k ⟨t.dynamic, headStep t, fun q => ∃ x, Reads countedHead true t d q x, Broken true t d⟩) w
  | .dyn t, d, p, w => WordMissing d p w ∨
      ∃ k, WordIs d p k ∧ ComponentsBreak .array d (p + 32) (p + 32 + 32 * k)
        (List.replicate k ⟨t.dynamic, headStep t, fun q => ∃ x, Reads countedHead true t d q x, Broken true t d⟩) w
  | .tuple ts, d, p, w => ComponentsBreak .tuple d p (p + countedHead ts) (components true ts d) w
  | t, d, p, w => WordMissing d p w ∨
      (¬ NoWord d p ∧ (∀ x, Val.Of t x → ¬ At d p (enc t x)) ∧ w = wordTrouble t ((d.drop p).take 32))
/-- The components of a tuple. -/
def components (strict : Bool) : List Ty → Bytes → List Component
  | [], _ => []
  | t :: ts, d =>
    ⟨t.dynamic, headStep t, fun q => ∃ x, Reads countedHead strict t d q x, Broken strict t d⟩ :: components strict ts d
end

/-- The data do not hold arguments of the types `ts`, and `w` is what is wrong. -/
def BrokenArgs (strict : Bool) (ts : List Ty) (d : Bytes) (w : Trouble) : Prop :=
  ComponentsBreak .tuple d 0 (countedHead ts) (components strict ts d) w

end EthAbi.Spec
