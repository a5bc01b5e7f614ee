import Verif.Spec.Abi

/-!
# Specification: what it means that data holds a value at a position

Decoding need not see a canonical encoding: offsets may point anywhere.  `Reads` says, without
reference to any decoder, that the value `x` of type `t` is stored at position `p` of the data `d`
when the offsets are followed.
-/
namespace EthAbi.Spec

/-- The bytes `b` stand at position `p` of `d`. -/
def At (d : Bytes) (p : Nat) (b : Bytes) : Prop := b <+: d.drop p

instance (d : Bytes) (p : Nat) (b : Bytes) : Decidable (At d p b) :=
  inferInstanceAs (Decidable (_ <+: _))

/-- The bytes a type takes in a head: an offset, or the value itself. -/
def headStep (t : Ty) : Nat := if t.dynamic then 32 else t.size

/-- The bytes of the head of a tuple. -/
def headBytes (ts : List Ty) : Nat := (ts.map headStep).sum

/-- A byte string at `p`: its length, the bytes and the zero padding. -/
def ReadsBytes (d : Bytes) (p : Nat) (b : Bytes) : Prop :=
  At d p (be32 b.length) ∧ At d (p + 32) (padRight32 b)

/-- A byte string at `p` when the data may end early and the padding is not looked at: the length
`n`, and the next `n` bytes or as many as there are. -/
def ReadsBytesLax (d : Bytes) (p : Nat) (b : Bytes) : Prop :=
  ∃ n, n < 2 ^ 256 ∧ At d p (be32 n) ∧ ceil32 n ≤ ssizeMax ∧ b = (d.drop (p + 32)).take n

/-- An element whose head is at `q`.  A static one is there; a dynamic one is where its offset,
counted from `base`, points, which must be between `lo` and the end of the data. -/
def ReadsItem (dynamic : Bool) (R : Nat → Val → Prop) (d : Bytes) (base lo q : Nat) (x : Val) : Prop :=
  if dynamic then
    ∃ off, off < 2 ^ 256 ∧ At d q (be32 off) ∧ lo ≤ base + off ∧ base + off < d.length ∧ R (base + off) x
  else R q x

/-- Elements of one type with their heads at `q`, `q + step`, .... -/
def ReadsMany (dynamic : Bool) (R : Nat → Val → Prop) (step : Nat) (d : Bytes) (base lo : Nat) :
    Nat → List Val → Prop
  | _, [] => True
  | q, x :: xs => ReadsItem dynamic R d base lo q x ∧ ReadsMany dynamic R step d base lo (q + step) xs

mutual
/-- `Reads minHead strict t d p x`: the data `d` holds the value `x` of type `t` at `p`.  Offsets
inside a tuple must point behind the first `minHead ts` bytes of it; offsets inside an array behind
all the heads.  With `strict = false` a byte string, unless it is inside something, is read lax. -/
def Reads (minHead : List Ty → Nat) (strict : Bool) : Ty → Bytes → Nat → Val → Prop
  | .bytes, d, p, .raw b => if strict then ReadsBytes d p b else ReadsBytesLax d p b
  | .string, d, p, .text s =>
    ∃ b, utf8Encode? s = some b ∧ (if strict then ReadsBytes d p b else ReadsBytesLax d p b)
  | .sized k t, d, p, .seq xs =>
    xs.length = k ∧ ReadsMany t.dynamic (Reads minHead true t d) (headStep t) d p (p + 32 * k) p xs
  | .dyn t, d, p, .seq xs =>
    xs.length < 2 ^ 256 ∧ At d p (be32 xs.length) ∧
      ReadsMany t.dynamic (Reads minHead true t d) (headStep t) d (p + 32) (p + 32 + 32 * xs.length)
        (p + 32) xs
  | .tuple ts, d, p, .seq xs => ReadsAll minHead true ts d p (p + minHead ts) p xs
  | t, d, p, x => Val.Of t x ∧ At d p (enc t x)
/-- `ReadsAll minHead strict ts d base lo q xs`: the components `xs` with their heads from `q` on. -/
def ReadsAll (minHead : List Ty → Nat) (strict : Bool) :
    List Ty → Bytes → Nat → Nat → Nat → List Val → Prop
  | [], _, _, _, _, [] => True
  | t :: ts, d, base, lo, q, x :: xs =>
    ReadsItem t.dynamic (Reads minHead strict t d) d base lo q x ∧
      ReadsAll minHead strict ts d base lo (q + headStep t) xs
  | _, _, _, _, _, _ => False
end

/-- The data hold the arguments `xs` of the types `ts`. -/
def ReadsArgs (minHead : List Ty → Nat) (strict : Bool) (ts : List Ty) (d : Bytes) (xs : List Val) :
    Prop := ReadsAll minHead strict ts d 0 (minHead ts) 0 xs

/-- The type `u` occurs in the type `t`. -/
inductive Occurs (u : Ty) : Ty → Prop where
  | self : Occurs u u
  | sized {k : Nat} {t : Ty} : Occurs u t → Occurs u (.sized k t)
  | dyn {t : Ty} : Occurs u t → Occurs u (.dyn t)
  | tuple {ts : List Ty} {t : Ty} : t ∈ ts → Occurs u t → Occurs u (.tuple ts)

/-- Types other than arrays and tuples. -/
def Ty.elementary : Ty → Bool
  | .sized _ _ => false
  | .dyn _ => false
  | .tuple _ => false
  | _ => true

/-- Types other than tuples and arrays of arrays or tuples. -/
def Ty.flat : Ty → Bool
  | .sized _ t => t.elementary
  | .dyn t => t.elementary
  | .tuple _ => false
  | _ => true

mutual
/-- `Reads` with `strict = false` at every depth: byte strings are read lax wherever they are. -/
def ReadsRelaxed (minHead : List Ty → Nat) : Ty → Bytes → Nat → Val → Prop
  | .bytes, d, p, .raw b => ReadsBytesLax d p b
  | .string, d, p, .text s => ∃ b, utf8Encode? s = some b ∧ ReadsBytesLax d p b
  | .sized k t, d, p, .seq xs =>
    xs.length = k ∧ ReadsMany t.dynamic (ReadsRelaxed minHead t d) (headStep t) d p (p + 32 * k) p xs
  | .dyn t, d, p, .seq xs =>
    xs.length < 2 ^ 256 ∧ At d p (be32 xs.length) ∧
      ReadsMany t.dynamic (ReadsRelaxed minHead t d) (headStep t) d (p + 32)
        (p + 32 + 32 * xs.length) (p + 32) xs
  | .tuple ts, d, p, .seq xs => ReadsRelaxedAll minHead ts d p (p + minHead ts) p xs
  | t, d, p, x => Val.Of t x ∧ At d p (enc t x)
/-- The same for the components of a tuple. -/
def ReadsRelaxedAll (minHead : List Ty → Nat) :
    List Ty → Bytes → Nat → Nat → Nat → List Val → Prop
  | [], _, _, _, _, [] => True
  | t :: ts, d, base, lo, q, x :: xs =>
    ReadsItem t.dynamic (ReadsRelaxed minHead t d) d base lo q x ∧
      ReadsRelaxedAll minHead ts d base lo (q + headStep t) xs
  | _, _, _, _, _, _ => False
end

end EthAbi.Spec
