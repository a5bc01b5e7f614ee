import Verif.Spec.Fault
import Verif.Model.Complaints

/-!
# Specification: what the exceptions of `encode` say

`fault` (`Spec/Fault.lean`) is the first part of a value that is wrong.  Here the type that it is wrong for is remembered too, and the
reasons are given.
-/
namespace EthAbi.Spec

mutual
/-- The first thing wrong with `v` as a value of type `t`: the type of the part at fault, the part, and the kind of fault.  As `fault`,
but for the type. -/
def faultAt [Ext] : Ty → PyVal → Option (Ty × PyVal × Exc)
  | .sized k t, v =>
    match asListLike? v with
    | none => some (.sized k t, v, .encodingTypeError)
    | some vs => (vs.findSome? (faultAt t)).or (if vs.length = k then none else some (.sized k t, v, .valueOutOfBounds))
  | .dyn t, v =>
    match asListLike? v with
    | none => some (.dyn t, v, .encodingTypeError)
    | some vs => vs.findSome? (faultAt t)
  | .tuple ts, v =>
    match asListLike? v with
    | none => some (.tuple ts, v, .encodingTypeError)
    | some vs => if vs.length = ts.length then faultAtAny ts vs else some (.tuple ts, v, .valueOutOfBounds)
  | t, v => (leafFault t v).map fun e => (t, v, e)
/-- The first thing wrong with some arguments. -/
def faultAtAny [Ext] : List Ty → List PyVal → Option (Ty × PyVal × Exc)
  | t :: ts, v :: vs => (faultAt t v).or (faultAtAny ts vs)
  | _, _ => none
end

/-- The class that encodes a type, for `encode` and for `encode_packed`. -/
def className (packed : Bool) : Ty → List Char
  | .uint _ => if packed then t!"PackedUnsignedIntegerEncoder" else t!"UnsignedIntegerEncoder"
  | .int _ => if packed then t!"PackedSignedIntegerEncoder" else t!"SignedIntegerEncoder"
  | .address => if packed then t!"PackedAddressEncoder" else t!"AddressEncoder"
  | .bool => if packed then t!"PackedBooleanEncoder" else t!"BooleanEncoder"
  | .ufixed _ _ => if packed then t!"PackedUnsignedFixedEncoder" else t!"UnsignedFixedEncoder"
  | .fixed _ _ => if packed then t!"PackedSignedFixedEncoder" else t!"SignedFixedEncoder"
  | .bytesM _ => if packed then t!"PackedBytesEncoder" else t!"BytesEncoder"
  | .bytes => if packed then t!"PackedByteStringEncoder" else t!"ByteStringEncoder"
  | .string => if packed then t!"PackedTextStringEncoder" else t!"TextStringEncoder"
  | .sized _ _ => if packed then t!"PackedArrayEncoder" else t!"SizedArrayEncoder"
  | .dyn _ => if packed then t!"PackedArrayEncoder" else t!"DynamicArrayEncoder"
  | .tuple _ => t!"TupleEncoder"

/-- The numbers of a fixed-point type: from `lo * 10^-n` to `hi * 10^-n`, in `m` bits. -/
inductive FixedType : Ty → (m n : Nat) → (lo hi : Int) → Prop where
  | ufixed (m n : Nat) : FixedType (.ufixed m n) m n 0 (2 ^ m - 1)
  | fixed (m n : Nat) : FixedType (.fixed m n) m n (-2 ^ (m - 1)) (2 ^ (m - 1) - 1)

/-- Why a value is refused for a type, with this kind of fault. -/
inductive Because : Ty → PyVal → Exc → Reason → Prop where
  /-- Not the right Python type, for an elementary type: no reason is given. -/
  | wrong {t : Ty} {v : PyVal} : (∀ k u, t ≠ .sized k u) → (∀ u, t ≠ .dyn u) → (∀ us, t ≠ .tuple us) →
      Because t v .encodingTypeError .plain
  /-- Neither a list nor a tuple, where a tuple is due. -/
  | noTuple {ts : List Ty} {v : PyVal} : asListLike? v = none → Because (.tuple ts) v .encodingTypeError .tupleList
  /-- Neither a list nor a tuple, where an array is due. -/
  | noArray {k : Nat} {t : Ty} {v : PyVal} : asListLike? v = none → Because (.sized k t) v .encodingTypeError .arrayList
  /-- The same. -/
  | noList {t : Ty} {v : PyVal} : asListLike? v = none → Because (.dyn t) v .encodingTypeError .arrayList
  /-- Too many or too few components: how many there are, and how many were expected. -/
  | components {ts : List Ty} {v : PyVal} {vs : List PyVal} : IsSeqOf v vs → vs.length ≠ ts.length →
      Because (.tuple ts) v .valueOutOfBounds (.count vs.length ts.length)
  /-- Too many or too few elements. -/
  | elements {k : Nat} {t : Ty} {v : PyVal} {vs : List PyVal} : IsSeqOf v vs → vs.length ≠ k →
      Because (.sized k t) v .valueOutOfBounds (.count vs.length k)
  /-- Too great or too small: how many bits there are, and the least and the greatest number. -/
  | uint {n : Nat} {i : Int} : (i < 0 ∨ 2 ^ n - 1 < i) →
      Because (.uint n) (.int i) .valueOutOfBounds (.bounds n 0 (2 ^ n - 1))
  | int {n : Nat} {i : Int} : (i < -2 ^ (n - 1) ∨ 2 ^ (n - 1) - 1 < i) →
      Because (.int n) (.int i) .valueOutOfBounds (.bounds n (-2 ^ (n - 1)) (2 ^ (n - 1) - 1))
  | fixed {t : Ty} {v : PyVal} {m n : Nat} {lo hi : Int} {l u : Dec10} : FixedType t m n lo hi →
      decValue l = lo * 10 ^ (-(n : Int)) → decValue u = hi * 10 ^ (-(n : Int)) →
      Because t v .valueOutOfBounds (.decBounds m l u)
  /-- NaN and the infinities: no reason is given. -/
  | infinite {t : Ty} {d : PyDec} {m n : Nat} {lo hi : Int} : FixedType t m n lo hi → number? (.dec d) = none →
      Because t (.dec d) .illegalValue .plain
  /-- Too many decimal places: by how much the number exceeds the multiple of `10^-n` below it (exactly, if it is written with no more
  than 999 decimal places), and how many places there are. -/
  | places {t : Ty} {v : PyVal} {m n : Nat} {lo hi : Int} {x r : Dec10} : FixedType t m n lo hi → number? v = some x →
      0 < decValue r → (-999 ≤ x.2 → decValue r = decValue x - ⌊decValue x * 10 ^ n⌋ * 10 ^ (-(n : Int))) →
      Because t v .illegalValue (.residue r n)
  /-- Too many bytes: how many there may be. -/
  | size {m : Nat} {v : PyVal} {b : Bytes} : IsBytes v b → m < b.length →
      Because (.bytesM m) v .valueOutOfBounds (.size m)

/-- The words for a reason. -/
def words (p : Printing) : Reason → List (List Char)
  | .plain => []
  | .tupleList => [t!": must be list-like object such as array or tuple"]
  | .arrayList => [t!": must be list-like such as array or tuple"]
  | .count has want => [t!": value has ", natDigits has, t!" items when ", natDigits want, t!" were expected"]
  | .bounds bits least greatest =>
    [t!": Cannot be encoded in ", natDigits bits, t!" bits. Must be bounded between [", p.int least, t!", ", p.int greatest, t!"]."]
  | .decBounds bits least greatest =>
    [t!": Cannot be encoded in ", natDigits bits, t!" bits. Must be bounded between [", p.dec least, t!", ", p.dec greatest, t!"]."]
  | .residue r places =>
    [t!": residue Decimal('", p.dec r, t!"') outside allowed fractional precision of ", natDigits places]
  | .size n => [t!": exceeds total byte size for bytes", natDigits n, t!" encoding"]

/-- A representation in at most 79 characters. -/
def shortened (rep : List Char) : List Char :=
  if rep.length ≤ 79 then rep else rep.take 76 ++ t!"..."

end EthAbi.Spec
