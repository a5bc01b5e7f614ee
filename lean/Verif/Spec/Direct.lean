import Verif.Model.Direct
import Verif.Spec.Values
import Mathlib.Data.Nat.Log

/-! # Specification: coder objects with sizes of one's own -/
namespace EthAbi.Spec

/-- The value given for a keyword, if it is given; `default` otherwise. -/
def argument (kwargs : List (Key × Option Nat)) (key : Key) (default : Option Nat) : Option Nat :=
  (kwargs.lookup key).getD default

/-- No keyword is given twice (Python does not allow it). -/
def DistinctKeys (kwargs : List (Key × Option Nat)) : Prop := (kwargs.map Prod.fst).Nodup

/-- The keywords of a class: the two sizes and `is_big_endian` for all, `frac_places` for the fixed-point
classes. -/
def takes (c : Cls) (key : Key) : Bool :=
  key ∈ [Key.valueBitSize, .dataByteSize, .isBigEndian] || (key = .fracPlaces && (c = .ufixed || c = .fixed))

/-- `cls(**kwargs)` asks for `v` bits of value in `d` bytes, with `f` decimal places (`f = 0` for the classes
without); `big` is `is_big_endian`. -/
structure Asks (c : Cls) (kwargs : List (Key × Option Nat)) (v d f : Nat) (big : Bool) : Prop where
  /-- `value_bit_size` has a default for two classes only. -/
  value : argument kwargs .valueBitSize
    (if c = .bool then some 8 else if c = .address then some 160 else none) = some v
  data : argument kwargs .dataByteSize (some 32) = some d
  frac : if c = .ufixed ∨ c = .fixed then argument kwargs .fracPlaces none = some f else f = 0
  /-- `bytesM` is on the left by default, all others on the right. -/
  endian : ∃ n, argument kwargs .isBigEndian (some (if c = .bytesM then 0 else 1)) = some n ∧
    big = decide (n ≠ 0)

/-- The sizes make sense: whole bytes, no more than there is space for, 1 to 80 decimal places. -/
def SizesOk (c : Cls) (v d f : Nat) : Prop :=
  v % 8 = 0 ∧ v ≤ 8 * d ∧ (c = .ufixed ∨ c = .fixed → 1 ≤ f ∧ f ≤ 80)

/-- The type an object of the class is for. -/
def clsType (c : Cls) (v f : Nat) : Ty :=
  match c with
  | .bool => .bool
  | .uint => .uint v
  | .int => .int v
  | .ufixed => .ufixed v f
  | .fixed => .fixed v f
  | .address => .address
  | .bytesM => .bytesM (v / 8)

/-- The value bits that the class is meant for: at least one byte, one for `bool`, twenty for addresses, and
up to 32 for fixed-point numbers. -/
def BitsOk (c : Cls) (v : Nat) : Prop :=
  match c with
  | .bool => v = 8
  | .address => v = 160
  | .ufixed => 8 ≤ v ∧ v ≤ 256
  | .fixed => 8 ≤ v ∧ v ≤ 256
  | _ => 8 ≤ v

/-- A value of an elementary type in `d` bytes: numbers as big-endian two's complement, addresses on the right
after zeros, `bytesM` on the left before zeros. -/
def encIn (d : Nat) : Ty → Val → Bytes
  | .address, .raw b => List.replicate (d - 20) 0 ++ b
  | .bytesM m, .raw b => b ++ List.replicate (d - m) 0
  | _, .num i => beBytes d i
  | _, _ => []

/-- The usual value of `is_big_endian`: `bytesM` is at the beginning of its word, all others at the end. -/
def usualOrder (c : Cls) : Bool := c != .bytesM

/-- The keywords are ones of the class, and ask for sizes that make sense and are meant for the class, and for
the usual `is_big_endian`. -/
structure Sized (c : Cls) (kwargs : List (Key × Option Nat)) (v d f : Nat) : Prop where
  distinct : DistinctKeys kwargs
  known : ∀ p ∈ kwargs, takes c p.1 = true
  asks : Asks c kwargs v d f (usualOrder c)
  sizes : SizesOk c v d f
  bits : BitsOk c v

/-- As `Sized`, but for the other `is_big_endian`. -/
structure Turned (c : Cls) (kwargs : List (Key × Option Nat)) (v d f : Nat) : Prop where
  distinct : DistinctKeys kwargs
  known : ∀ p ∈ kwargs, takes c p.1 = true
  asks : Asks c kwargs v d f (!usualOrder c)
  sizes : SizesOk c v d f
  bits : BitsOk c v

/-- The last `n` bytes moved to the front. -/
def lastFirst (n : Nat) (b : Bytes) : Bytes := b.drop (b.length - n) ++ b.take (b.length - n)

/-- A value in `d` bytes with its padding on the other side: the bytes of the value before the padding, for
`bytesM` after it. -/
def turnedIn (c : Cls) (v d f : Nat) (y : Val) : Bytes :=
  lastFirst (if c = .bytesM then d - v / 8 else v / 8) (encIn d (clsType c v f) y)

/-- The number of bytes that a number needs, at least one. -/
def bytesOf (i : Int) : Nat := Nat.log 256 i.toNat + 1

/-- What an encoder with the other `is_big_endian` writes for a value `value` that denotes `y`: an unsigned
number in as few bytes as it needs, then zeros; a signed number as usual; bytes as they are given, after
zeros; a boolean or an address before its padding. -/
def writtenIn (c : Cls) (v d f : Nat) (value : PyVal) (y : Val) : Bytes :=
  match c, y with
  | .uint, .num i => beBytes (bytesOf i) i ++ List.replicate (d - bytesOf i) 0
  | .ufixed, .num i => beBytes (bytesOf i) i ++ List.replicate (d - bytesOf i) 0
  | .int, _ => encIn d (clsType c v f) y
  | .fixed, _ => encIn d (clsType c v f) y
  | .bytesM, _ =>
    match asBytes? value with
    | some b => List.replicate (d - b.length) 0 ++ b
    | none => []
  | _, _ => turnedIn c v d f y

/-- The values that a decoder with the other `is_big_endian` returns when it is given what the encoder
writes. -/
def ComesBack (c : Cls) (v d : Nat) (value : PyVal) (y : Val) : Prop :=
  match c, y with
  | .bool, _ => True
  | .address, _ => True
  | .uint, .num i => i = 0 ∨ 2 ^ (v - 8) ≤ i
  | .ufixed, .num i => i = 0 ∨ 2 ^ (v - 8) ≤ i
  | .int, .num i => i = 0 ∨ i = -1 ∨ v = 8 * d
  | .fixed, .num i => i = 0 ∨ i = -1 ∨ v = 8 * d
  | .bytesM, _ => ∃ b, asBytes? value = some b ∧ (b.length = v / 8 ∨ ∀ x ∈ b, x = 0)
  | _, _ => False

end EthAbi.Spec
