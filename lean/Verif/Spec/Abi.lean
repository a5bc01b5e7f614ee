import Verif.Model.EthUtils

/-!
# Specification: ABI types, values and their encoding

Written from the Solidity "Contract ABI Specification" alone; nothing here mentions an encoder or a
decoder of /repo.  The only things taken from `Model/` are the representations of bytes, strings and
Python values, the UTF-8 table and the `eth_utils` notion of an address.
-/
namespace EthAbi.Spec

/-- The ABI types. -/
inductive Ty where
  | uint (n : Nat)
  | int (n : Nat)
  | address
  | bool
  | ufixed (m n : Nat)
  | fixed (m n : Nat)
  | bytesM (m : Nat)
  | bytes
  | string
  /-- `T[k]` -/
  | sized (k : Nat) (t : Ty)
  /-- `T[]` -/
  | dyn (t : Ty)
  | tuple (ts : List Ty)

/-- "multiple of 8 between 8 and 256". -/
def validBits (n : Nat) : Prop := 8 ≤ n ∧ n ≤ 256 ∧ n % 8 = 0

instance (n : Nat) : Decidable (validBits n) := inferInstanceAs (Decidable (_ ∧ _))

mutual
/-- The parameters of the type are in range; arrays and tuples are not empty (the type grammar of
the library has neither `T[0]` nor `()`). -/
def Ty.Valid : Ty → Prop
  | .uint n => validBits n
  | .int n => validBits n
  | .address => True
  | .bool => True
  | .ufixed m n => validBits m ∧ 0 < n ∧ n ≤ 80
  | .fixed m n => validBits m ∧ 0 < n ∧ n ≤ 80
  | .bytesM m => 0 < m ∧ m ≤ 32
  | .bytes => True
  | .string => True
  | .sized k t => 0 < k ∧ t.Valid
  | .dyn t => t.Valid
  | .tuple ts => ts ≠ [] ∧ Ty.AllValid ts
/-- Every type of the list is valid. -/
def Ty.AllValid : List Ty → Prop
  | [] => True
  | t :: ts => t.Valid ∧ Ty.AllValid ts
end

mutual
/-- "Dynamic types": `bytes`, `string`, `T[]`, `T[k]` for dynamic `T`, tuples with a dynamic
component. -/
def Ty.dynamic : Ty → Bool
  | .bytes => true
  | .string => true
  | .dyn _ => true
  | .sized _ t => t.dynamic
  | .tuple ts => Ty.anyDynamic ts
  | _ => false
/-- Some type of the list is dynamic. -/
def Ty.anyDynamic : List Ty → Bool
  | [] => false
  | t :: ts => t.dynamic || Ty.anyDynamic ts
end

mutual
/-- The number of bytes of the encoding of a static type. -/
def Ty.size : Ty → Nat
  | .sized k t => k * t.size
  | .tuple ts => Ty.sizes ts
  | _ => 32
/-- The sum of the sizes. -/
def Ty.sizes : List Ty → Nat
  | [] => 0
  | t :: ts => t.size + Ty.sizes ts
end

/-- Mathematical values: an integer (numbers, booleans; a fixed-point number is given by its integer
multiple of `10^-N`), a string of bytes (addresses, `bytesM`, `bytes`), a text, or a sequence. -/
inductive Val where
  | num (i : Int)
  | raw (b : Bytes)
  | text (s : PyStr)
  | seq (vs : List Val)

/-- `i` fits in `n` bits, unsigned. -/
def fitsU (n : Nat) (i : Int) : Prop := 0 ≤ i ∧ i < 2 ^ n

/-- `i` fits in `n` bits, signed. -/
def fitsS (n : Nat) (i : Int) : Prop := -(2 ^ (n - 1)) ≤ i ∧ i < 2 ^ (n - 1)

instance (n : Nat) (i : Int) : Decidable (fitsU n i) := inferInstanceAs (Decidable (_ ∧ _))
instance (n : Nat) (i : Int) : Decidable (fitsS n i) := inferInstanceAs (Decidable (_ ∧ _))

mutual
/-- `x` is a value of type `t`. -/
def Val.Of : Ty → Val → Prop
  | .uint n, .num i => fitsU n i
  | .int n, .num i => fitsS n i
  | .address, .raw b => b.length = 20
  | .bool, .num i => i = 0 ∨ i = 1
  | .ufixed m _, .num i => fitsU m i
  | .fixed m _, .num i => fitsS m i
  | .bytesM m, .raw b => b.length = m
  | .bytes, .raw _ => True
  | .string, .text s => (utf8Encode? s).isSome
  | .sized k t, .seq vs => vs.length = k ∧ ∀ v ∈ vs, Val.Of t v
  | .dyn t, .seq vs => ∀ v ∈ vs, Val.Of t v
  | .tuple ts, .seq vs => Val.OfAll ts vs
  | _, _ => False
/-- The values are, in order, of the types. -/
def Val.OfAll : List Ty → List Val → Prop
  | [], [] => True
  | t :: ts, v :: vs => Val.Of t v ∧ Val.OfAll ts vs
  | _, _ => False
end

/-! ## The encoding -/

/-- The 32-byte big-endian word of `n` modulo `2^256`. -/
def be32 (n : Nat) : Bytes := (List.range 32).map fun i => UInt8.ofNat (n / 256 ^ (31 - i))

/-- The two's-complement word of an integer. -/
def wordOf (i : Int) : Bytes := be32 (i % 2 ^ 256).toNat

/-- Zero bytes on the right up to a multiple of 32. -/
def padRight32 (b : Bytes) : Bytes := b ++ List.replicate ((32 - b.length % 32) % 32) 0

/-- An element of a sequence: is it dynamic, and its encoding. -/
abbrev Elem := Bool × Bytes

/-- The length of all heads: 32 for a dynamic element, its encoding for a static one. -/
def headSize : List Elem → Nat
  | [] => 0
  | (d, b) :: es => (if d then 32 else b.length) + headSize es

/-- The heads.  `off` is the offset at which the next tail will be placed. -/
def heads (off : Nat) : List Elem → Bytes
  | [] => []
  | (d, b) :: es => if d then be32 off ++ heads (off + b.length) es else b ++ heads off es

/-- The tails: nothing for a static element, its encoding for a dynamic one. -/
def tails : List Elem → Bytes
  | [] => []
  | (d, b) :: es => (if d then b else []) ++ tails es

/-- `head(X(1)) ... head(X(k)) tail(X(1)) ... tail(X(k))`. -/
def layout (es : List Elem) : Bytes := heads (headSize es) es ++ tails es

mutual
/-- `enc`. -/
def enc : Ty → Val → Bytes
  | .uint _, .num i => wordOf i
  | .int _, .num i => wordOf i
  | .bool, .num i => wordOf i
  | .ufixed _ _, .num i => wordOf i
  | .fixed _ _, .num i => wordOf i
  | .address, .raw b => List.replicate 12 0 ++ b
  | .bytesM _, .raw b => padRight32 b
  | .bytes, .raw b => be32 b.length ++ padRight32 b
  | .string, .text s =>
    match utf8Encode? s with
    | some b => be32 b.length ++ padRight32 b
    | none => []
  | .sized _ t, .seq vs => layout (vs.map fun v => (t.dynamic, enc t v))
  | .dyn t, .seq vs => be32 vs.length ++ layout (vs.map fun v => (t.dynamic, enc t v))
  | .tuple ts, .seq vs => layout (encAll ts vs)
  | _, _ => []
/-- The elements of a tuple. -/
def encAll : List Ty → List Val → List Elem
  | t :: ts, v :: vs => (t.dynamic, enc t v) :: encAll ts vs
  | _, _ => []
end

/-! ## Python values -/

/-- The integer `k` with `m · 10^e = k · 10^-n`, if there is one. -/
def onGrid? (n : Nat) (x : Dec10) : Option Int :=
  let s := x.2 + n
  if 0 ≤ s then some (x.1 * 10 ^ s.toNat)
  else if x.1 % 10 ^ (-s).toNat = 0 then some (x.1 / 10 ^ (-s).toNat)
  else none

/-- The finite decimal a Python number is (`True` is `1`). -/
def number? : PyVal → Option Dec10
  | .int i => some (i, 0)
  | .bool b => some (if b then 1 else 0, 0)
  | .dec (.fin m e) => some (m, e)
  | _ => none

/-- The 20 bytes an address argument stands for: 20 bytes, or a `0x`-optional hex string of 40
digits, which must have the right checksum if it is in mixed case. -/
def address? [Ext] : PyVal → Option Bytes
  | .bytes b => if b.length = 20 then some b else none
  | .bytearray b => if b.length = 20 then some b else none
  | .str s => if isAddress (.str s) then decodeHexDigits (remove0x s) else none
  | _ => none

mutual
/-- The value of type `t` that a Python value denotes, if any. -/
def denote [Ext] : Ty → PyVal → Option Val
  | .uint n, .int i => if fitsU n i then some (.num i) else none
  | .int n, .int i => if fitsS n i then some (.num i) else none
  | .bool, .bool b => some (.num (if b then 1 else 0))
  | .address, v => (address? v).map .raw
  | .ufixed m n, v => do
    let x ← number? v
    let k ← onGrid? n x
    if fitsU m k then some (.num k) else none
  | .fixed m n, v => do
    let x ← number? v
    let k ← onGrid? n x
    if fitsS m k then some (.num k) else none
  | .bytesM m, v => do
    let b ← asBytes? v
    if b.length ≤ m then some (.raw (b ++ List.replicate (m - b.length) 0)) else none
  | .bytes, v => (asBytes? v).map .raw
  | .string, .str s => if (utf8Encode? s).isSome then some (.text s) else none
  | .sized k t, v => do
    let vs ← asListLike? v
    let xs ← vs.mapM (denote t)
    if vs.length = k then some (.seq xs) else none
  | .dyn t, v => do
    let vs ← asListLike? v
    let xs ← vs.mapM (denote t)
    some (.seq xs)
  | .tuple ts, v => do
    let vs ← asListLike? v
    let xs ← denoteAll ts vs
    some (.seq xs)
  | _, _ => none
/-- The values denoted by the items of an argument list. -/
def denoteAll [Ext] : List Ty → List PyVal → Option (List Val)
  | [], [] => some []
  | t :: ts, v :: vs => do
    let x ← denote t v
    let xs ← denoteAll ts vs
    some (x :: xs)
  | _, _ => none
end

/-- The decimal `k · 10^-n` without trailing zeros after the point. -/
def gridDec (k : Int) : Nat → Dec10
  | 0 => (k, 0)
  | n + 1 => if k % 10 = 0 then gridDec (k / 10) n else (k, -((n + 1 : Nat) : Int))

mutual
/-- The canonical Python value of a value of type `t`. -/
def toPy : Ty → Val → PyVal
  | .bool, .num i => .bool (i == 1)
  | .ufixed _ n, .num i => .dec (.fin (gridDec i n).1 (gridDec i n).2)
  | .fixed _ n, .num i => .dec (.fin (gridDec i n).1 (gridDec i n).2)
  | .address, .raw b => .str (zeroX ++ encodeHexDigits b)
  | .sized _ t, .seq vs => .tuple (vs.map (toPy t))
  | .dyn t, .seq vs => .tuple (vs.map (toPy t))
  | .tuple ts, .seq vs => .tuple (toPyAll ts vs)
  | _, .num i => .int i
  | _, .raw b => .bytes b
  | _, .text s => .str s
  | _, .seq _ => .none
/-- The canonical Python values of a list of values. -/
def toPyAll : List Ty → List Val → List PyVal
  | t :: ts, v :: vs => toPy t v :: toPyAll ts vs
  | _, _ => []
end

end EthAbi.Spec
