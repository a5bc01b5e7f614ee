import Verif.Spec.Abi

/-!
# Specification: packed mode, and conditions on argument values
-/
namespace EthAbi.Spec

/-! ## Packed mode -/

/-- The `k` low bytes, big-endian, of the two's-complement representation of `i`. -/
def beBytes (k : Nat) (i : Int) : Bytes :=
  (List.range k).map fun j => UInt8.ofNat ((i % 2 ^ (8 * k)).toNat / 256 ^ (k - 1 - j))

/-- The bytes of the text; nothing for a text that has no UTF-8 form. -/
def textBytes (s : PyStr) : Bytes := (utf8Encode? s).getD []

mutual
/-- Non-standard packed mode as the library defines it: every elementary value in its own width,
everything else concatenated (elements of arrays are *not* padded to 32 bytes). -/
def encPacked : Ty → Val → Bytes
  | .uint n, .num i => beBytes (n / 8) i
  | .int n, .num i => beBytes (n / 8) i
  | .bool, .num i => beBytes 1 i
  | .ufixed m _, .num i => beBytes (m / 8) i
  | .fixed m _, .num i => beBytes (m / 8) i
  | .address, .raw b => b
  | .bytesM _, .raw b => b
  | .bytes, .raw b => b
  | .string, .text s => textBytes s
  | .sized _ t, .seq vs => (vs.map (encPacked t)).flatten
  | .dyn t, .seq vs => (vs.map (encPacked t)).flatten
  | .tuple ts, .seq vs => encPackedAll ts vs
  | _, _ => []
/-- The packed elements of a tuple, concatenated. -/
def encPackedAll : List Ty → List Val → Bytes
  | t :: ts, v :: vs => encPacked t v ++ encPackedAll ts vs
  | _, _ => []
end

/-! ## Conditions on arguments -/

mutual
/-- No text anywhere in the value holds a lone surrogate. -/
def NoSurrogates : PyVal → Prop
  | .str s => (utf8Encode? s).isSome
  | .list xs => NoSurrogatesAll xs
  | .tuple xs => NoSurrogatesAll xs
  | .seq xs => NoSurrogatesAll xs
  | _ => True
/-- No text anywhere in the values holds a lone surrogate. -/
def NoSurrogatesAll : List PyVal → Prop
  | [] => True
  | x :: xs => NoSurrogates x ∧ NoSurrogatesAll xs
end

/-- Python prints the number: it has no more digits than `sys.get_int_max_str_digits()` (4300 by default). -/
def PrintableInt [Ext] (i : Int) : Prop := ∀ k, Ext.maxStrDigits = some k → i.natAbs < 10 ^ k

mutual
/-- Python prints every integer in the value. -/
def Printable [Ext] : PyVal → Prop
  | .int i => PrintableInt i
  | .list xs => PrintableAll xs
  | .tuple xs => PrintableAll xs
  | .seq xs => PrintableAll xs
  | .fraction n d => PrintableInt n ∧ PrintableInt d
  | _ => True
/-- Python prints every integer in the values. -/
def PrintableAll [Ext] : List PyVal → Prop
  | [] => True
  | x :: xs => Printable x ∧ PrintableAll xs
end

mutual
/-- Python prints the bounds of the integer types in the type: so it is for all those of the ABI, of up to 256
bits, but not for coders of very many bits. -/
def BoundsPrintable [Ext] : Ty → Prop
  | .uint n => PrintableInt (2 ^ n - 1)
  | .int n => PrintableInt (2 ^ (n - 1))
  | .sized _ t => BoundsPrintable t
  | .dyn t => BoundsPrintable t
  | .tuple ts => BoundsPrintableAll ts
  | _ => True
/-- Python prints the bounds of the integer types in the types. -/
def BoundsPrintableAll [Ext] : List Ty → Prop
  | [] => True
  | t :: ts => BoundsPrintable t ∧ BoundsPrintableAll ts
end

open Classical in
/-- The exception that an encoder raises to refuse `v` with `exc`: the message quotes `v`, so that it is
`ValueError` if `v` cannot be printed. -/
noncomputable def quoting [Ext] (v : PyVal) (exc : Exc) : Exc := if Printable v then exc else .valueError

/-- The value is a `complex` or a `Fraction`: numbers that Python does not mix with a `Decimal`. -/
def OddNumber (v : PyVal) : Prop := v = .complex ∨ ∃ n d, v = .fraction n d

mutual
/-- A `complex` or a `Fraction` is given where the type has a fixed-point number. -/
def HoldsOdd : Ty → PyVal → Prop
  | .ufixed _ _, v => OddNumber v
  | .fixed _ _, v => OddNumber v
  | .sized _ t, v => ∃ vs, asListLike? v = some vs ∧ ∃ u ∈ vs, HoldsOdd t u
  | .dyn t, v => ∃ vs, asListLike? v = some vs ∧ ∃ u ∈ vs, HoldsOdd t u
  | .tuple ts, v => ∃ vs, asListLike? v = some vs ∧ HoldsOddAny ts vs
  | _, _ => False
/-- The same for some of the arguments of a list. -/
def HoldsOddAny : List Ty → List PyVal → Prop
  | t :: ts, v :: vs => HoldsOdd t v ∨ HoldsOddAny ts vs
  | _, _ => False
end

/-- How a value that is not of the type is refused: with an `EncodingError`; but the message has the value in
it, and the bounds of an integer type, and where Python does not print these there is a `ValueError`; and a `complex` or a
`Fraction` for a fixed-point number is a `TypeError`. -/
def Refused [Ext] (t : Ty) (v : PyVal) (er : Exc) : Prop :=
  er.isEncodingError = true ∨ (er = .valueError ∧ ¬ (Printable v ∧ BoundsPrintable t)) ∨
    (er = .typeError ∧ HoldsOdd t v)

mutual
/-- A measure of the memory a value takes: objects, list slots, characters and bytes. -/
def weight : PyVal → Nat
  | .str s => 1 + s.length
  | .bytes b => 1 + b.length
  | .bytearray b => 1 + b.length
  | .list xs => 1 + weights xs
  | .tuple xs => 1 + weights xs
  | .seq xs => 1 + weights xs
  | _ => 1
/-- The sum over a list, plus one for each slot. -/
def weights : List PyVal → Nat
  | [] => 0
  | x :: xs => 1 + weight x + weights xs
end

mutual
/-- Every number given for a fixed-point type with `N` places is a multiple of `10^-N`. -/
def OnGrid : Ty → PyVal → Prop
  | .ufixed _ n, v => ∀ x, number? v = some x → (onGrid? n x).isSome
  | .fixed _ n, v => ∀ x, number? v = some x → (onGrid? n x).isSome
  | .sized _ t, v => ∀ vs, asListLike? v = some vs → ∀ u ∈ vs, OnGrid t u
  | .dyn t, v => ∀ vs, asListLike? v = some vs → ∀ u ∈ vs, OnGrid t u
  | .tuple ts, v => ∀ vs, asListLike? v = some vs → OnGridAll ts vs
  | _, _ => True
/-- The same for a list of arguments. -/
def OnGridAll : List Ty → List PyVal → Prop
  | t :: ts, v :: vs => OnGrid t v ∧ OnGridAll ts vs
  | _, _ => True
end

end EthAbi.Spec
