import Verif.Spec.Values

/-!
# Specification: packed mode in Solidity, and which types it tells apart

The section "Non-standard Packed Mode" of the Solidity "Contract ABI Specification": types shorter than 32 bytes are
concatenated directly, without padding; dynamic types are encoded in-place and without the length; array elements are
padded, but still encoded in-place.  Structs and nested arrays are not supported, nor are arrays of `bytes` and
`string`.
-/
namespace EthAbi.Spec

/-- The number of bytes of a value type. -/
def valueWidth : Ty → Option Nat
  | .uint n => some (n / 8)
  | .int n => some (n / 8)
  | .address => some 20
  | .bool => some 1
  | .ufixed m _ => some (m / 8)
  | .fixed m _ => some (m / 8)
  | .bytesM m => some m
  | _ => none

/-- The types of Solidity's packed mode. -/
inductive InPackedMode : Ty → Prop where
  | value {t : Ty} {w : Nat} : valueWidth t = some w → InPackedMode t
  | bytes : InPackedMode .bytes
  | string : InPackedMode .string
  | sized {t : Ty} {w k : Nat} : valueWidth t = some w → InPackedMode (.sized k t)
  | dyn {t : Ty} {w : Nat} : valueWidth t = some w → InPackedMode (.dyn t)

/-- Solidity's packed encoding: the elements of an array are words of 32 bytes. -/
def solPacked : Ty → Val → Bytes
  | .sized _ t, .seq vs => (vs.map (enc t)).flatten
  | .dyn t, .seq vs => (vs.map (enc t)).flatten
  | t, v => encPacked t v

/-- The values one after the other. -/
def solPackedAll : List Ty → List Val → Bytes
  | t :: ts, v :: vs => solPacked t v ++ solPackedAll ts vs
  | _, _ => []

/-- An array with elements shorter than 32 bytes. -/
inductive NarrowArray : Ty → Prop where
  | sized {t : Ty} {w k : Nat} : valueWidth t = some w → w < 32 → NarrowArray (.sized k t)
  | dyn {t : Ty} {w : Nat} : valueWidth t = some w → w < 32 → NarrowArray (.dyn t)

mutual
/-- At most one part of the type is of variable length, and it occurs only once: a `bytes`, a `string`, or a `T[]`
where `T` is of fixed length. -/
inductive OneVariable : Ty → Prop where
  | static {t : Ty} : t.dynamic = false → OneVariable t
  | bytes : OneVariable .bytes
  | string : OneVariable .string
  | dyn {t : Ty} : t.dynamic = false → OneVariable (.dyn t)
  | single {t : Ty} : OneVariable t → OneVariable (.sized 1 t)
  | tuple {ts : List Ty} : OneVariableAll ts → OneVariable (.tuple ts)
/-- The same of all types of the list together. -/
inductive OneVariableAll : List Ty → Prop where
  | nil : OneVariableAll []
  | static {t : Ty} {ts : List Ty} : t.dynamic = false → OneVariableAll ts → OneVariableAll (t :: ts)
  | one {t : Ty} {ts : List Ty} : OneVariable t → Ty.anyDynamic ts = false → OneVariableAll (t :: ts)
end

mutual
/-- The number of bytes in packed form when every part of variable length holds one byte, or one element. -/
def packedSpan : Ty → Nat
  | .sized k t => k * packedSpan t
  | .dyn t => packedSpan t
  | .tuple ts => packedSpans ts
  | t => (valueWidth t).getD 1
/-- The sum. -/
def packedSpans : List Ty → Nat
  | [] => 0
  | t :: ts => packedSpan t + packedSpans ts
end

end EthAbi.Spec
