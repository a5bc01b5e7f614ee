import Verif.Spec.Abi
import Verif.Model.Py

/-!
# Sizes

The size of a type, the nesting of its arrays, and the size of a decoded value, for the bounds on the
work of `decode`.
-/
namespace EthAbi.Spec

mutual
/-- How deep arrays are nested in a type. -/
def arrayNesting : Ty → Nat
  | .sized _ t => arrayNesting t + 1
  | .dyn t => arrayNesting t + 1
  | .tuple ts => arrayNestingAll ts
  | _ => 0
/-- The deepest nesting in a list of types. -/
def arrayNestingAll : List Ty → Nat
  | [] => 0
  | t :: ts => max (arrayNesting t) (arrayNestingAll ts)
end

mutual
/-- The number of values and sequences in a Python value, itself included. -/
def valueCount : PyVal → Nat
  | .list vs => valueCounts vs + 1
  | .tuple vs => valueCounts vs + 1
  | .seq vs => valueCounts vs + 1
  | _ => 1
/-- The sum over a list of values. -/
def valueCounts : List PyVal → Nat
  | [] => 0
  | v :: vs => valueCount v + valueCounts vs
end

mutual
/-- How deep tuples are nested in a type. -/
def tupleNesting : Ty → Nat
  | .sized _ t => tupleNesting t
  | .dyn t => tupleNesting t
  | .tuple ts => tupleNestingAll ts + 1
  | _ => 0
/-- The deepest nesting in a list of types. -/
def tupleNestingAll : List Ty → Nat
  | [] => 0
  | t :: ts => max (tupleNesting t) (tupleNestingAll ts)
end

/-- The items of a decoded array or tuple. -/
def itemsOf : PyVal → List PyVal
  | .tuple vs => vs
  | _ => []

mutual
/-- The number of decoder calls for a value of a type: one for the value (and one for the length of bytes, strings
and arrays).  In an array or tuple, three more for a component of dynamic type (its offset is checked, read and
followed); in a tuple, a component of static type is decoded twice. -/
def calls : Ty → PyVal → Nat
  | .bytes, _ => 2
  | .string, _ => 2
  | .sized _ t, v => 1 + ((itemsOf v).map fun x => calls t x + if t.dynamic then 3 else 0).sum
  | .dyn t, v => 2 + ((itemsOf v).map fun x => calls t x + if t.dynamic then 3 else 0).sum
  | .tuple ts, v => 1 + callsAll ts (itemsOf v)
  | _, _ => 1
/-- The calls for the components of a tuple. -/
def callsAll : List Ty → List PyVal → Nat
  | t :: ts, v :: vs => (if t.dynamic then calls t v + 3 else 2 * calls t v) + callsAll ts vs
  | _, _ => 0
end

mutual
/-- How deep arrays and tuples are nested in a type. -/
def nesting : Ty → Nat
  | .sized _ t => nesting t + 1
  | .dyn t => nesting t + 1
  | .tuple ts => nestingAll ts + 1
  | _ => 0
/-- The deepest nesting in a list of types. -/
def nestingAll : List Ty → Nat
  | [] => 0
  | t :: ts => max (nesting t) (nestingAll ts)
end

/-- The items of a sequence. -/
def partsOf : PyVal → List PyVal
  | .list vs => vs
  | .tuple vs => vs
  | .seq vs => vs
  | _ => []

mutual
/-- The number of checks for encoding an accepted value of a type: one for a value (and one for the length of bytes,
strings and arrays).  An array or tuple is checked with all that is in it before its items are encoded, which are then
checked again; an offset is one check more. -/
def checks : Ty → PyVal → Nat
  | .bytes, _ => 2
  | .string, _ => 2
  | .sized _ t, v => valueCount v + ((partsOf v).map fun x => checks t x + if t.dynamic then 1 else 0).sum
  | .dyn t, v => 1 + valueCount v + ((partsOf v).map fun x => checks t x + if t.dynamic then 1 else 0).sum
  | .tuple ts, v => valueCount v + checksAll ts (partsOf v)
  | _, _ => 1
/-- The checks for the components of a tuple. -/
def checksAll : List Ty → List PyVal → Nat
  | t :: ts, v :: vs => checks t v + (if t.dynamic then 1 else 0) + checksAll ts vs
  | _, _ => 0
end

mutual
/-- The number of checks for packing an accepted value of a type: there are no lengths and no offsets. -/
def packedChecks : Ty → PyVal → Nat
  | .sized _ t, v => valueCount v + ((partsOf v).map (packedChecks t)).sum
  | .dyn t, v => valueCount v + ((partsOf v).map (packedChecks t)).sum
  | .tuple ts, v => valueCount v + packedChecksAll ts (partsOf v)
  | _, _ => 1
/-- The checks for the components of a tuple. -/
def packedChecksAll : List Ty → List PyVal → Nat
  | t :: ts, v :: vs => packedChecks t v + packedChecksAll ts vs
  | _, _ => 0
end

/-- The number of characters in the type strings. -/
def charCount (types : List (List Char)) : Nat := (types.map List.length).sum

end EthAbi.Spec
