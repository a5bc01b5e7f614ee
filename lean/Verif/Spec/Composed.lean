import Verif.Spec.Custom

/-!
# Specification: what the types built from registered encoders encode to

`EncodesAs` says which values a type string stands for and what their encodings are, when the encoders
of its parts were registered by a user: the layout of the arrays and tuples around them is the one the
ABI prescribes (`layout`).  `BuiltFrom` lists the type strings, without the values.
-/
namespace EthAbi.Spec
open EthAbi

/-- `get_encoder(s)` returns `e`. -/
def EncoderIs [Ext] (g : Registry) (s : TypeStr) (e : Encoder) : Prop :=
  ComesTo (fun n => getEncoderFuel g.encoders n s) (.ok e)

/-- A type string with an encoder of its own: served by a registered object or callable, or a name
without dimensions, such as `uint8`. -/
def OwnEncoder [Ext] (g : Registry) (s : TypeStr) : Prop :=
  (∃ e, OnlyMatch g.encoders s (.obj e)) ∨ ∃ base sub, parse s = .ok (.basic base sub [])

/-- The encoder `e` does not reject `v`.  An `AttributeError` of `validate_value` (a plain callable has
no such method) is a rejection by an array (`item`), but not by a tuple. -/
def NotRejected (item : Bool) (e : Encoder) (v : PyVal) : Prop :=
  validation e v = .ok () ∨ item = false ∧ validation e v = .error .attributeError

/-- A type string is served by the array class of packed registries. -/
def PackedArray [Ext] (g : Registry) (s : TypeStr) : Prop :=
  OnlyMatch g.encoders s (.cls (arrayPlan fun dim e => .ok (mkPackedArray dim e)))

mutual
/-- `EncodesAs g item s v (d, b)`: a value `v` for the type string `s` is encoded as `b`, which is
dynamic if `d`.  `item`: the value is an item of an array. -/
inductive EncodesAs [Ext] (g : Registry) : Bool → TypeStr → PyVal → Elem → Prop where
  /-- A type string with an encoder of its own. -/
  | own {item : Bool} {s : TypeStr} {e : Encoder} {v : PyVal} {b : Bytes} : Wellformed s →
      OwnEncoder g s → EncoderIs g s e → NotRejected item e v → e.call v = .ok b →
      EncodesAs g item s v (countsDynamic e.isDynamic, b)
  /-- `T[k]`: `k` items; it is dynamic if the items are. -/
  | sized {item : Bool} {s : TypeStr} {k : Nat} {e : Encoder} {d : Bool} {v : PyVal} {vs : List PyVal}
      {xs : List Elem} : Wellformed s → EncoderIs g s e → e.isDynamic = some d → 0 < k → numOk k = true →
      OnlyMatch g.encoders (s ++ t!"[" ++ natDigits k ++ t!"]") (.cls (arrayPlan mkArray)) →
      IsSeqOf v vs → vs.length = k → ItemsAs g s vs xs →
      EncodesAs g item (s ++ t!"[" ++ natDigits k ++ t!"]") v (d, layout xs)
  /-- `T[]`: the number of items, and the items. -/
  | dynamic {item : Bool} {s : TypeStr} {e : Encoder} {v : PyVal} {vs : List PyVal} {xs : List Elem} :
      Wellformed s → EncoderIs g s e → OnlyMatch g.encoders (s ++ t!"[]") (.cls (arrayPlan mkArray)) →
      IsSeqOf v vs → vs.length < 2 ^ 256 → ItemsAs g s vs xs →
      EncodesAs g item (s ++ t!"[]") v (true, be32 vs.length ++ layout xs)
  /-- `T[k]` in a registry for packed encodings: `k` items; it never counts as dynamic. -/
  | packedSized {item : Bool} {s : TypeStr} {k : Nat} {e : Encoder} {v : PyVal} {vs : List PyVal} {xs : List Elem} :
      Wellformed s → EncoderIs g s e → 0 < k → numOk k = true →
      PackedArray g (s ++ t!"[" ++ natDigits k ++ t!"]") → IsSeqOf v vs → vs.length = k → ItemsAs g s vs xs →
      EncodesAs g item (s ++ t!"[" ++ natDigits k ++ t!"]") v (false, layout xs)
  /-- `T[]` in a registry for packed encodings: the items only. -/
  | packedDynamic {item : Bool} {s : TypeStr} {e : Encoder} {v : PyVal} {vs : List PyVal} {xs : List Elem} :
      Wellformed s → EncoderIs g s e → PackedArray g (s ++ t!"[]") → IsSeqOf v vs → ItemsAs g s vs xs →
      EncodesAs g item (s ++ t!"[]") v (false, layout xs)
  /-- `(T1,...,Tn)`: it is dynamic if some component is. -/
  | tuple {item : Bool} {s : TypeStr} {v : PyVal} {vs : List PyVal} {xs : List Elem} : CompsAs g s vs xs →
      OnlyMatch g.encoders (t!"(" ++ s ++ t!")") (.cls (tuplePlan mkTuple)) → IsSeqOf v vs →
      EncodesAs g item (t!"(" ++ s ++ t!")") v (xs.any (·.1), layout xs)
/-- The items of an array. -/
inductive ItemsAs [Ext] (g : Registry) : TypeStr → List PyVal → List Elem → Prop where
  | nil {s : TypeStr} : ItemsAs g s [] []
  | cons {s : TypeStr} {v : PyVal} {x : Elem} {vs : List PyVal} {xs : List Elem} :
      EncodesAs g true s v x → ItemsAs g s vs xs → ItemsAs g s (v :: vs) (x :: xs)
/-- The components of a tuple, separated by commas. -/
inductive CompsAs [Ext] (g : Registry) : TypeStr → List PyVal → List Elem → Prop where
  | one {s : TypeStr} {v : PyVal} {x : Elem} : EncodesAs g false s v x → CompsAs g s [v] [x]
  | cons {s s' : TypeStr} {v : PyVal} {x : Elem} {vs : List PyVal} {xs : List Elem} :
      EncodesAs g false s v x → CompsAs g s' vs xs → CompsAs g (s ++ t!"," ++ s') (v :: vs) (x :: xs)
end

/-- The arguments of a call. -/
inductive ArgsAs [Ext] (g : Registry) : List TypeStr → List PyVal → List Elem → Prop where
  | nil : ArgsAs g [] [] []
  | cons {s : TypeStr} {v : PyVal} {x : Elem} {types : List TypeStr} {vs : List PyVal} {xs : List Elem} :
      EncodesAs g false s v x → ArgsAs g types vs xs → ArgsAs g (s :: types) (v :: vs) (x :: xs)

mutual
/-- A type string built from registered encoders with the array and tuple classes of the library. -/
inductive BuiltFrom [Ext] (g : Registry) : TypeStr → Prop where
  | own {s : TypeStr} {e : Encoder} : Wellformed s → OwnEncoder g s → EncoderIs g s e → BuiltFrom g s
  | sized {s : TypeStr} {k : Nat} {e : Encoder} : BuiltFrom g s → EncoderIs g s e → e.isDynamic ≠ none →
      0 < k → numOk k = true →
      OnlyMatch g.encoders (s ++ t!"[" ++ natDigits k ++ t!"]") (.cls (arrayPlan mkArray)) →
      BuiltFrom g (s ++ t!"[" ++ natDigits k ++ t!"]")
  | dynamic {s : TypeStr} : BuiltFrom g s →
      OnlyMatch g.encoders (s ++ t!"[]") (.cls (arrayPlan mkArray)) → BuiltFrom g (s ++ t!"[]")
  | packedSized {s : TypeStr} {k : Nat} : BuiltFrom g s → 0 < k → numOk k = true →
      PackedArray g (s ++ t!"[" ++ natDigits k ++ t!"]") → BuiltFrom g (s ++ t!"[" ++ natDigits k ++ t!"]")
  | packedDynamic {s : TypeStr} : BuiltFrom g s → PackedArray g (s ++ t!"[]") → BuiltFrom g (s ++ t!"[]")
  | tuple {s : TypeStr} : BuiltComps g s →
      OnlyMatch g.encoders (t!"(" ++ s ++ t!")") (.cls (tuplePlan mkTuple)) →
      BuiltFrom g (t!"(" ++ s ++ t!")")
/-- The components of a tuple. -/
inductive BuiltComps [Ext] (g : Registry) : TypeStr → Prop where
  | one {s : TypeStr} : BuiltFrom g s → BuiltComps g s
  | cons {s s' : TypeStr} : BuiltFrom g s → BuiltComps g s' → BuiltComps g (s ++ t!"," ++ s')
end

/-- The registry was made from the packed one by adding registrations, none of which matches `s`. -/
def PackedFor [Ext] (g : Registry) (s : TypeStr) : Prop :=
  ∃ xe, g.encoders.values = packedRegistry.encoders.values ++ xe ∧ ∀ q ∈ xe, q.1.matches s = .ok false

end EthAbi.Spec
