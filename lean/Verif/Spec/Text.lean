import Verif.Spec.Custom

/-!
# Specification: strings that are no UTF-8

`bytes.decode("utf-8", errors=...)` is any function `f` from bytes to a string or an exception.
`TextFor` says of two type strings that the first is the second with the name of a registered
`StringDecoder` in place of `bytes`; its last argument says which decoded values belong together.
-/
namespace EthAbi.Spec
open EthAbi

/-- The string that the handler makes of the bytes. -/
def AsText (f : Bytes → PyM PyStr) (v w : PyVal) : Prop :=
  ∃ b t, v = .bytes b ∧ f b = .ok t ∧ w = .str t

/-- The one registration for `s` is that of the array decoders. -/
def DecodedAsArray [Ext] (g : Registry) (s : TypeStr) : Prop :=
  OnlyMatch g.decoders s (.cls (arrayPlan mkArrayD))

/-- The one registration for `s` is that of the tuple decoder. -/
def DecodedAsTuple [Ext] (g : Registry) (s : TypeStr) : Prop :=
  OnlyMatch g.decoders s (.cls (tuplePlan mkTupleD))

/-- The one registration for `bytes` is that of `ByteStringDecoder`, as in the default registry. -/
def DecodesBytes [Ext] (g : Registry) : Prop :=
  OnlyMatch g.decoders t!"bytes" (.cls (basicPlan t!"bytes" fun _ => .ok (byteStringDecoder (.own true))))

mutual
/-- `TextFor g name f attr s s' R`: `s` is `s'` with `name` in some places where `s'` has `bytes`, and
`R v w` if `w` is `v` with the bytes in these places read by `f`.  `attr`: the decoders have the
attribute `is_dynamic`, without which there are no arrays of them. -/
inductive TextFor [Ext] (g : Registry) (name : TypeStr) (f : Bytes → PyM PyStr) :
    Bool → TypeStr → TypeStr → (PyVal → PyVal → Prop) → Prop where
  | name : TextFor g name f true name t!"bytes" (AsText f)
  /-- Any type that has a decoder is left as it is. -/
  | other {attr : Bool} {s : TypeStr} {d : Decoder} :
      ComesTo (fun n => getDecoderFuel g.decoders n s true) (.ok d) →
      (attr = true → d.isDynamic ≠ none) → TextFor g name f attr s s Eq
  | sized {s s' : TypeStr} {R : PyVal → PyVal → Prop} {k : Nat} : TextFor g name f true s s' R →
      Wellformed s → Wellformed s' → 0 < k → numOk k = true →
      DecodedAsArray g (s ++ (t!"[" ++ natDigits k ++ t!"]")) →
      DecodedAsArray g (s' ++ (t!"[" ++ natDigits k ++ t!"]")) →
      TextFor g name f true (s ++ (t!"[" ++ natDigits k ++ t!"]"))
        (s' ++ (t!"[" ++ natDigits k ++ t!"]")) (ListOf R)
  | dyn {s s' : TypeStr} {R : PyVal → PyVal → Prop} : TextFor g name f true s s' R →
      Wellformed s → Wellformed s' → DecodedAsArray g (s ++ t!"[]") → DecodedAsArray g (s' ++ t!"[]") →
      TextFor g name f true (s ++ t!"[]") (s' ++ t!"[]") (ListOf R)
  | tuple {s s' : TypeStr} {Rs : List (PyVal → PyVal → Prop)} : TextForAll g name f s s' Rs →
      DecodedAsTuple g (t!"(" ++ s ++ t!")") → DecodedAsTuple g (t!"(" ++ s' ++ t!")") →
      TextFor g name f true (t!"(" ++ s ++ t!")") (t!"(" ++ s' ++ t!")") (TupleOf Rs)
/-- The components of a tuple, separated by commas. -/
inductive TextForAll [Ext] (g : Registry) (name : TypeStr) (f : Bytes → PyM PyStr) :
    TypeStr → TypeStr → List (PyVal → PyVal → Prop) → Prop where
  | one {attr : Bool} {s s' : TypeStr} {R : PyVal → PyVal → Prop} : TextFor g name f attr s s' R →
      Wellformed s → Wellformed s' → TextForAll g name f s s' [R]
  | cons {attr : Bool} {s s' u u' : TypeStr} {R : PyVal → PyVal → Prop}
      {Rs : List (PyVal → PyVal → Prop)} : TextFor g name f attr s s' R → Wellformed s →
      Wellformed s' → TextForAll g name f u u' Rs →
      TextForAll g name f (s ++ t!"," ++ u) (s' ++ t!"," ++ u') (R :: Rs)
end

/-- The type strings of a call. -/
inductive TextForList [Ext] (g : Registry) (name : TypeStr) (f : Bytes → PyM PyStr) :
    List TypeStr → List TypeStr → List (PyVal → PyVal → Prop) → Prop where
  | nil : TextForList g name f [] [] []
  | cons {attr : Bool} {s s' : TypeStr} {R : PyVal → PyVal → Prop} {types types' : List TypeStr}
      {Rs : List (PyVal → PyVal → Prop)} : TextFor g name f attr s s' R →
      TextForList g name f types types' Rs → TextForList g name f (s :: types) (s' :: types') (R :: Rs)

end EthAbi.Spec
