import Verif.Spec.Registry
import Verif.Spec.Read
import Verif.Spec.Api

/-!
# Specification: coders that users register, and the types built from them

`ReadsBack e d R` is what is asked of an encoder `e` and a decoder `d` that belong together; `Built`
lists the type strings that can be built from such pairs with arrays and tuples.
-/
namespace EthAbi.Spec
open EthAbi

/-- The attribute `is_dynamic` of a coder; one without the attribute counts as static. -/
def countsDynamic (a : Option Bool) : Bool := a.getD false

/-- What `e.validate_value(v)` does: there is an `AttributeError` if `e` has no such method. -/
def validation (e : Encoder) (v : PyVal) : PyM Unit :=
  match e.validate with
  | some f => f v
  | none => .error .attributeError

/-- The encoder `e` and the decoder `d` belong together: `R v v'` says that a value `v` which is
encoded is to come back as `v'`.
* `dynamic`: both are dynamic or none is (`is_dynamic`, `False` if the attribute is missing);
* `plain`: the decoder is not itself a `HeadTailDecoder`;
* `size`: an encoding is not empty, and that of a static coder has at least 32 bytes, and at least 32
  for each of the `array_size` elements that the decoder claims to have, if it has this attribute;
* `back`: the decoder, called on a stream that stands at such an encoding, returns the value, leaves
  the stream behind the encoding if it is static, and does not change the frames.  When the coders are
  dynamic, the stream is at the beginning of a frame.  This must not depend on any attribute
  `strict`. -/
structure ReadsBack (e : Encoder) (d : Decoder) (R : PyVal → PyVal → Prop) : Prop where
  dynamic : countsDynamic e.isDynamic = countsDynamic d.isDynamic
  plain : d.isHeadTail = false
  size : ∀ v v' b, R v v' → e.call v = .ok b → 0 < b.length ∧
    (countsDynamic d.isDynamic = false → 32 ≤ b.length ∧ 32 * d.arraySize.getD 1 ≤ b.length)
  back : ∀ v v' b, R v v' → e.call v = .ok b → ∀ fl strict (st : Stream),
    st.data.length ≤ ssizeMax → At st.data st.pos b → (countsDynamic d.isDynamic = true → st.total = st.pos) →
    ∃ p, d.run fl strict st = .ok (v', { st with pos := p }) ∧ p ≤ ssizeMax ∧
      (countsDynamic d.isDynamic = false → p = st.pos + b.length)

/-- The values of an array: a sequence comes back as a tuple. -/
def ListOf (R : PyVal → PyVal → Prop) (v v' : PyVal) : Prop :=
  ∃ vs vs', IsSeqOf v vs ∧ v' = .tuple vs' ∧ List.Forall₂ R vs vs'

/-- Each relation for one pair of values. -/
inductive Each : List (PyVal → PyVal → Prop) → List PyVal → List PyVal → Prop where
  | nil : Each [] [] []
  | cons {R : PyVal → PyVal → Prop} {Rs : List (PyVal → PyVal → Prop)} {v v' : PyVal}
      {vs vs' : List PyVal} : R v v' → Each Rs vs vs' → Each (R :: Rs) (v :: vs) (v' :: vs')

/-- The values of a tuple type. -/
def TupleOf (Rs : List (PyVal → PyVal → Prop)) (v v' : PyVal) : Prop :=
  ∃ vs vs', IsSeqOf v vs ∧ v' = .tuple vs' ∧ Each Rs vs vs'

/-- `parse(s)` succeeds, `normalize(s)` is `s`, and the parsed type passes its own `validate()`. -/
def Wellformed [Ext] (s : TypeStr) : Prop :=
  ∃ t, parse s = .ok t ∧ normalize s = s ∧ t.validate = .ok ()

/-- `get_encoder(s)` and `get_decoder(s)` return `e` and `d`. -/
def Serves [Ext] (g : Registry) (s : TypeStr) (e : Encoder) (d : Decoder) : Prop :=
  ComesTo (fun n => getEncoderFuel g.encoders n s) (.ok e) ∧
    ComesTo (fun n => getDecoderFuel g.decoders n s true) (.ok d)

/-- The registration that serves `s` is that of the array classes. -/
def ServedAsArray [Ext] (g : Registry) (s : TypeStr) : Prop :=
  OnlyMatch g.encoders s (.cls (arrayPlan mkArray)) ∧
    OnlyMatch g.decoders s (.cls (arrayPlan mkArrayD))

/-- The registration that serves `s` is that of the tuple classes. -/
def ServedAsTuple [Ext] (g : Registry) (s : TypeStr) : Prop :=
  OnlyMatch g.encoders s (.cls (tuplePlan mkTuple)) ∧
    OnlyMatch g.decoders s (.cls (tuplePlan mkTupleD))

/-- The registry was made from the default one by adding registrations, none of which matches `s`. -/
def DefaultFor [Ext] (g : Registry) (s : TypeStr) : Prop :=
  ∃ xe xd, g.encoders.values = defaultRegistry.encoders.values ++ xe ∧
    g.decoders.values = defaultRegistry.decoders.values ++ xd ∧
    (∀ q ∈ xe, q.1.matches s = .ok false) ∧ ∀ q ∈ xd, q.1.matches s = .ok false

mutual
/-- `Built g attr s R`: the type string `s` is built from registered coders that belong together; `R`
says which values come back as which.  `attr`: its coders have the attribute `is_dynamic`.  A plain
callable has not; it can be an argument or a component of a tuple, but not the item of an array. -/
inductive Built [Ext] (g : Registry) : Bool → TypeStr → (PyVal → PyVal → Prop) → Prop where
  /-- A type string with coders of its own. -/
  | leaf {attr : Bool} {s : TypeStr} {e : Encoder} {d : Decoder} {R : PyVal → PyVal → Prop} :
      Wellformed s → Serves g s e d → (attr = true → e.isDynamic ≠ none ∧ d.isDynamic ≠ none) →
      ReadsBack e d R → Built g attr s R
  | sized {s : TypeStr} {R : PyVal → PyVal → Prop} {k : Nat} : Built g true s R → 0 < k →
      numOk k = true → ServedAsArray g (s ++ t!"[" ++ natDigits k ++ t!"]") →
      Built g true (s ++ t!"[" ++ natDigits k ++ t!"]") (ListOf R)
  | dyn {s : TypeStr} {R : PyVal → PyVal → Prop} : Built g true s R → ServedAsArray g (s ++ t!"[]") →
      Built g true (s ++ t!"[]") (ListOf R)
  | tuple {s : TypeStr} {Rs : List (PyVal → PyVal → Prop)} : BuiltAll g s Rs →
      ServedAsTuple g (t!"(" ++ s ++ t!")") → Built g true (t!"(" ++ s ++ t!")") (TupleOf Rs)
/-- The components of a tuple, separated by commas. -/
inductive BuiltAll [Ext] (g : Registry) : TypeStr → List (PyVal → PyVal → Prop) → Prop where
  | one {attr : Bool} {s : TypeStr} {R : PyVal → PyVal → Prop} : Built g attr s R → BuiltAll g s [R]
  | cons {attr : Bool} {s s' : TypeStr} {R : PyVal → PyVal → Prop}
      {Rs : List (PyVal → PyVal → Prop)} : Built g attr s R → BuiltAll g s' Rs →
      BuiltAll g (s ++ t!"," ++ s') (R :: Rs)
end

/-- The type strings of a call, each with its relation. -/
inductive BuiltList [Ext] (g : Registry) : List TypeStr → List (PyVal → PyVal → Prop) → Prop where
  | nil : BuiltList g [] []
  | cons {attr : Bool} {s : TypeStr} {R : PyVal → PyVal → Prop} {types : List TypeStr}
      {Rs : List (PyVal → PyVal → Prop)} : Built g attr s R → BuiltList g types Rs →
      BuiltList g (s :: types) (R :: Rs)

/-- What each encoder does with its argument: `xs` are the encodings, each with the encoder's
`is_dynamic` (`False` if it has no such attribute).  An encoder's `validate_value` accepts the
argument, or raises `AttributeError`, as it does for a plain callable, which has no such method. -/
inductive EncodesTo [Ext] (g : Registry) : List TypeStr → List PyVal → List Elem → Prop where
  | nil : EncodesTo g [] [] []
  | cons {s : TypeStr} {v : PyVal} {e : Encoder} {b : Bytes} {types : List TypeStr}
      {vs : List PyVal} {xs : List Elem} :
      ComesTo (fun n => getEncoderFuel g.encoders n s) (.ok e) → e.call v = .ok b →
      (validation e v = .error .attributeError ∨ validation e v = .ok ()) → EncodesTo g types vs xs →
      EncodesTo g (s :: types) (v :: vs) ((countsDynamic e.isDynamic, b) :: xs)

/-- The encoder is a plain callable: neither `is_dynamic` nor `validate_value`. -/
def IsCallable (e : Encoder) : Prop := e.isDynamic = none ∧ e.validate = none

end EthAbi.Spec
