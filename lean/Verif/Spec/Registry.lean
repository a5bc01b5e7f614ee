import Verif.Model.World

/-!
# What a registry means, without caches, addresses or a recursion limit

`Plain` is the list of registries as values: a call on one of them changes that value only, and a
lookup changes nothing.
-/
namespace EthAbi.Spec
open EthAbi

/-- The registries, in the order of their creation. -/
abbrev Plain := List Registry

/-- Change registry number `r`. -/
def Plain.on (p : Plain) (r : Nat) (f : Registry → Registry) : Plain := p.modify r f

/-- The effect of `register_encoder` on the registrations. -/
def regEnc (l : LookupArg) (e : Reg Encoder) (label : Option (List Char)) (g : Registry) : Registry :=
  { g with encoders := (g.encoders.register l e label).2 }

/-- The effect of `register_decoder`. -/
def regDec (l : LookupArg) (d : Reg Decoder) (label : Option (List Char)) (g : Registry) : Registry :=
  { g with decoders := (g.decoders.register l d label).2 }

/-- The effect of `unregister_encoder`. -/
def unregEnc (l : LookupArg) (g : Registry) : Registry :=
  { g with encoders := (g.encoders.unregister l).2 }

/-- The effect of `unregister_decoder`. -/
def unregDec (l : LookupArg) (g : Registry) : Registry :=
  { g with decoders := (g.decoders.unregister l).2 }

/-- Did the call return? -/
def returned {α : Type} : PyM α → Bool
  | .ok _ => true
  | .error _ => false

/-- The effect of a call on the registrations: only `register*` and `unregister*` have one, on one
registry; `register` and `unregister` go on to the decoders only if the encoder part returned. -/
def Plain.step (p : Plain) : Op → Plain
  | .new => p ++ [⟨Mapping.empty, Mapping.empty⟩]
  | .copy r => p ++ p[r]?.toList
  | .registerEncoder r l e label => p.on r (regEnc l e label)
  | .unregisterEncoder r l => p.on r (unregEnc l)
  | .registerDecoder r l d label => p.on r (regDec l d label)
  | .unregisterDecoder r l => p.on r (unregDec l)
  | .register r l e d label => p.on r fun g =>
      if returned (g.encoders.register l e label).1 then regDec l d label (regEnc l e label g)
      else regEnc l e label g
  | .unregister r l => p.on r fun g =>
      if returned (g.encoders.unregister l).1 then unregDec l (unregEnc l g) else unregEnc l g
  | _ => p

/-- The registrations after a history. -/
def Plain.run (p : Plain) : History → Plain
  | [] => p
  | (_, op) :: h => (p.step op).run h

/-! ## Codec calls on given registrations, without caches, with `fuel` nested lookups allowed -/

/-- `encode`. -/
def encodeAt [Ext] (g : Registry) (fuel : Nat) (types : List TypeStr) (args : PyVal) : PyM Bytes := do
  validateListLikeParam args
  let encoders ← mapPyM (getEncoderFuel g.encoders fuel) types
  (mkTuple encoders).call args

/-- `has_encoder` and `is_encodable_type`. -/
def hasEncoderAt [Ext] (g : Registry) (fuel : Nat) (s : TypeStr) : PyM Bool :=
  match getEncoderFuel g.encoders fuel s with
  | .ok _ => .ok true
  | .error .multipleEntriesFound => .error .multipleEntriesFound
  | .error _ => .ok false

/-- `is_encodable`. -/
def isEncodableAt [Ext] (g : Registry) (fuel : Nat) (s : TypeStr) (v : PyVal) : PyM Bool :=
  match getEncoderFuel g.encoders fuel s with
  | .ok e => World.encodableWith e v
  | .error .multipleEntriesFound => .error .multipleEntriesFound
  | .error _ => .ok false

/-- `decode`, `fl` being the `strict` attributes of registered decoder objects. -/
def decodeAt [Ext] (g : Registry) (fl : Flags) (fuel : Nat) (types : List TypeStr) (data : PyVal)
    (strict : Bool) : PyM PyVal := do
  let b ← validateBytesParam data
  let decoders ← mapPyM (fun s => getDecoderFuel g.decoders fuel s strict) types
  let (v, _) ← (mkTupleD decoders).call fl (Stream.init b)
  return v

/-- A value computed with a recursion limit comes to `r` for every large enough limit. -/
def ComesTo {α : Type} (f : Nat → PyM α) (r : PyM α) : Prop := ∃ n, ∀ fuel, n ≤ fuel → f fuel = r

/-! ## Decoders that keep no attribute `strict` in a registered object -/

/-- The decoder has its own attribute `strict` and what it does depends on no other object's. -/
def FlagFree (d : Decoder) : Prop :=
  (∃ b, d.strict = .own b) ∧ ∀ fl fl' b st, d.run fl b st = d.run fl' b st

/-- A `from_type_str` makes such decoders from such decoders. -/
def PlanFree : Plan Decoder → Prop
  | .ret r => ∀ d, r = .ok d → FlagFree d
  | .ask _ k => ∀ c, FlagFree c → PlanFree (k c)

/-- A registration of a class or callable of this kind; a `BaseDecoder` *object* is not. -/
def RegFree : Reg Decoder → Prop
  | .cls plan => ∀ s, PlanFree (plan s)
  | .obj d => FlagFree d

/-- All decoders of a registry are of this kind. -/
def NoSharedDecoders (g : Registry) : Prop := ∀ q ∈ g.decoders.values, RegFree q.2

/-- No decoder was looked up with `strict=False`, on any registry. -/
def OnlyStrict (h : History) : Prop := ∀ c ∈ h, match c.2 with
  | .getDecoder _ _ a => a.value = true
  | .decode _ _ _ strict => strict = true
  | _ => True

/-! ## Registrations that match a type string -/

/-- Exactly one registration, with value `v`, matches `s`; every other matcher answers `False`. -/
def OnlyMatch [Ext] {V : Type} (m : Mapping V) (s : TypeStr) (v : V) : Prop :=
  ∃ before p after, m.values = before ++ (p, v) :: after ∧ p.matches s = .ok true ∧
    ∀ q ∈ before ++ after, q.1.matches s = .ok false

/-- No matcher raises on `s`. -/
def AllAnswer [Ext] {V : Type} (m : Mapping V) (s : TypeStr) : Prop :=
  ∀ q ∈ m.values, ∃ b, q.1.matches s = .ok b

/-- At least two registrations match `s`. -/
def TwoMatch [Ext] {V : Type} (m : Mapping V) (s : TypeStr) : Prop :=
  ∃ a p b q c, m.values = a ++ p :: b ++ q :: c ∧ p.1.matches s = .ok true ∧ q.1.matches s = .ok true

/-- No registration matches `s`. -/
def NoMatch [Ext] {V : Type} (m : Mapping V) (s : TypeStr) : Prop :=
  ∀ q ∈ m.values, q.1.matches s = .ok false

/-- Matchers that raise on a type string raise the same exception. -/
def OneException [Ext] {V : Type} (m : Mapping V) : Prop :=
  ∀ s, ∃ e, ∀ q ∈ m.values, (∃ b, q.1.matches s = .ok b) ∨ q.1.matches s = .error e

/-- Make all these registrations in order; `none` if one is refused. -/
def registerAll {V : Type} : List (LookupArg × V × Option (List Char)) → Mapping V → Option (Mapping V)
  | [], m => some m
  | (l, v, label) :: rs, m =>
    match m.register l v label with
    | (.ok _, m') => registerAll rs m'
    | (.error _, _) => none

/-- The registry whose method is called (`copy` only reads it). -/
def target : Op → Option Nat
  | .new => none
  | .copy _ => none
  | .registerEncoder r _ _ _ => some r
  | .unregisterEncoder r _ => some r
  | .registerDecoder r _ _ _ => some r
  | .unregisterDecoder r _ => some r
  | .register r _ _ _ _ => some r
  | .unregister r _ => some r
  | .getEncoder r _ => some r
  | .getDecoder r _ _ => some r
  | .hasEncoder r _ => some r
  | .encode r _ _ => some r
  | .isEncodable r _ _ => some r
  | .decode r _ _ _ => some r

/-- The registry whose registrations the call may change. -/
def changes : Op → Option Nat
  | .registerEncoder r _ _ _ => some r
  | .unregisterEncoder r _ => some r
  | .registerDecoder r _ _ _ => some r
  | .unregisterDecoder r _ => some r
  | .register r _ _ _ _ => some r
  | .unregister r _ => some r
  | _ => none

/-- The history makes no call that registers or unregisters something in registry `r`. -/
def Keeps (r : Nat) (h : History) : Prop := ∀ c ∈ h, changes c.2 ≠ some r

/-- Every lookup comes out the same, at every recursion limit. -/
def SameLookups [Ext] (g g' : Registry) : Prop :=
  (∀ n s, getEncoderFuel g.encoders n s = getEncoderFuel g'.encoders n s) ∧
    ∀ n s strict, getDecoderFuel g.decoders n s strict = getDecoderFuel g'.decoders n s strict

/-- The same matchers are registered for encoding and decoding, under the same labels; no two
matchers are equal, and every label belongs to a matcher that is registered. -/
structure Mirror (g : Registry) : Prop where
  preds : g.decoders.values.map (·.1) = g.encoders.values.map (·.1)
  labels : g.decoders.labels = g.encoders.labels
  distinct : (g.encoders.values.map (·.1)).Pairwise fun p q => p.pyEq q = false
  used : (g.encoders.labels.map (·.2)).Sublist (g.encoders.values.map (·.1))

/-- Registry `r` is changed with `register` and `unregister(label)` only. -/
def Paired (r : Nat) (h : History) : Prop := ∀ c ∈ h, match c.2 with
  | .registerEncoder r' _ _ _ => r' ≠ r
  | .unregisterEncoder r' _ => r' ≠ r
  | .registerDecoder r' _ _ _ => r' ≠ r
  | .unregisterDecoder r' _ => r' ≠ r
  | .unregister r' (.pred _) => r' ≠ r
  | _ => True

/-- The label under which `register*(l, …, label)` files the registration. -/
def LabelUsed (l : LookupArg) (label : Option (List Char)) (used : List Char) : Prop :=
  (∃ p, l = .pred p ∧ label = some used) ∨ ∃ i, l = .str used i

/-- No call of the history is on registry `r`. -/
def Avoids (r : Nat) (h : History) : Prop := ∀ c ∈ h, target c.2 ≠ some r

instance (r : Nat) (h : History) : Decidable (Keeps r h) :=
  inferInstanceAs (Decidable (∀ c ∈ h, changes c.2 ≠ some r))

instance (r : Nat) (h : History) : Decidable (Avoids r h) :=
  inferInstanceAs (Decidable (∀ c ∈ h, target c.2 ≠ some r))

end EthAbi.Spec
