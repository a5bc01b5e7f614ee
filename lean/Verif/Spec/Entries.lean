import Verif.Model.World
import Verif.Model.Strategies

/-!
# Specification: a registry is a list of entries

An entry is a matcher, perhaps a label, and a coder.  Registering adds an entry, unregistering removes the
entry with a given label or matcher.  (The code keeps two dicts per side: from matchers to coders and from
labels to matchers.)
-/
namespace EthAbi.Spec

/-- A registration. -/
structure Entry (V : Type) where
  matcher : Pred
  label : Option (List Char)
  coder : V

namespace Entries
variable {V : Type}

/-- Register a coder.  A string stands for the matcher of equality with it and is also the label.  No two
entries may have equal matchers or the same label. -/
def register (b : List (Entry V)) (lookup : LookupArg) (coder : V) (label : Option (List Char)) :
    PyM Unit × List (Entry V) :=
  let add (p : Pred) (label : Option (List Char)) :=
    if b.any (fun e => e.matcher.pyEq p) || (label.isSome && b.any fun e => e.label == label) then
      (.error .valueError, b)
    else (.ok (), b ++ [⟨p, label, coder⟩])
  match lookup with
  | .pred p => add p label
  | .str s i => add ⟨i, .equals s⟩ (some s)
  | .other => (.error .typeError, b)

/-- Remove the entry with this label (a string) or an equal matcher. -/
def unregister (b : List (Entry V)) (lookup : LookupArg) : PyM Unit × List (Entry V) :=
  let remove (this : Entry V → Bool) :=
    if b.any this then (.ok (), b.filter fun e => !this e) else (.error .keyError, b)
  match lookup with
  | .pred p => remove fun e => e.matcher.pyEq p
  | .str s _ => remove fun e => e.label == some s
  | .other => (.error .typeError, b)

/-- Exactly one entry matches the type string, with coder `v`; the other matchers answer `False`. -/
def OneMatches [Ext] (b : List (Entry V)) (s : TypeStr) (v : V) : Prop :=
  ∃ before e after, b = before ++ e :: after ∧ e.coder = v ∧ e.matcher.matches s = .ok true ∧
    ∀ e ∈ before ++ after, e.matcher.matches s = .ok false

/-- `p` is the matcher object of the entry that it is equal to, or that entry has no label; and it is no other
entry's matcher object. -/
def Itself (b : List (Entry V)) (p : Pred) : Prop :=
  ∀ e ∈ b, (e.matcher.pyEq p = true → e.label = none ∨ e.matcher.ident = p.ident) ∧
    (e.matcher.ident = p.ident → e.matcher.pyEq p = true)

/-- The same for the argument of an `unregister` method. -/
def Direct (b : List (Entry V)) : LookupArg → Prop
  | .pred p => Itself b p
  | _ => True

end Entries

/-- All registries: their encoders and their decoders. -/
abbrev Shelf := List (List (Entry (Reg Encoder)) × List (Entry (Reg Decoder)))

/-- What a call returns and leaves, on one registry. -/
def onEntries (b : List (Entry (Reg Encoder)) × List (Entry (Reg Decoder))) :
    Op → PyM Unit × (List (Entry (Reg Encoder)) × List (Entry (Reg Decoder)))
  | .registerEncoder _ l e label => let (o, x) := Entries.register b.1 l e label; (o, x, b.2)
  | .unregisterEncoder _ l => let (o, x) := Entries.unregister b.1 l; (o, x, b.2)
  | .registerDecoder _ l d label => let (o, y) := Entries.register b.2 l d label; (o, b.1, y)
  | .unregisterDecoder _ l => let (o, y) := Entries.unregister b.2 l; (o, b.1, y)
  | .register _ l e d label =>
    match Entries.register b.1 l e label with
    | (.ok _, x) => let (o, y) := Entries.register b.2 l d label; (o, x, y)
    | (.error er, _) => (.error er, b)
  | .unregister _ l =>
    match Entries.unregister b.1 l with
    | (.ok _, x) => let (o, y) := Entries.unregister b.2 l; (o, x, y)
    | (.error er, _) => (.error er, b)
  | _ => (.ok (), b)

/-- The registry that the call is on, if it may change it. -/
def on : Op → Option Nat
  | .registerEncoder r _ _ _ => some r
  | .unregisterEncoder r _ => some r
  | .registerDecoder r _ _ _ => some r
  | .unregisterDecoder r _ => some r
  | .register r _ _ _ _ => some r
  | .unregister r _ => some r
  | _ => none

/-- The effect of a call: a new registry is empty, a copy has the same entries, and a call that registers or
unregisters changes the entries of one registry. -/
def Shelf.step (s : Shelf) (op : Op) : Shelf :=
  match op with
  | .new => s ++ [([], [])]
  | .copy r => s ++ s[r]?.toList
  | op =>
    match on op with
    | some r => s.modify r fun b => (onEntries b op).2
    | none => s

/-- The entries after a history. -/
def Shelf.run (s : Shelf) : History → Shelf
  | [] => s
  | (_, op) :: h => (s.step op).run h

/-- The matcher in an `unregister` call is the object itself (`Itself`). -/
def DirectOp (b : List (Entry (Reg Encoder)) × List (Entry (Reg Decoder))) : Op → Prop
  | .unregisterEncoder _ l => Entries.Direct b.1 l
  | .unregisterDecoder _ l => Entries.Direct b.2 l
  | .unregister _ l => Entries.Direct b.1 l ∧ Entries.Direct b.2 l
  | _ => True

/-- No call of the history unregisters by matcher. -/
def ByLabel (h : History) : Prop := ∀ c ∈ h, match c.2 with
  | .unregisterEncoder _ (.pred _) => False
  | .unregisterDecoder _ (.pred _) => False
  | .unregister _ (.pred _) => False
  | _ => True

/-- Every `unregister` call of the history is of that kind. -/
def Shelf.Direct (s : Shelf) : History → Prop
  | [] => True
  | (_, op) :: h => (∀ r b, on op = some r → s[r]? = some b → DirectOp b op) ∧ (s.step op).Direct h

/-! ## The registry of strategies -/

/-- What a call on a `StrategyRegistry` returns and leaves. -/
def strategyEntries (b : List (Entry (Reg Strategy))) : StrategyOp → PyM Unit × List (Entry (Reg Strategy))
  | .registerStrategy l v label => Entries.register b l v label
  | .unregisterStrategy l => Entries.unregister b l

/-- The entries after a sequence of calls. -/
def strategyBook (b : List (Entry (Reg Strategy))) : List StrategyOp → List (Entry (Reg Strategy))
  | [] => b
  | op :: h => strategyBook (strategyEntries b op).2 h

/-- The matcher in an `unregister_strategy` call is the object itself. -/
def strategyDirect (b : List (Entry (Reg Strategy))) : List StrategyOp → Prop
  | [] => True
  | .unregisterStrategy l :: h => Entries.Direct b l ∧ strategyDirect (strategyEntries b (.unregisterStrategy l)).2 h
  | op :: h => strategyDirect (strategyEntries b op).2 h

end EthAbi.Spec
