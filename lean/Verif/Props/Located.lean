import Verif.Lemmas.Located
import Verif.Props.Examples

/-!
# Property C65: where `validate` says the fault is

`parseN` is `parse` with the attribute `node`, and `NType.validate` is `validate` with the text of its `ABITypeError`.
-/
namespace EthAbi
open Spec

/-- **C65** (parse).  Apart from the nodes, `parseN` is `parse`: the same types, the same exceptions. -/
theorem C65_parse [Ext] (s : TypeStr) : (parseN s).map NType.erase = parse s := by
  rw [parseN_eq]
  cases parse s with
  | error e => rfl
  | ok a => exact congrArg Except.ok (erase_locate s 0 a)

/-- **C65** (invalid).  `validate` of a parsed type string raises exactly if something is wrong with a word of the
string, and what it raises is an `ABITypeError` which names the first such word, the column where it stands, counted
from one, the type string, and what is wrong. -/
theorem C65_invalid [Ext] {s : TypeStr} {t : NType} (ht : parseN s = .ok t) {e : Invalid} :
    t.validate = .error e ↔ ∃ p w msg, FirstWrong s p w msg ∧
      e = .abiTypeError (t!"For '" ++ w ++ t!"' type at column " ++ natDigits (p + 1) ++ t!" in '" ++ s ++ t!"': " ++
        msg) := by
  rw [parseN_eq] at ht
  cases hp : parse s with
  | error e => rw [hp] at ht; cases ht
  | ok a =>
    rw [hp] at ht
    cases ht
    exact locate_error (parse_ok_iff.1 hp).1

/-- **C65** (valid).  `validate` returns exactly if nothing is wrong with any word. -/
theorem C65_valid [Ext] {s : TypeStr} {t : NType} (ht : parseN s = .ok t) :
    t.validate = .ok () ↔ ∀ p w, WordAt s p w → ∀ msg, ¬ WrongWord w msg := by
  rw [parseN_eq] at ht
  cases hp : parse s with
  | error e => rw [hp] at ht; cases ht
  | ok a =>
    rw [hp] at ht
    cases ht
    exact locate_ok (parse_ok_iff.1 hp).1

/-- **C65** (one message).  A type string has at most one such word and one message for it. -/
theorem C65_one [Ext] {s : TypeStr} {p p' : Nat} {w w' msg msg' : List Char} (h : FirstWrong s p w msg)
    (h' : FirstWrong s p' w' msg') (ht : ∃ t, parseN s = .ok t) : p = p' ∧ w = w' ∧ msg = msg' := by
  have hp : p = p' := by
    rcases Nat.lt_trichotomy p p' with hlt | he | hlt
    · exact absurd h.2.1 (h'.2.2 p w hlt h.1 msg)
    · exact he
    · exact absurd h'.2.1 (h.2.2 p' w' hlt h'.1 msg')
  subst hp
  obtain ⟨t, ht⟩ := ht
  rw [parseN_eq] at ht
  cases hp : parse s with
  | error e => rw [hp] at ht; cases ht
  | ok a =>
    have hd := (parse_ok_iff.1 hp).1
    obtain ⟨b, hb, rfl⟩ := (leaves_words hd 0 p w).1 h.1
    obtain ⟨b', hb', rfl⟩ := (leaves_words hd 0 p w').1 h'.1
    have he : b = b' := by
      have hs := leaves_sorted 0 a
      obtain ⟨l1, l2, hl⟩ := List.append_of_mem hb
      rw [hl] at hb' hs
      simp only [List.mem_append, List.mem_cons, Prod.mk.injEq] at hb'
      rw [List.pairwise_append] at hs
      rcases hb' with hb' | ⟨_, rfl⟩ | hb'
      · exact absurd (hs.2.2 _ hb' _ List.mem_cons_self) (Nat.lt_irrefl _)
      · rfl
      · exact absurd ((List.pairwise_cons.1 hs.2.1).1 _ hb') (Nat.lt_irrefl _)
    subst he
    obtain ⟨bs, sub, arr, e⟩ := leaves_basic hb
    simp only at e
    subst e
    have hdl := leaves_derive hd _ _ hb
    have h1 := (breaks_validate ((wrongWord_leaf hdl).1 h.2.1) (some ⟨0, [], []⟩)).symm.trans
      (breaks_validate ((wrongWord_leaf hdl).1 h'.2.1) (some ⟨0, [], []⟩))
    simp only [invalidate, Except.error.injEq, Invalid.abiTypeError.injEq] at h1
    exact ⟨rfl, rfl, List.append_cancel_left h1⟩

/-- **C65** (verdict).  The nodes do not change which types are valid: `validate` of the rest of the model agrees. -/
theorem C65_verdict [Ext] {s : TypeStr} {t : NType} {a : ABIType} (ht : parseN s = .ok t) (ha : parse s = .ok a) :
    (a.validate = .ok () ↔ t.validate = .ok ()) ∧
    (a.validate = .error .abiTypeError ↔ ∃ m, t.validate = .error (.abiTypeError m)) := by
  rw [parseN_eq, ha] at ht
  cases ht
  have hd := (parse_ok_iff.1 ha).1
  have hv := located_verdict s 0 a
  rcases hv with ⟨h1, h2⟩ | ⟨h1, m, h2⟩
  · rw [h1, h2]
    exact ⟨⟨fun _ => rfl, fun _ => rfl⟩, ⟨fun h => (by cases h), fun ⟨m, h⟩ => (by cases h)⟩⟩
  · rw [h1, h2]
    exact ⟨⟨fun h => (by cases h), fun h => (by cases h)⟩, ⟨fun _ => ⟨m, rfl⟩, fun _ => rfl⟩⟩

/-- **C65** (nodes).  The parsed type and each of its components, at any depth, has a node; its `full_text` is the
whole string, its `text` is what `to_type_str` gives for the component, and this text stands in the string at
`start`. -/
theorem C65_nodes [Ext] {s : TypeStr} {t u : NType} (ht : parseN s = .ok t) (hu : PartOf u t) :
    ∃ n, nodeAttr u = some n ∧ n.fullText = s ∧ n.text = u.erase.toTypeStr ∧ n.text <+: s.drop n.start := by
  rw [parseN_eq] at ht
  cases hp : parse s with
  | error e => rw [hp] at ht; cases ht
  | ok a =>
    rw [hp] at ht
    cases ht
    exact locate_parts (parse_ok_iff.1 hp).1 s [] [] (by simp) u hu

/-- **C65** (items).  The type of the items of a parsed array is valid exactly if the array is, and `validate` raises
the same for both: the text is about the array. -/
theorem C65_items {t u : NType} (hu : t.itemType = .ok u) : u.validate = t.validate := by
  cases t with
  | basic b s arr n => cases arr <;> cases hu; rfl
  | tuple cs arr n => cases arr <;> cases hu; rfl

/-- **C65** (made by hand).  `validate` of a type that was not parsed, but made from `BasicType` and `TupleType`, never
raises `ABITypeError`: it returns if the type is valid, and raises `AttributeError` if it is not. -/
theorem C65_hand_made (a : ABIType) :
    (a.handMade.validate = .ok () ↔ a.validate = .ok ()) ∧
    (a.handMade.validate = .error .attributeError ↔ a.validate = .error .abiTypeError) ∧
    ∀ m, a.handMade.validate ≠ .error (.abiTypeError m) := by
  rcases handMade_validate a with ⟨h1, h2⟩ | ⟨h1, h2⟩ <;> rw [h1, h2] <;> simp

/-! ## Examples -/

/-- The text for a type string, if `validate` raises an `ABITypeError`. -/
def Ex.messageFor (s : TypeStr) : Option (List Char) :=
  letI := Ex.ext
  match parseN s with
  | .ok t => match t.validate with
    | .error (.abiTypeError m) => some m
    | _ => none
  | .error _ => none

example : Ex.messageFor t!"(bool,(uint7[2],bytes33))" =
    some t!"For 'uint7[2]' type at column 8 in '(bool,(uint7[2],bytes33))': integer size out of bounds (max 256 bits)" := by
  decide +kernel

example : Ex.messageFor t!"ufixed128x81" =
    some t!"For 'ufixed128x81' type at column 1 in 'ufixed128x81': fixed exponent size out of bounds, 81 must be in 1-80" := by
  decide +kernel

example : Ex.messageFor t!"(bool,(uint8[2],bytes32))" = none := by decide +kernel

/-- The hypotheses of `C65_invalid` are met, here by a string with two wrong words, and the first of them is the one
that `FirstWrong` describes. -/
example : letI := Ex.ext; ∃ t, parseN t!"(bool,(uint7[2],bytes33))" = .ok t ∧ (∃ e, t.validate = .error e) ∧
    FirstWrong t!"(bool,(uint7[2],bytes33))" 7 t!"uint7[2]" t!"integer size out of bounds (max 256 bits)" := by
  letI := Ex.ext
  have hp : parse t!"(bool,(uint7[2],bytes33))" = .ok (.tuple [.basic t!"bool" .none [],
      .tuple [.basic t!"uint" (.one 7) [some 2], .basic t!"bytes" (.one 33) []] []] []) := by rfl
  have hd := (parse_ok_iff.1 hp).1
  have hl := leaves_words hd 0
  have hf : FirstWrong t!"(bool,(uint7[2],bytes33))" 7 t!"uint7[2]"
      t!"integer size out of bounds (max 256 bits)" := by
    refine ⟨(hl 7 _).2 ⟨.basic t!"uint" (.one 7) [some 2], List.mem_cons_of_mem _ List.mem_cons_self, rfl⟩,
      ⟨t!"uint", .one 7, [some 2], leaves_derive hd 0 (7, .basic t!"uint" (.one 7) [some 2])
        (List.mem_cons_of_mem _ List.mem_cons_self),
        .intSize (.inr rfl) (.inl (by omega))⟩, ?_⟩
    rintro q v hq hv m ⟨b, sub, arr, h1, h2⟩
    obtain ⟨a, ha, rfl⟩ := (hl q v).1 hv
    have hla : leaves 0 (.tuple [.basic t!"bool" .none [],
      .tuple [.basic t!"uint" (.one 7) [some 2], .basic t!"bytes" (.one 33) []] []] []) =
        [(1, .basic t!"bool" .none []), (7, .basic t!"uint" (.one 7) [some 2]), (16, .basic t!"bytes" (.one 33) [])] := by rfl
    have hda := leaves_derive hd 0 _ ha
    rw [hla] at ha
    simp only [List.mem_cons, Prod.mk.injEq, List.not_mem_nil, or_false] at ha
    rcases ha with ⟨_, rfl⟩ | ⟨h, _⟩ | ⟨h, _⟩
    · cases derives_unique hda h1
      generalize hb : t!"bool" = b at h2
      cases h2 <;> first | exact absurd hb (by decide) | (rename_i h _; rcases h with rfl | rfl <;> exact absurd hb (by decide))
    · omega
    · omega
  refine ⟨_, (parseN_eq _).trans (by rw [hp]; rfl), ⟨_, (locate_error hd).2 ⟨_, _, _, hf, rfl⟩⟩, hf⟩

/-- A type made by hand: `BasicType('uint', 7).validate()`. -/
example : (ABIType.basic t!"uint" (.one 7) []).handMade.validate = .error .attributeError := by decide +kernel

/-- The node of the items of an array is the array's. -/
example : letI := Ex.ext; (parseN t!"uint7[2]" >>= fun t => t.itemType.map nodeAttr) =
    .ok (some ⟨0, t!"uint7[2]", t!"uint7[2]"⟩) := by decide +kernel

/-- The nodes of components: `C65_nodes` is about more than the outermost type. -/
example : letI := Ex.ext; (parseN t!"(bool,(uint8[2],bytes32)[])").map (fun t => match t with
      | .tuple (_ :: .tuple (_ :: b :: _) _ n :: _) _ _ => (n, nodeAttr b)
      | _ => (none, none)) =
    .ok (some ⟨6, t!"(uint8[2],bytes32)[]", t!"(bool,(uint8[2],bytes32)[])"⟩,
      some ⟨16, t!"bytes32", t!"(bool,(uint8[2],bytes32)[])"⟩) := by decide +kernel

end EthAbi
