import Verif.Lemmas.Outcome
import Verif.Lemmas.Mapping
import Verif.Lemmas.Imported

/-! # What `register` and `unregister` calls return and leave -/
namespace EthAbi
open Spec

theorem has_of [Ext] {h : History} {r : Nat} {g : Registry} (hg : (Plain.run [] h)[r]? = some g) :
    Has r g (World.empty.run h) := by
  obtain ⟨h1, h2, _⟩ := run_ok h inv_empty
  have h2 : (World.empty.run h).plain = Plain.run [] h := h2
  rw [← h2] at hg
  have hr : r < (World.empty.run h).regs.length := by
    by_contra hc
    rw [plain_none hc] at hg
    cases hg
  rw [plain_get hr] at hg
  injection hg with hg
  exact ⟨h1, hr, hg⟩

theorem plain_of [Ext] (h : History) : (World.empty.run h).plain = Plain.run [] h :=
  (run_ok h inv_empty).2.1

section
variable [Ext] {r : Nat} {g : Registry} {w : World}

theorem registerEncoder_out (h : Has r g w) (l : LookupArg) (e : Reg Encoder) (label : Option (List Char)) :
    (w.registerEncoder r l e label).1 = (g.encoders.register l e label).1 := by
  rw [(mutEnc h.1.shape h.2.1 (fun m => m.register l e label)
    (x := w.registerEncoder r l e label) rfl).1, h.2.2]

theorem unregisterEncoder_out (h : Has r g w) (l : LookupArg) :
    (w.unregisterEncoder r l).1 = (g.encoders.unregister l).1 := by
  rw [(mutEnc h.1.shape h.2.1 (fun m => m.unregister l) (x := w.unregisterEncoder r l) rfl).1, h.2.2]

theorem registerDecoder_out (h : Has r g w) (l : LookupArg) (d : Reg Decoder) (label : Option (List Char)) :
    (w.registerDecoder r l d label).1 = (g.decoders.register l d label).1 := by
  rw [(mutDec h.1.shape h.2.1 (fun m => m.register l d label)
    (x := w.registerDecoder r l d label) rfl).1, h.2.2]

theorem unregisterDecoder_out (h : Has r g w) (l : LookupArg) :
    (w.unregisterDecoder r l).1 = (g.decoders.unregister l).1 := by
  rw [(mutDec h.1.shape h.2.1 (fun m => m.unregister l) (x := w.unregisterDecoder r l) rfl).1, h.2.2]

theorem register_out (h : Has r g w) (l : LookupArg) (e : Reg Encoder) (d : Reg Decoder)
    (label : Option (List Char)) :
    (w.register r l e d label).1 =
      (do (g.encoders.register l e label).1; (g.decoders.register l d label).1) := by
  obtain ⟨h0, h1⟩ := mutEnc h.1.shape h.2.1 (fun m => m.register l e label)
    (x := w.registerEncoder r l e label) rfl
  unfold World.register
  rcases hx : w.registerEncoder r l e label with ⟨res, w1⟩
  rw [hx] at h0 h1
  simp only at h0 h1
  rw [← h.2.2, ← h0]
  cases res with
  | error x => rfl
  | ok u =>
    have h' := (mutDec (h1.shape h.1.shape) (by rw [h1.regs]; exact h.2.1) (fun m => m.register l d label)
      (x := w1.registerDecoder r l d label) rfl).1
    rw [h1.here] at h'
    simp only [ok_bind]
    rw [h']

theorem unregister_out (h : Has r g w) (l : LookupArg) :
    (w.unregister r l).1 = (do (g.encoders.unregister l).1; (g.decoders.unregister l).1) := by
  obtain ⟨h0, h1⟩ := mutEnc h.1.shape h.2.1 (fun m => m.unregister l)
    (x := w.unregisterEncoder r l) rfl
  unfold World.unregister
  rcases hx : w.unregisterEncoder r l with ⟨res, w1⟩
  rw [hx] at h0 h1
  simp only at h0 h1
  rw [← h.2.2, ← h0]
  cases res with
  | error x => rfl
  | ok u =>
    have h' := (mutDec (h1.shape h.1.shape) (by rw [h1.regs]; exact h.2.1) (fun m => m.unregister l)
      (x := w1.unregisterDecoder r l) rfl).1
    rw [h1.here] at h'
    simp only [ok_bind]
    rw [h']

end

/-! ## Registrations -/

theorem plain_snoc (h : History) (c : Nat × Op) (p : Plain) : p.run (h ++ [c]) = (p.run h).step c.2 := by
  rw [plain_run_append]; rfl

theorem on_get {p : Plain} {r : Nat} {g : Registry} (h : p[r]? = some g) (f : Registry → Registry) :
    (p.on r f)[r]? = some (f g) := modify_get h f

theorem on_same {p : Plain} {r : Nat} {g : Registry} (h : p[r]? = some g) (f : Registry → Registry)
    (hf : f g = g) : p.on r f = p := by
  unfold Plain.on
  rw [modify_some h, hf, modify_same h]

theorem on_on (p : Plain) (r : Nat) (f f' : Registry → Registry) :
    (p.on r f).on r f' = p.on r fun g => f' (f g) := by
  unfold Plain.on
  apply List.ext_getElem?
  intro i
  rw [List.getElem?_modify, List.getElem?_modify, List.getElem?_modify]
  by_cases hr : r = i
  · cases p[i]? with
    | none => simp [hr]
    | some x => simp [hr]
  · simp [hr]

theorem sameLookups_of [Ext] {g g' : Registry} (h1 : g.encoders.values = g'.encoders.values)
    (h2 : g.decoders.values = g'.decoders.values) : SameLookups g g' :=
  ⟨fun n s => encoderFuel_congr (getRegistration_values h1) n s,
    fun n s b => decoderFuel_congr (getRegistration_values h2) n s b⟩

theorem sameLookups_perm [Ext] {g g' : Registry} (h1 : g.encoders.values.Perm g'.encoders.values)
    (h2 : g.decoders.values.Perm g'.decoders.values) (e1 : OneException g.encoders)
    (e2 : OneException g.decoders) : SameLookups g g' :=
  ⟨fun n s => encoderFuel_congr (fun s => getRegistration_congr (find_perm h1 e1 s)) n s,
    fun n s b => decoderFuel_congr (fun s => getRegistration_congr (find_perm h2 e2 s)) n s b⟩

theorem keeps_get (r : Nat) (h : History) : ∀ (p : Plain), r < p.length → Keeps r h →
    (p.run h)[r]? = p[r]? := by
  induction h with
  | nil => intro p _ _; rfl
  | cons c h ih =>
    intro p hr hk
    have hk0 := hk c List.mem_cons_self
    have step : r < (p.step c.2).length ∧ (p.step c.2)[r]? = p[r]? := by
      have hmod : ∀ (r' : Nat) (f : Registry → Registry), r' ≠ r →
          r < (p.on r' f).length ∧ (p.on r' f)[r]? = p[r]? := by
        intro r' f hne
        unfold Plain.on
        exact ⟨by simpa using hr, by rw [List.getElem?_modify]; simp [hne]⟩
      generalize c.2 = op at hk0 ⊢
      cases op
      case new => exact ⟨by simp [Plain.step]; omega, List.getElem?_append_left hr⟩
      case copy => exact ⟨by simp [Plain.step]; omega, List.getElem?_append_left hr⟩
      all_goals first
        | exact hmod _ _ fun e => absurd (congrArg some e) hk0
        | exact ⟨hr, rfl⟩
    rw [Plain.run, ih _ step.1 fun x hx => hk x (List.mem_cons_of_mem _ hx), step.2]

/-- Unregistering by the label undoes a registration. -/
theorem unregister_label {V : Type} {m : Mapping V} {l : LookupArg} {v : V} {label : Option (List Char)}
    {used : List Char} (hu : LabelUsed l label used) (h : (m.register l v label).1 = .ok ()) (i : Nat) :
    (m.register l v label).2.unregister (.str used i) = (.ok (), m) := by
  rcases hu with ⟨p, rfl, rfl⟩ | ⟨j, rfl⟩
  · exact removeByLabel_add h
  · exact removeByLabel_add (p := ⟨j, .equals used⟩) h

theorem onParsed_cases [Ext] (s : TypeStr) (test : ABIType → Bool) (e : Exc)
    (he : parse s = .error e) : (∃ b, onParsed s test = .ok b) ∨ onParsed s test = .error e := by
  unfold onParsed
  rw [he]
  by_cases hc : (e = .parseError || e.isValueError) = true
  · exact Or.inl ⟨false, by simp only; rw [if_pos hc]⟩
  · exact Or.inr (by simp only; rw [if_neg hc])

/-- The matchers of /repo that raise on a type string raise the same exception. -/
theorem oneException_of [Ext] {V : Type} (m : Mapping V)
    (h : ∀ q ∈ m.values, ∀ k f, q.1.kind ≠ .user k f) : OneException m := by
  intro s
  cases hp : parse s with
  | ok t =>
    refine ⟨.typeError, fun q hq => Or.inl ?_⟩
    unfold Pred.matches
    cases hk : q.1.kind with
    | user k f => exact absurd hk (h q hq k f)
    | equals v => exact ⟨_, rfl⟩
    | baseEquals b w => exact ⟨_, by simp only [onParsed, hp]; rfl⟩
    | hasArrlist => exact ⟨_, by simp only [onParsed, hp]; rfl⟩
    | isBaseTuple => exact ⟨_, by simp only [onParsed, hp]; rfl⟩
  | error e =>
    refine ⟨e, fun q hq => ?_⟩
    unfold Pred.matches
    cases hk : q.1.kind with
    | user k f => exact absurd hk (h q hq k f)
    | equals v => exact Or.inl ⟨_, rfl⟩
    | baseEquals b w => exact onParsed_cases s _ e hp
    | hasArrlist => exact onParsed_cases s _ e hp
    | isBaseTuple => exact onParsed_cases s _ e hp

theorem imported_has [Ext] {h : History} {r : Nat} {g : Registry}
    (hg : [defaultRegistry, packedRegistry][r]? = some g) (hk : Keeps r h) :
    Has r g (World.imported.run h) := by
  rw [← imported_plain] at hg
  obtain ⟨h1, h2, h3⟩ := run_ok h imported_inv
  have hr : r < World.imported.plain.length := by
    by_contra hc
    rw [List.getElem?_eq_none (by omega)] at hg
    cases hg
  have hlen : r < (World.imported.run h).regs.length :=
    Nat.lt_of_lt_of_le (by rw [← plain_length]; exact hr) h3
  have hp := keeps_get r h World.imported.plain hr hk
  rw [← h2, plain_get hlen, hg] at hp
  injection hp with hp
  exact ⟨h1, hlen, hp⟩

theorem default_has [Ext] {h : History} (hk : Keeps 0 h) :
    Has 0 defaultRegistry (World.imported.run h) := imported_has rfl hk

theorem packed_has [Ext] {h : History} (hk : Keeps 1 h) :
    Has 1 packedRegistry (World.imported.run h) := imported_has rfl hk

theorem hasEncoderAt_eq [Ext] {g : Registry} {fuel : Nat} {s : TypeStr}
    (h : getEncoderFuel g.encoders fuel s = getEncoder g s) : hasEncoderAt g fuel s = g.isEncodableType s := by
  unfold hasEncoderAt Registry.isEncodableType hasEncoder
  rw [h]
  cases getEncoder g s with
  | ok e => rfl
  | error e => cases e <;> rfl

theorem isEncodableAt_eq [Ext] {g : Registry} {fuel : Nat} {s : TypeStr}
    (h : getEncoderFuel g.encoders fuel s = getEncoder g s) (v : PyVal) :
    isEncodableAt g fuel s v = g.isEncodable s v := by
  unfold isEncodableAt Registry.isEncodable Registry.isEncodableType hasEncoder
  rw [h]
  cases getEncoder g s with
  | ok e => rfl
  | error e => cases e <;> rfl

/-! ## Histories that avoid a registry -/

theorem sameAt_avoids [Ext] {h h' : History} {r : Nat} (hr : r < (Plain.run [] h).length)
    (ha : Avoids r h') : SameAt r (World.empty.run (h ++ h')) (World.empty.run h) := by
  have hi : Inv (World.empty.run h) := (run_ok h inv_empty).1
  have hlen : r < (World.empty.run h).regs.length := by
    rw [← plain_length, plain_of]; exact hr
  obtain ⟨h1, _, h3⟩ := run_ok h' hi
  rw [world_run_append]
  exact ⟨h1, hi, Nat.lt_of_lt_of_le hlen h3, hlen, run_avoids h' hi hlen ha⟩

theorem same_has [Ext] {r : Nat} {w w' : World} (h : SameAt r w w') :
    Has r (w'.view r).reg w ∧ Has r (w'.view r).reg w' :=
  ⟨⟨h.inv, h.len, by rw [h.view]⟩, ⟨h.inv', h.len', rfl⟩⟩

/-- The registry made by `copy()` has the registrations of the original. -/
theorem copy_get {h : History} {r : Nat} {g : Registry} (hg : (Plain.run [] h)[r]? = some g) (n : Nat) :
    (Plain.run [] (h ++ [(n, .copy r)]))[(Plain.run [] h).length]? = some g := by
  rw [plain_snoc]
  show (Plain.run [] h ++ (Plain.run [] h)[r]?.toList)[(Plain.run [] h).length]? = some g
  rw [List.getElem?_append_right (Nat.le_refl _), hg, Nat.sub_self]
  rfl

theorem avoids_get [Ext] {h h' : History} {r : Nat} {g : Registry}
    (hg : (Plain.run [] h)[r]? = some g) (ha : Avoids r h') :
    (Plain.run [] (h ++ h'))[r]? = some g := by
  have hr : r < (Plain.run [] h).length := by
    by_contra hc
    rw [List.getElem?_eq_none (by omega)] at hg
    cases hg
  have hs := sameAt_avoids hr ha
  have h1 := plain_get hs.len
  rw [plain_of] at h1
  rw [h1, hs.view, ← hg, ← plain_of, plain_get hs.len']

theorem comesTo_unique {α : Type} {f : Nat → PyM α} {x y : PyM α} (hx : ComesTo f x)
    (hy : ComesTo f y) : x = y := by
  obtain ⟨n, hn⟩ := hx
  obtain ⟨m, hm⟩ := hy
  rw [← hn (n + m) (by omega), ← hm (n + m) (by omega)]

theorem getRegistration_two [Ext] {V : Type} {m : Mapping V} {s : TypeStr}
    (h : m.find s = .error .multipleEntriesFound)
    (hs : isInfix t!"No matching" s = false ∨ ∃ t, parse s = .ok t) :
    m.getRegistration s = .error .multipleEntriesFound := by
  unfold Mapping.getRegistration
  rw [h]
  rcases hs with hs | ⟨t, ht⟩
  · simp [hs]
  · simp only [ht]
    cases isInfix t!"No matching" s <;> rfl

theorem bind_throw_ne {α β : Type} {x : PyM α} {e : Exc} (h : x ≠ RE) (he : e ≠ .recursionError) :
    (do let _ ← x; throw e : PyM β) ≠ RE := by
  cases x with
  | ok a => intro h0; injection h0 with h0; exact he h0
  | error e' => intro h0; injection h0 with h0; subst h0; exact h rfl

end EthAbi
