import Verif.Lemmas.Settings
import Verif.Props.Examples

/-! # C86: the settings of coder classes -/
namespace EthAbi
open Spec

theorem dictLookup_isSome {α : Type} {d : List (AttrName × α)} {k : AttrName} :
    (d.lookup k).isSome = false ↔ k ∉ keysOf d := by
  rw [← dictLookup_none]
  cases d.lookup k <;> simp

/-- **C86.**  If `cls(**kwargs)` returns, every keyword was the name of a class attribute, and each attribute of the object
is what was given, or else what the class has. -/
theorem C86_settings {α : Type} {c : SettingsClass α} (hc : ∀ d ∈ c.mro, IsDict d) {call : α → PyM Unit}
    {kwargs : List (AttrName × α)} (hk : IsDict kwargs) {o : SettingsObj α} (h : c.construct call kwargs = .ok o) :
    (∀ k ∈ keysOf kwargs, KnownSetting c k) ∧ ShowsSettings c kwargs o.getattr := by
  simp only [SettingsClass.construct] at h
  split at h
  · cases h
  · split at h
    · cases h
    · next o' ho =>
      have hh := assignAll_ok ho
      split at h
      · cases h
      · cases h
        refine ⟨?_, showsSettings_of hc hk ho⟩
        intro k hm
        obtain ⟨p, hp, rfl⟩ := List.mem_map.1 hm
        exact (hasattr_iff hc).1 (hh.2.1 p hp)

/-- **C86.**  A keyword that is not the name of a class attribute is refused: the exception names the first of them, and
the class. -/
theorem C86_unknown {α : Type} {c : SettingsClass α} (hc : ∀ d ∈ c.mro, IsDict d) (call : α → PyM Unit)
    (kwargs : List (AttrName × α)) (k : AttrName) (n : List Char) :
    c.construct call kwargs = .error (.notFound k n) ↔ t!"self" ∉ keysOf kwargs ∧ n = c.name ∧ ¬ KnownSetting c k ∧
      ∃ before v after, kwargs = before ++ (k, v) :: after ∧ ∀ j ∈ keysOf before, KnownSetting c j := by
  have hs : (kwargs.lookup t!"self").isSome = false ↔ t!"self" ∉ keysOf kwargs := dictLookup_isSome
  constructor
  · intro h
    simp only [SettingsClass.construct] at h
    split at h
    · cases h
    · next h0 =>
      refine ⟨hs.1 (Bool.eq_false_iff.2 h0), ?_⟩
      split at h
      · next e he =>
        obtain ⟨pre, k', v, post, h1, h2, h3, h4⟩ := assignAll_unknown.1 he
        cases h
        cases h4
        refine ⟨rfl, ?_, pre, v, post, h1, ?_⟩
        · rw [← hasattr_iff hc, h3]; simp
        · intro j hj
          obtain ⟨p, hp, rfl⟩ := List.mem_map.1 hj
          exact (hasattr_iff hc).1 (h2 p hp)
      · split at h <;> cases h
  · rintro ⟨h0, rfl, hn, pre, v, post, h1, h2⟩
    have h0 := hs.2 h0
    have : SettingsObj.assignAll kwargs ⟨c, []⟩ = .error (.notFound k c.name) := by
      refine assignAll_unknown.2 ⟨pre, k, v, post, h1, ?_, ?_, rfl⟩
      · exact fun p hp => (hasattr_iff hc).2 (h2 p.1 (List.mem_map.2 ⟨p, hp, rfl⟩))
      · show c.hasattr k = false
        rw [← hasattr_iff hc] at hn
        simpa using hn
    simp only [SettingsClass.construct, h0, this, Bool.false_eq_true, if_false]

/-- **C86.**  The text of that exception. -/
theorem C86_text (k : AttrName) (n : List Char) : (SettingsError.notFound k n).text =
    some (t!"Property " ++ k ++ t!" not found on " ++ n ++ t!" class. `" ++ n ++
      t!".__init__` only accepts keyword arguments which are present on the " ++ n ++ t!" class.") := rfl

/-- **C86.**  If the class takes all keywords, `validate` decides, and it sees the settings of the object as they will
be. -/
theorem C86_validated {α : Type} {c : SettingsClass α} (hc : ∀ d ∈ c.mro, IsDict d) (call : α → PyM Unit)
    {kwargs : List (AttrName × α)} (hk : IsDict kwargs) (hknown : ∀ k ∈ keysOf kwargs, KnownSetting c k)
    (hself : t!"self" ∉ keysOf kwargs) (hval : t!"validate" ∉ keysOf kwargs) {view : AttrName → Option α}
    (hv : ShowsSettings c kwargs view) :
    (∀ e, c.construct call kwargs = .error (.raised e) ↔ c.validate view = .error e) ∧
      ((∃ o, c.construct call kwargs = .ok o) ↔ c.validate view = .ok ()) := by
  have h0 : (kwargs.lookup t!"self").isSome = false := by rw [dictLookup_none.2 hself]; rfl
  obtain ⟨o, ho⟩ := assignAll_known (kwargs := kwargs) (o := ⟨c, []⟩)
    (fun p hp => (hasattr_iff hc).2 (hknown p.1 (List.mem_map.2 ⟨p, hp, rfl⟩)))
  have hview : o.getattr = view := showsSettings_unique (showsSettings_of hc hk ho) hv
  have hl : o.dict.lookup t!"validate" = none := by
    rw [(assignAll_ok ho).2.2 hk, dictLookup_none.2 hval]; rfl
  have hcon : c.construct call kwargs = (match c.validate view with
      | .error e => .error (.raised e)
      | .ok _ => .ok o) := by
    simp only [SettingsClass.construct, h0, ho, hl, hview, Bool.false_eq_true, if_false]
    cases c.validate view <;> rfl
  rw [hcon]
  cases hw : c.validate view with
  | error e' =>
    refine ⟨fun e => ?_, ?_⟩
    · constructor <;> intro h <;> cases h <;> rfl
    · constructor
      · rintro ⟨_, h⟩; cases h
      · intro h; cases h
  | ok u =>
    refine ⟨fun e => ?_, ?_⟩
    · constructor <;> intro h <;> cases h
    · exact ⟨fun _ => rfl, fun _ => ⟨o, rfl⟩⟩

/-- **C86.**  A keyword `validate` replaces the check: what was given is called, and the method of the class is not. -/
theorem C86_replaced {α : Type} {c : SettingsClass α} (hc : ∀ d ∈ c.mro, IsDict d) (call : α → PyM Unit)
    {kwargs : List (AttrName × α)} (hk : IsDict kwargs) (hknown : ∀ k ∈ keysOf kwargs, KnownSetting c k)
    (hself : t!"self" ∉ keysOf kwargs) {f : α} (hf : (t!"validate", f) ∈ kwargs) :
    (∀ e, c.construct call kwargs = .error (.raised e) ↔ call f = .error e) ∧
      ((∃ o, c.construct call kwargs = .ok o) ↔ call f = .ok ()) := by
  have h0 : (kwargs.lookup t!"self").isSome = false := by rw [dictLookup_none.2 hself]; rfl
  obtain ⟨o, ho⟩ := assignAll_known (kwargs := kwargs) (o := ⟨c, []⟩)
    (fun p hp => (hasattr_iff hc).2 (hknown p.1 (List.mem_map.2 ⟨p, hp, rfl⟩)))
  have hl : o.dict.lookup t!"validate" = some f := by
    rw [(assignAll_ok ho).2.2 hk, (dictLookup_some hk).2 hf]; rfl
  have hcon : c.construct call kwargs = (match call f with
      | .error e => .error (.raised e)
      | .ok _ => .ok o) := by
    simp only [SettingsClass.construct, h0, ho, hl, Bool.false_eq_true, if_false]
    cases call f <;> rfl
  rw [hcon]
  cases hw : call f with
  | error e' =>
    refine ⟨fun e => ?_, ?_⟩
    · constructor <;> intro h <;> cases h <;> rfl
    · constructor
      · rintro ⟨_, h⟩; cases h
      · intro h; cases h
  | ok u =>
    refine ⟨fun e => ?_, ?_⟩
    · constructor <;> intro h <;> cases h
    · exact ⟨fun _ => rfl, fun _ => ⟨o, rfl⟩⟩

/-- **C86.**  The order of the keywords does not matter: the objects look the same, and if one order is refused, so is the
other. -/
theorem C86_order {α : Type} {c : SettingsClass α} (hc : ∀ d ∈ c.mro, IsDict d) (call : α → PyM Unit)
    {kwargs kwargs' : List (AttrName × α)} (hk : IsDict kwargs) (hp : kwargs.Perm kwargs') {o : SettingsObj α}
    (h : c.construct call kwargs = .ok o) :
    ∃ o', c.construct call kwargs' = .ok o' ∧ o'.getattr = o.getattr := by
  have hkeys : ∀ k, k ∈ keysOf kwargs' ↔ k ∈ keysOf kwargs := fun k => (hp.map (fun p : AttrName × α => p.1)).symm.mem_iff
  have hk' : IsDict kwargs' := (hp.map (fun p : AttrName × α => p.1)).nodup_iff.1 hk
  have hset : ∀ k v, Setting c kwargs' k v ↔ Setting c kwargs k v := by
    intro k v
    simp only [Setting, hkeys, hp.mem_iff]
  obtain ⟨h1, h2⟩ := C86_settings hc hk h
  have hself : t!"self" ∉ keysOf kwargs := by
    intro hm
    simp only [SettingsClass.construct] at h
    split at h
    · cases h
    · next h0 =>
      exact absurd hm (dictLookup_isSome.1 (Bool.eq_false_iff.2 h0))
  have hview : ShowsSettings c kwargs' o.getattr := fun k v => (h2 k v).trans (hset k v).symm
  have hex : ∃ o', c.construct call kwargs' = .ok o' := by
    by_cases hv : t!"validate" ∈ keysOf kwargs
    · obtain ⟨⟨_, f⟩, hf, rfl⟩ := List.mem_map.1 hv
      have := (C86_replaced hc call hk h1 hself hf).2.1 ⟨o, h⟩
      exact (C86_replaced hc call hk' (fun k hk => h1 k ((hkeys k).1 hk)) (fun hm => hself ((hkeys _).1 hm))
        (hp.mem_iff.1 hf)).2.2 this
    · have := (C86_validated hc call hk h1 hself hv h2).2.1 ⟨o, h⟩
      exact (C86_validated hc call hk' (fun k hk => h1 k ((hkeys k).1 hk)) (fun hm => hself ((hkeys _).1 hm))
        (fun hm => hv ((hkeys _).1 hm)) hview).2.2 this
  obtain ⟨o', ho'⟩ := hex
  exact ⟨o', ho', showsSettings_unique (C86_settings hc hk' ho').2 hview⟩

/-- **C86.**  A subclass takes the keywords of its base class and its own, and its own attributes are its defaults. -/
theorem C86_subclass {α : Type} {sub c : SettingsClass α} {own : List (AttrName × α)} (h : IsSubclass sub c own)
    (k : AttrName) (v : α) :
    (KnownSetting sub k ↔ k ∈ keysOf own ∨ KnownSetting c k) ∧
      (Setting sub [] k v ↔ (k, v) ∈ own ∨ k ∉ keysOf own ∧ Setting c [] k v) := by
  have hin : ∀ u, Inherits sub.mro k u ↔ (k, u) ∈ own ∨ k ∉ keysOf own ∧ Inherits c.mro k u := by
    intro u
    rw [h.1]
    constructor
    · intro hi
      cases hi with
      | here h1 => exact .inl h1
      | up h1 h2 => exact .inr ⟨h1, h2⟩
    · rintro (h1 | ⟨h1, h2⟩)
      · exact .here h1
      · exact .up h1 h2
  refine ⟨?_, ?_⟩
  · simp only [KnownSetting, h.2]
    constructor
    · rintro (⟨u, hu⟩ | hm)
      · rcases (hin u).1 hu with h1 | ⟨_, h2⟩
        · exact .inl (List.mem_map.2 ⟨_, h1, rfl⟩)
        · exact .inr (.inl ⟨u, h2⟩)
      · exact .inr (.inr hm)
    · rintro (hk | ⟨u, hu⟩ | hm)
      · obtain ⟨⟨_, u⟩, hu, rfl⟩ := List.mem_map.1 hk
        exact .inl ⟨u, (hin u).2 (.inl hu)⟩
      · by_cases hk : k ∈ keysOf own
        · obtain ⟨⟨_, u'⟩, hu', rfl⟩ := List.mem_map.1 hk
          exact .inl ⟨u', (hin u').2 (.inl hu')⟩
        · exact .inl ⟨u, (hin u).2 (.inr ⟨hk, hu⟩)⟩
      · exact .inr hm
  · simp only [Setting, keysOf, List.map_nil, List.not_mem_nil, false_or, not_false_eq_true, true_and]
    exact hin v

/-- The default of a numeric setting. -/
def Attrs.get (a : Attrs) : Key → Option Nat
  | .valueBitSize => a.value
  | .dataByteSize => a.data
  | .fracPlaces => a.frac
  | .isBigEndian => a.big
  | .unknown _ => none

/-- **C86.**  The settings of the library's fixed-size classes, as their class statements give them, are those with which
C55, C59 and C61 are about them: the same names, and the same defaults. -/
theorem C86_library (c : Cls) (key : Key) (hkey : ∀ name, key ≠ .unknown name) :
    SettingsClass.find key.attr (mroOf c.encoderName encoderStmts.reverse) =
      (if c.hasattr key then some (c.attrs.get key) else none) ∧
    SettingsClass.find key.attr (mroOf c.decoderName decoderStmts.reverse) =
      (if c.hasattr key then some (c.attrs.get key) else none) := by
  cases key with
  | unknown name => exact absurd rfl (hkey name)
  | _ => clear hkey; cases c <;> decide +kernel

/-- **C86.**  The packed classes have the same settings and defaults, except that packed booleans have `data_byte_size` 1
and packed addresses 20. -/
theorem C86_packed (c : Cls) (key : Key) : (∀ name, key ≠ .unknown name) →
    SettingsClass.find key.attr (mroOf (t!"Packed" ++ c.encoderName) encoderStmts.reverse) =
      match c, key with
      | .bool, .dataByteSize => some (some 1)
      | .address, .dataByteSize => some (some 20)
      | c, key => SettingsClass.find key.attr (mroOf c.encoderName encoderStmts.reverse) := by
  intro hkey
  cases key with
  | unknown name => exact absurd rfl (hkey name)
  | _ => clear hkey; cases c <;> decide +kernel

/-- **C86.**  `StringDecoder` is the exception: its constructor takes `handle_string_errors` and no other keyword, although
that is not the name of a class attribute.  The object shows the given value, or `"strict"`, as `bytes_errors`, and else
the attributes of the class. -/
theorem C86_string {α : Type} {c : SettingsClass α} (hc : ∀ d ∈ c.mro, IsDict d) (deflt : α)
    {kwargs : List (AttrName × α)} (hk : IsDict kwargs) :
    (stringDecoderNew c deflt kwargs = .error (.raised .typeError) ∨
        ∀ k ∈ keysOf kwargs, k = t!"handle_string_errors") ∧
    (∀ o, stringDecoderNew c deflt kwargs = .ok o →
      (∀ k ∈ keysOf kwargs, k = t!"handle_string_errors") ∧
      (∀ v, o.getattr t!"bytes_errors" = some v ↔
        (t!"handle_string_errors", v) ∈ kwargs ∨ kwargs = [] ∧ v = deflt) ∧
      ∀ k v, k ≠ t!"bytes_errors" → (o.getattr k = some v ↔ Inherits c.mro k v)) := by
  have hall : (kwargs.any fun p => p.1 != t!"handle_string_errors") = false →
      ∀ k ∈ keysOf kwargs, k = t!"handle_string_errors" := by
    intro h k hm
    obtain ⟨p, hp, rfl⟩ := List.mem_map.1 hm
    simpa using List.any_eq_false.1 h p hp
  constructor
  · cases h : kwargs.any fun p => p.1 != t!"handle_string_errors" with
    | true => left; simp only [stringDecoderNew, h, if_true]
    | false => right; exact hall h
  · intro o ho
    simp only [stringDecoderNew] at ho
    split at ho
    · cases ho
    · next h =>
      have h := hall (Bool.eq_false_iff.2 h)
      split at ho
      · cases ho
      · cases ho
        refine ⟨h, fun v => ?_, fun k v hne => ?_⟩
        · simp only [SettingsObj.getattr, List.lookup, beq_self_eq_true, Option.some.injEq]
          match kwargs, hk, h with
          | [], _, _ => simp [List.lookup, eq_comm]
          | (k, u) :: kwargs, hk, h =>
            obtain rfl := h k (by simp [keysOf])
            have hn : kwargs = [] := by
              cases kwargs with
              | nil => rfl
              | cons p ps =>
                have hp := h p.1 (by simp [keysOf])
                simp [IsDict, keysOf, hp] at hk
            subst hn
            simp [List.lookup, eq_comm]
        · have hb : (k == t!"bytes_errors") = false := beq_eq_false_iff_ne.2 hne
          simp only [SettingsObj.getattr, List.lookup, hb]
          exact inherits_iff hc

/-- **C86.**  So `StringDecoder(strict=False)` raises `TypeError`, although `strict` is an attribute of the class
and every other decoder of the library takes it. -/
theorem C86_string_strict (c : SettingsClass (Option Nat))
    (hc : c.mro = mroOf t!"StringDecoder" decoderStmts.reverse) (deflt : Option Nat) :
    KnownSetting c t!"strict" ∧
      stringDecoderNew c deflt [(t!"strict", some 0)] = .error (.raised .typeError) := by
  refine ⟨.inl ⟨some 1, ?_⟩, rfl⟩
  rw [hc]
  refine (inherits_iff ?_).1 (by decide +kernel)
  unfold IsDict
  decide +kernel

/-- The class of the documentation: `class EncodeNull(BaseEncoder): word_width = None`, made with `word_width=2`. -/
def Ex.nullClass : SettingsClass (Option Nat) where
  name := t!"EncodeNull"
  mro := [(t!"word_width", none)] :: mroOf t!"BaseEncoder" encoderStmts.reverse
  metaNames := [t!"mro", t!"register"]
  validate _ := .ok ()

example : ∃ o, Ex.nullClass.construct (fun _ => .ok ()) [(t!"word_width", some 2)] = .ok o ∧
    o.getattr t!"word_width" = some (some 2) ∧ o.getattr t!"is_dynamic" = some (some 0) ∧
    o.getattr t!"word_size" = none := ⟨_, rfl, by decide +kernel⟩

example : Ex.nullClass.construct (fun _ => .ok ()) [(t!"word_width", some 2), (t!"word_size", none)] =
    .error (.notFound t!"word_size" t!"EncodeNull") := rfl

example : (∀ d ∈ Ex.nullClass.mro, IsDict d) ∧ IsDict [(t!"word_width", some 2)] := by
  constructor
  · unfold IsDict; decide +kernel
  · unfold IsDict; decide +kernel

end EthAbi
