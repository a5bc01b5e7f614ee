import Verif.Model.Settings

/-! # What the settings of an object are -/
namespace EthAbi.Spec

/-- The names that a `dict` has. -/
def keysOf {α : Type} (d : List (AttrName × α)) : List AttrName := d.map (·.1)

/-- A `dict`: no name twice. -/
def IsDict {α : Type} (d : List (AttrName × α)) : Prop := (keysOf d).Nodup

/-- The class attribute that an object with these classes in its `__mro__` shows: that of the first class which has one. -/
inductive Inherits {α : Type} : List (List (AttrName × α)) → AttrName → α → Prop where
  | here {d : List (AttrName × α)} {ds : List (List (AttrName × α))} {k : AttrName} {v : α} :
      (k, v) ∈ d → Inherits (d :: ds) k v
  | up {d : List (AttrName × α)} {ds : List (List (AttrName × α))} {k : AttrName} {v : α} :
      k ∉ keysOf d → Inherits ds k v → Inherits (d :: ds) k v

/-- A keyword that the class takes: the name of one of its attributes. -/
def KnownSetting {α : Type} (c : SettingsClass α) (k : AttrName) : Prop := (∃ v, Inherits c.mro k v) ∨ k ∈ c.metaNames

/-- The setting `k` of an object made with these keyword arguments is `v`: it was given, or it was not given and the class
has it. -/
def Setting {α : Type} (c : SettingsClass α) (kwargs : List (AttrName × α)) (k : AttrName) (v : α) : Prop :=
  (k, v) ∈ kwargs ∨ k ∉ keysOf kwargs ∧ Inherits c.mro k v

/-- `view` is how an object with these settings looks. -/
def ShowsSettings {α : Type} (c : SettingsClass α) (kwargs : List (AttrName × α)) (view : AttrName → Option α) : Prop :=
  ∀ k v, view k = some v ↔ Setting c kwargs k v

/-- `class Sub(cls): ...` with these attributes (and another name and `validate`). -/
def IsSubclass {α : Type} (sub c : SettingsClass α) (own : List (AttrName × α)) : Prop :=
  sub.mro = own :: c.mro ∧ sub.metaNames = c.metaNames

end EthAbi.Spec
